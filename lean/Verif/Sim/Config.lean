import Mathlib.Logic.Function.Basic
import Mathlib.Data.Int.Notation
import Mathlib.Data.List.Basic

/-!
# Configuration dictionaries

Model of the treatment of the options: `config.py` 146-222 (the default dictionaries), `Method.__init__`
(`_method.py` 99-113), `Numeric.__init__` (`_numerical_core.py` 52-61), `Simulation.__init__`
(`simulation.py` 148-182), `config_*` 188-210, `init_numericalCore` 216-254 (the part on the
options), `init_method` 256-262, `Simulation.init` 264-342 (the part on the options), and the end of
`H5Data.__init__` (`h5data.py` 84-86).

Dictionaries are mutable objects of a heap: a value of a dictionary is a plain value or a reference
to another dictionary (the only case is `'load'`). `copy()` is shallow. The replacement of
a path None by the working directory, the files, and the symbolic content of the methods are not
modelled.
-/

namespace Pyphs
namespace Sim

/-- A value of a dictionary. -/
inductive Val (α : Type)
  | val (a : α)
  | ref (addr : ℕ)
  deriving DecidableEq

/-- A dictionary: its items. -/
abbrev Dict (α : Type) := List (String × Val α)

variable {α : Type}

/-- `d.get(k)` -/
def get : Dict α → String → Option (Val α)
  | [], _ => none
  | (k, v) :: d, k' => if k' = k then some v else get d k'

/-- `d[k] = v` -/
def set : Dict α → String → Val α → Dict α
  | [], k, v => [(k, v)]
  | (k, v) :: d, k', v' => if k' = k then (k, v') :: d else (k, v) :: set d k' v'

/-- `d.keys()` -/
def keys (d : Dict α) : List String := d.map Prod.fst

/-- `d.update(e)`; the keys of `e` are distinct, so that the order of the assignments has no effect
on the values. -/
def update (d e : Dict α) : Dict α := e.foldr (fun kv acc => set acc kv.1 kv.2) d

/-- `{k: d[k] for k in ks}`; a missing key raises, see `restrict_ok`. -/
def restrict (d : Dict α) : List String → Option (Dict α)
  | [] => some []
  | k :: ks => do
    let v ← get d k
    let r ← restrict d ks
    some ((k, v) :: r)

/-- `d == e` on dictionaries of plain values. -/
def same [DecidableEq α] (d e : Dict α) : Bool :=
  (keys d ++ keys e).all fun k => get d k == get e k

/-- The heap of dictionaries. -/
structure Heap (α : Type) where
  mem : ℕ → Dict α
  next : ℕ

/-- A new dictionary. -/
def Heap.alloc (h : Heap α) (d : Dict α) : Heap α × ℕ :=
  (⟨Function.update h.mem h.next d, h.next + 1⟩, h.next)

/-- `d.copy()` -/
def Heap.copy (h : Heap α) (a : ℕ) : Heap α × ℕ := h.alloc (h.mem a)

/-- `d.update(e)`, `d` being the dictionary at an address. -/
def Heap.upd (h : Heap α) (a : ℕ) (e : Dict α) : Heap α :=
  ⟨Function.update h.mem a (update (h.mem a) e), h.next⟩

/-- Exceptions. -/
inductive Err
  | attribute | key | type
  deriving DecidableEq

/-- Unknown keys. -/
def unknown (d cfg : Dict α) : Bool := (keys cfg).any fun k => decide (k ∉ keys d)

/-! ### Addresses of the defaults of `config.py` -/

/-- `CONFIG_NUMERIC` -/
def NUM : ℕ := 0

/-- `CONFIG_METHOD` -/
def MET : ℕ := 1

/-- `CONFIG_SIMULATION` -/
def SIM : ℕ := 2

/-- `CONFIG_CPP` -/
def CPP : ℕ := 3

/-- `LOAD_OPTS` -/
def LOAD : ℕ := 4

/-- `_method.py` 99-113 and `_numerical_core.py` 52-61: copy of the defaults, check of the keys, update.
An error leaves the heap with an object that nobody refers to. -/
def configure (h : Heap α) (base : ℕ) (cfg : Dict α) : Heap α × Except Err ℕ :=
  let r := h.copy base
  if unknown (r.1.mem r.2) cfg then (r.1, .error .attribute)
  else (r.1.upd r.2 cfg, .ok r.2)

/-- A simulation: addresses of its options and of those of its numerical object, and its method. -/
structure Simu where
  cfg : ℕ
  met : ℕ
  nums : ℕ
  deriving DecidableEq

/-- All the objects: the heap, the addresses of the options of the methods, the simulations. -/
structure World (α : Type) where
  heap : Heap α
  methods : List ℕ
  sims : List Simu

/-- `Method(core, config)` -/
def newMethod (w : World α) (cfg : Dict α) : World α × Option Err :=
  match configure w.heap MET cfg with
  | (h, .ok a) => (⟨h, w.methods ++ [a], w.sims⟩, none)
  | (h, .error e) => (⟨h, w.methods, w.sims⟩, some e)

/-- simulation.py:148-167: the options of a simulation. -/
def simConfig (h : Heap α) (met : ℕ) (cfg : Dict α) : Heap α × Except Err ℕ :=
  let r := h.copy SIM
  let h1 := r.1.upd r.2 (r.1.mem NUM)
  let h2 := h1.upd r.2 (h1.mem MET)
  let h3 := h2.upd r.2 (h2.mem CPP)
  let h4 := h3.upd r.2 (h3.mem met)
  if unknown (h4.mem r.2) cfg then (h4, .error .attribute)
  else (h4.upd r.2 cfg, .ok r.2)

/-- simulation.py:256-262 `init_method`: the method object is built again, in place. -/
def initMethod [DecidableEq α] (w : World α) (cfg m : ℕ) : World α × Option Err :=
  match w.methods[m]?, restrict (w.heap.mem cfg) (keys (w.heap.mem MET)) with
  | some a, some c =>
    if same c (w.heap.mem a) then (w, none)
    else
      match configure w.heap MET c with
      | (h, .ok b) => (⟨h, w.methods.set m b, w.sims⟩, none)
      | (h, .error e) => (⟨h, w.methods, w.sims⟩, some e)
  | _, _ => (w, some .key)

/-- h5data.py:84-86: the options of the reader are reset, in the dictionary `config['load']`. -/
def resetLoad (h : Heap α) (cfg : ℕ) (none' one : α) : Heap α × Option Err :=
  match get (h.mem cfg) "load" with
  | some (.ref l) =>
    (h.upd l [("start", .val none'), ("stop", .val none'), ("step", .val one)], none)
  | _ => (h, some .type)

/-- simulation.py:216-254 `init_numericalCore` (language Python): options of the numerical object,
and new reader. -/
def buildNums (w : World α) (cfg : ℕ) (none' one : α) : World α × Except Err ℕ :=
  match restrict (w.heap.mem cfg) (keys (w.heap.mem NUM)) with
  | none => (w, .error .key)
  | some c =>
    match configure w.heap NUM c with
    | (h, .error e) => ({ w with heap := h }, .error e)
    | (h, .ok b) =>
      match resetLoad h cfg none' one with
      | (h', none) => ({ w with heap := h' }, .ok b)
      | (h', some e) => ({ w with heap := h' }, .error e)

/-- `Simulation(method, config)` for the method number `m`. -/
def newSim [DecidableEq α] (w : World α) (m : ℕ) (cfg : Dict α) (none' one : α) :
    World α × Option Err :=
  match w.methods[m]? with
  | none => (w, some .key)
  | some a =>
    match simConfig w.heap a cfg with
    | (h, .error e) => ({ w with heap := h }, some e)
    | (h, .ok c) =>
      match initMethod { w with heap := h } c m with
      | (w1, some e) => (w1, some e)
      | (w1, none) =>
        match buildNums w1 c none' one with
        | (w2, .ok b) => ({ w2 with sims := w2.sims ++ [⟨c, m, b⟩] }, none)
        | (w2, .error e) => (w2, some e)

/-- An assignment to an option of the reader of a simulation (`data.start = 3`). -/
def setLoad (w : World α) (i : ℕ) (k : String) (v : α) : World α × Option Err :=
  match w.sims[i]? with
  | none => (w, some .key)
  | some s =>
    match get (w.heap.mem s.cfg) "load" with
    | some (.ref l) => ({ w with heap := w.heap.upd l [(k, .val v)] }, none)
    | _ => (w, some .type)

/-- simulation.py:305-342 `Simulation.init(config=..)`; `rebuild` tells whether `inits` or new
parameters ask for a new numerical object. -/
def initSim [DecidableEq α] (w : World α) (i : ℕ) (cfg : Dict α) (rebuild : Bool) (none' one : α) :
    World α × Option Err :=
  match w.sims[i]? with
  | none => (w, some .key)
  | some s =>
    let d := w.heap.mem s.cfg
    match restrict d (keys (w.heap.mem MET)), restrict d (keys (w.heap.mem NUM)),
      restrict d (keys (w.heap.mem SIM)) with
    | some cm, some cn, some cs =>
      let c := update (update (update cm cn) cs) cfg
      let r := if (keys cn ++ keys cm).any fun k => get d k != get c k then
          initMethod { w with heap := w.heap.upd s.cfg c } s.cfg s.met
        else (w, none)
      match r with
      | (w1, some e) => (w1, some e)
      | (w1, none) =>
        if rebuild then
          match buildNums w1 s.cfg none' one with
          | (w2, .ok b) => ({ w2 with sims := w2.sims.set i ⟨s.cfg, s.met, b⟩ }, none)
          | (w2, .error e) => (w2, some e)
        else (w1, none)
    | _, _, _ => (w, some .key)

/-- Operations of a session. -/
inductive Op (α : Type)
  | method (cfg : Dict α)
  | sim (m : ℕ) (cfg : Dict α)
  | load (i : ℕ) (k : String) (v : α)
  | init (i : ℕ) (cfg : Dict α) (rebuild : Bool)

/-- One operation. -/
def World.op [DecidableEq α] (none' one : α) (w : World α) : Op α → World α × Option Err
  | .method cfg => newMethod w cfg
  | .sim m cfg => newSim w m cfg none' one
  | .load i k v => setLoad w i k v
  | .init i cfg rebuild => initSim w i cfg rebuild none' one

/-- A session, whose exceptions are caught. -/
def World.run [DecidableEq α] (none' one : α) (w : World α) : List (Op α) → World α
  | [] => w
  | o :: os => World.run none' one (w.op none' one o).1 os

/-! ### The defaults -/

/-- Plain values of the examples. -/
inductive PV
  | none
  | int (n : ℤ)
  | str (s : String)
  deriving DecidableEq

/-- The default dictionaries (floats are given by their text). -/
def defaults : Heap PV where
  mem := fun a =>
    match a with
    | 0 => [("fs", .val (.int 48000)), ("eps", .val (.str "1e-12")), ("maxit", .val (.int 100)),
        ("theano", .val (.str "False")), ("gmin", .val (.str "GMIN")), ("dtype", .val (.str "float"))]
    | 1 => [("grad", .val (.str "discret")), ("theta", .val (.int 0)), ("split", .val (.str "True")),
        ("epsdg", .val (.str "EPS_DG"))]
    | 2 => [("path", .val .none), ("lang", .val (.str "python")), ("timer", .val (.str "False")),
        ("pbar", .val (.str "False")), ("dnames", .val (.str "DNAMES")), ("load", .ref 4)]
    | 3 => [("float", .val (.str "double")), ("cmake", .val (.str "cmake"))]
    | 4 => [("start", .val (.int 0)), ("stop", .val .none), ("step", .val (.int 1))]
    | _ => []
  next := 5

end Sim
end Pyphs
