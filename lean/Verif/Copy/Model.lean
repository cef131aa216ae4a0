/-
Model of the copies of a core (/repo/pyphs/core/core.py: `__init__` 60-165, `save` 171-224, `load`
226-279, `__copy__` 284-304, `__add__` 308-365), with the references that Python objects share.

The attributes of a core hold either values that cannot change (`atom`: integers, `None`, sympy
expressions) or references to cells of a heap (lists, dictionaries, sets of names, matrices). The list
`connectors` is a cell that holds references to the dictionaries of the connectors. The two lists `u`
and `y` in such a dictionary are part of its cell, since no function of the code changes them in place.
-/
import Mathlib.Data.List.Dedup

namespace Pyphs
namespace Copy

/-- The elements of `attrstocopy`: the name of an attribute of the core, or of an attribute of its
attribute `dims`. -/
inductive Name
  | own (s : String)
  | sub (o s : String)
  deriving DecidableEq

/-- The name of the attribute (core.py:212-218). -/
def Name.key : Name → String
  | own s => s
  | sub _ s => s

inductive Val (α : Type)
  | atom (a : α)
  | ref (p : ℕ)

/-- Contents of the objects that can change. -/
inductive Data (α : Type)
  | list (l : List α)
  | dict (d : List (α × α))
  | names (l : List String)
  | mat (r c : ℕ) (e : List α)
  deriving DecidableEq

/-- The dictionary of a connector (core.py:790-792). -/
structure Conn (α : Type) where
  u : List α
  y : List α
  alpha : α
  deriving DecidableEq

inductive Cell (α : Type)
  | data (d : Data α)
  | conns (qs : List ℕ)
  | conn (c : Conn α)

abbrev Heap (α : Type) := List (Cell α)

abbrev Attrs (α : Type) := Name → Option (Val α)

/-- `setattr`. -/
def put {β : Type} (t : Name → Option β) (n : Name) (v : β) : Name → Option β :=
  fun m => if m = n then some v else t m

structure Obj (α : Type) where
  label : String
  attrs : Attrs α

/-- A value together with all that it refers to: what pickle writes in a file, and what a user sees when
reading the attribute. -/
inductive Tree (α : Type)
  | atom (a : α)
  | data (d : Data α)
  | conns (cs : List (Conn α))
  deriving DecidableEq

abbrev View (α : Type) := Name → Option (Tree α)

variable {α : Type}

def conn? (h : Heap α) (q : ℕ) : Option (Conn α) :=
  match h[q]? with
  | some (.conn c) => some c
  | _ => none

def read (h : Heap α) : Val α → Option (Tree α)
  | .atom a => some (.atom a)
  | .ref p =>
    match h[p]? with
    | some (.data d) => some (.data d)
    | some (.conns qs) => (qs.mapM (conn? h)).map .conns
    | _ => none

def view (h : Heap α) (t : Attrs α) : View α := fun n => (t n).bind (read h)

/-! ### Building objects -/

/-- A new object with the given content. -/
def alloc (h : Heap α) : Tree α → Heap α × Val α
  | .atom a => (h, .atom a)
  | .data d => (h ++ [.data d], .ref h.length)
  | .conns cs =>
    (h ++ cs.map .conn ++ [.conns (List.range' h.length cs.length)], .ref (h.length + cs.length))

/-- A sequence of `setattr` of new objects. -/
def fill (h : Heap α) (t : Attrs α) : List (Name × Tree α) → Heap α × Attrs α
  | [] => (h, t)
  | (n, x) :: l => fill (alloc h x).1 (put t n (alloc h x).2) l

/-- core.py:94-96. -/
def attrsToCopy : List Name :=
  [.sub "dims" "_xl", .sub "dims" "_wl", .sub "dims" "_xnl_mono", .own "connectors", .own "force_wnl",
    .own "subs", .own "M", .own "_dxH", .own "symbs_names", .own "exprs_names", .own "observers"]

/-- The content of a new core (core.py:101-143 and dimensions.py:45-49); `none` stands for Python's `None`
and `zero` for the number 0. -/
def defaults (none zero : α) : List (Name × Tree α) :=
  [(.own "_dxH", .atom none),
    (.own "symbs_names", .data (.names ["x", "w", "u", "y", "cu", "cy", "p"])),
    (.own "exprs_names", .data (.names ["H", "z", "Q", "Zl", "bl"])),
    (.own "M", .data (.mat 0 0 [])), (.own "connectors", .conns []), (.own "subs", .data (.dict [])),
    (.own "observers", .data (.dict [])), (.own "force_wnl", .data (.list [])),
    (.sub "dims" "_xl", .atom zero), (.sub "dims" "_wl", .atom zero),
    (.sub "dims" "_xnl_mono", .atom zero),
    (.own "x", .data (.list [])), (.own "w", .data (.list [])), (.own "u", .data (.list [])),
    (.own "y", .data (.list [])), (.own "cu", .data (.list [])), (.own "cy", .data (.list [])),
    (.own "p", .data (.list [])), (.own "H", .atom zero), (.own "z", .data (.list [])),
    (.own "Q", .data (.mat 0 0 [])), (.own "Zl", .data (.mat 0 0 [])), (.own "bl", .data (.mat 0 0 []))]

/-- The names in one of the two sets of names; anything else than a set raises. -/
def nameSet (v : View α) (s : String) : Option (List String) :=
  match v (.own s) with
  | some (.data (.names l)) => some l
  | _ => none

/-- `set().union(self.attrstocopy, self.exprs_names, self.symbs_names)`. -/
def nameUnion (v : View α) : Option (List Name) :=
  match nameSet v "exprs_names", nameSet v "symbs_names" with
  | some e, some s => some (attrsToCopy ++ e.map Name.own ++ s.map Name.own).dedup
  | _, _ => none

/-! ### `__copy__` -/

/-- `attr.copy()`, or `copy.copy(attr)`: a new object whose elements are those of the old one, so that the
elements of a list of connectors are shared. -/
def copyVal (h : Heap α) : Val α → Heap α × Val α
  | .atom a => (h, .atom a)
  | .ref p =>
    match h[p]? with
    | some c => (h ++ [c], .ref h.length)
    | none => (h, .ref p)

/-- The loop core.py:286-302; a missing attribute raises. -/
def copyInto (h : Heap α) (src t : Attrs α) : List Name → Option (Heap α × Attrs α)
  | [] => some (h, t)
  | n :: ns =>
    match src n with
    | none => none
    | some v => copyInto (copyVal h v).1 src (put t n (copyVal h v).2) ns

/-! ### Files -/

/-- What is stored by `save`. -/
structure Dico (α : Type) where
  label : String
  entries : String → Option (Tree α)

/-- The loop core.py:207-219; a missing attribute raises. -/
def collect (v : View α) (e : String → Option (Tree α)) : List Name → Option (String → Option (Tree α))
  | [] => some e
  | n :: ns =>
    match v n with
    | none => none
    | some x => collect v (fun k => if k = n.key then some x else e k) ns

/-- The loop core.py:262-276: stops at the first name that is not in the file (`KeyError`), what has been
set before stays. -/
def loadInto (h : Heap α) (t : Attrs α) (e : String → Option (Tree α)) : List Name → Heap α × Attrs α
  | [] => (h, t)
  | n :: ns =>
    match e n.key with
    | none => (h, t)
    | some x => loadInto (alloc h x).1 (put t n (alloc h x).2) e ns

/-! ### Changes of a core -/

/-- The elementary changes made by the methods of a core and by the functions that receive a core. -/
inductive Prim (α : Type)
  /-- `core.n = a` with `a` an expression or a number. -/
  | bindAtom (n : Name) (a : α)
  /-- `core.n = d` with `d` a new list, dictionary or matrix. -/
  | bind (n : Name) (d : Data α)
  /-- A change in place: `core.x += ...`, `core.subs.pop(...)`, `core.M[...] = ...`, `exprs_names.add`. -/
  | inplace (n : Name) (f : Data α → Data α)
  /-- `core.n = list()` (core.py:843). -/
  | clear (n : Name)
  /-- `core.connectors += [connector, ]` (core.py:793). -/
  | addConn (n : Name) (c : Conn α)
  /-- `core.connectors[k]['alpha'] = a` (graphs/build.py:98). -/
  | setAlpha (n : Name) (k : ℕ) (a : α)
  /-- `core.label = s` (graph.py:294). -/
  | label (s : String)

/-- A change that raises does nothing. -/
def Prim.run (h : Heap α) (o : Obj α) : Prim α → Heap α × Obj α
  | bindAtom n a => (h, { o with attrs := put o.attrs n (.atom a) })
  | bind n d => ((alloc h (.data d)).1, { o with attrs := put o.attrs n (alloc h (.data d)).2 })
  | inplace n f =>
    match o.attrs n with
    | some (.ref p) =>
      match h[p]? with
      | some (.data d) => (h.set p (.data (f d)), o)
      | _ => (h, o)
    | _ => (h, o)
  | clear n => ((alloc h (.conns [])).1, { o with attrs := put o.attrs n (alloc h (.conns [])).2 })
  | addConn n c =>
    match o.attrs n with
    | some (.ref p) =>
      match h[p]? with
      | some (.conns qs) => ((h ++ [Cell.conn c]).set p (.conns (qs ++ [h.length])), o)
      | _ => (h, o)
    | _ => (h, o)
  | setAlpha n k a =>
    match o.attrs n with
    | some (.ref p) =>
      match h[p]? with
      | some (.conns qs) =>
        match qs[k]? with
        | some q =>
          match h[q]? with
          | some (.conn c) => (h.set q (.conn { c with alpha := a }), o)
          | _ => (h, o)
        | none => (h, o)
      | _ => (h, o)
    | _ => (h, o)
  | label s => (h, { o with label := s })

/-! ### Worlds -/

structure World (α : Type) where
  heap : Heap α
  objs : List (Obj α)
  disk : String → Option (Dico α)

/-- What a program does with cores. The order in which Python enumerates a set is an argument (`ord`). -/
inductive Op (α : Type)
  /-- `Core(label)`. -/
  | new (label : Option String)
  /-- A change of core `i`, computed from its label and its content. -/
  | step (i : ℕ) (s : String → View α → Prim α)
  /-- `core.__copy__()`. -/
  | copy (i : ℕ) (ord : List Name → List Name)
  /-- `core_i + core_j`, where `F` gives all the attributes except the connectors. -/
  | add (i j : ℕ) (F : View α → View α → List (Name × Tree α))
  | save (i : ℕ) (label : Option String) (ord : List Name → List Name)
  | load (i : ℕ) (label : Option String) (ord : List Name → List Name)

/-- The references of a list of connectors. -/
def connRefs (h : Heap α) (t : Attrs α) : Option (List ℕ) :=
  match t (.own "connectors") with
  | some (.ref p) =>
    match h[p]? with
    | some (.conns qs) => some qs
    | _ => none
  | _ => none

/-- One action of a program; an action that raises (but for `load`, see above) changes nothing. -/
def Op.run (none' zero : α) (w : World α) : Op α → World α
  | new label =>
    let r := fill w.heap (fun _ => none) (defaults none' zero)
    { w with heap := r.1, objs := w.objs ++ [⟨label.getD "phs", r.2⟩] }
  | step i s =>
    match w.objs[i]? with
    | none => w
    | some o =>
      let r := (s o.label (view w.heap o.attrs)).run w.heap o
      { w with heap := r.1, objs := w.objs.set i r.2 }
  | copy i ord =>
    match w.objs[i]? with
    | none => w
    | some o =>
      match nameUnion (view w.heap o.attrs) with
      | none => w
      | some ns =>
        let r := fill w.heap (fun _ => none) (defaults none' zero)
        match copyInto r.1 o.attrs r.2 (ord ns) with
        | none => w
        | some c => { w with heap := c.1, objs := w.objs ++ [⟨o.label, c.2⟩] }
  | add i j F =>
    match w.objs[i]?, w.objs[j]? with
    | some o₁, some o₂ =>
      match connRefs w.heap o₁.attrs, connRefs w.heap o₂.attrs with
      | some q₁, some q₂ =>
        let r := fill w.heap (fun _ => none)
          (defaults none' zero ++ F (view w.heap o₁.attrs) (view w.heap o₂.attrs))
        { w with
          heap := r.1 ++ [.conns (q₁ ++ q₂)]
          objs := w.objs ++ [⟨o₁.label, put r.2 (.own "connectors") (.ref r.1.length)⟩] }
      | _, _ => w
    | _, _ => w
  | save i label ord =>
    match w.objs[i]? with
    | none => w
    | some o =>
      match nameUnion (view w.heap o.attrs) with
      | none => w
      | some ns =>
        match collect (view w.heap o.attrs) (fun _ => none) (ord ns) with
        | none => w
        | some e =>
          { w with disk := fun k => if k = label.getD o.label then some ⟨label.getD o.label, e⟩
                                    else w.disk k }
  | load i label ord =>
    match w.objs[i]? with
    | none => w
    | some o =>
      match w.disk (label.getD o.label) with
      | none => w
      | some d =>
        match nameUnion (view w.heap o.attrs) with
        | none => { w with objs := w.objs.set i { o with label := d.label } }
        | some ns =>
          let r := loadInto w.heap o.attrs d.entries (ord ns)
          { w with heap := r.1, objs := w.objs.set i ⟨d.label, r.2⟩ }

def runAll (none' zero : α) (w : World α) (ops : List (Op α)) : World α :=
  ops.foldl (fun w op => op.run none' zero w) w

/-! ### Methods of a core as sequences of changes -/

def extend (l : List α) : Data α → Data α
  | .list l' => .list (l' ++ l)
  | d => d

/-- core.py:880-881; `plus` is the sum of expressions. -/
def addStorages (plus : α → α → α) (x : List α) (H : α) : List (String → View α → Prim α) :=
  [fun _ _ => .inplace (.own "x") (extend x),
    fun _ v => match v (.own "H") with
      | some (.atom H') => .bindAtom (.own "H") (plus H' H)
      | _ => .inplace (.own "H") id]

/-- core.py:915-916. -/
def addDissipations (w z : List α) : List (String → View α → Prim α) :=
  [fun _ _ => .inplace (.own "w") (extend w), fun _ _ => .inplace (.own "z") (extend z)]

/-- core.py:949-950. -/
def addPorts (u y : List α) : List (String → View α → Prim α) :=
  [fun _ _ => .inplace (.own "u") (extend u), fun _ _ => .inplace (.own "y") (extend y)]

/-- core.py:969-973. -/
def addParameters [DecidableEq α] (p : List α) : List (String → View α → Prim α) :=
  [fun _ _ => .inplace (.own "p") (extend p),
    fun _ _ => .inplace (.own "subs") fun
      | .dict d => .dict (d.filter fun e => e.1 ∉ p)
      | d => d]

/-- core.py:512-521. -/
def setexpr (name : String) (x : α) : List (String → View α → Prim α) :=
  [fun _ _ => .inplace (.own "exprs_names") fun
      | .names l => .names (if name ∈ l then l else l ++ [name])
      | d => d,
    fun _ _ => .bindAtom (.own name) x]

/-- core.py:1277-1279: assignment of a block, as a function of the old matrix. -/
def setBlock (f : List α → List α) : List (String → View α → Prim α) :=
  [fun _ _ => .inplace (.own "M") fun
      | .mat r c e => .mat r c (f e)
      | d => d]

/-- The part of `add_connector` (core.py:783-793) that stores the description. -/
def addConnector (i j : ℕ) (alpha : α) : List (String → View α → Prim α) :=
  [fun _ v => match v (.own "u"), v (.own "y") with
    | some (.data (.list u)), some (.data (.list y)) =>
      .addConn (.own "connectors") ⟨(u[i]?).toList ++ (u[j]?).toList, (y[i]?).toList ++ (y[j]?).toList, alpha⟩
    | _, _ => .inplace (.own "u") id]

/-- graphs/build.py:95-98: the ratio of the connector that contains the output `e`. -/
def setRatio [DecidableEq α] (e alpha : α) : List (String → View α → Prim α) :=
  [fun _ v => match v (.own "connectors") with
    | some (.conns cs) => .setAlpha (.own "connectors") (cs.findIdx fun c => e ∈ c.y) alpha
    | _ => .inplace (.own "u") id]

end Copy
end Pyphs
