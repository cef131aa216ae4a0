/-
Model of the parameters of the components of the dictionary
(/repo/pyphs/dictionary/tools.py:24-43, 166-242, edges/dissipatives.py, edges/storages.py,
edges/connectors.py, mechanics/_felt.py, core.py:309-365 and 952-973, graphs/graph.py:380-396,
695-703).

A component is created from a label and keyword arguments. An argument is a number, a tuple
(name, value), a name or an expression. Each argument becomes a symbol of the equations of the
component, together with an entry of `core.subs` (the value) or an entry of `core.p` (a
parameter which is an input of the simulation).

Left out: the nodes and the edges (see Verif/Graph), and the type checks of `form`.
-/
import Verif.Sym.Model

namespace Pyphs
namespace Params
open Sym

variable {K : Type}

/-- An argument given to a component. -/
inductive Obj (K : Type) where
  | tuple (s : String) (v : Val K)
  | num (c : K)
  | str (s : String)
  | expr (a : Expr K)

/-- The result `symb, sub, par` of `form`. The list `par` has at most one element. -/
structure Form (K : Type) where
  symb : String
  sub : Dict (Val K)
  par : List String

/-- dictionary/tools.py:172-218 `form(name, obj)` (also `Argument(name, obj)`). -/
def form (name : String) : Obj K → Form K
  | .tuple s v => ⟨s, [(s, v)], []⟩
  | .num c => ⟨name, [(name, .num c)], []⟩
  | .str s => ⟨s, [], [s]⟩
  | .expr a => ⟨name, [(name, .ex a)], []⟩

/-- The results of `mappars`: the replacements `dicpars`, the values `subs` and the parameters
given to `graph.core.add_parameters`. -/
structure Mapped (K : Type) where
  dicpars : Dict (Expr K)
  subs : Dict (Val K)
  pars : List String

/-- Name of the symbol of an argument without name: tools.py:230. -/
def parName (label key : String) : String := label ++ "_" ++ key

/-- dictionary/tools.py:221-235 `mappars(graph, **kwargs)`. -/
def mappars (label : String) (kwargs : Dict (Obj K)) : Mapped K :=
  kwargs.foldl (fun m p =>
    let f := form (parName label p.1) p.2
    ⟨m.dicpars.set p.1 (.sym f.symb), m.subs.update f.sub, m.pars ++ f.par⟩) ⟨[], [], []⟩

/-- dictionary/tools.py:36-43 `parametersDefault(pars)`. -/
def parametersDefault (pars : List (String × Obj K)) : Dict (Obj K) :=
  pars.foldl (fun d p => d.set p.1 p.2) []

/-- The arguments of a component with default values, e.g. electronics/_diode.py:23-24:
`parameters = parametersDefault(...); parameters.update(kwargs)`. -/
def withDefaults (pars : List (String × Obj K)) (kwargs : Dict (Obj K)) : Dict (Obj K) :=
  (parametersDefault pars).update kwargs

/-- The part of a core that depends on the parameters: the dictionary `subs`, the list `p`, the
storage function, the dissipation functions (one pair per edge: flux-controlled, then
effort-controlled) and the coefficients of the connectors. -/
structure PCore (K : Type) where
  subs : Dict (Val K)
  p : List String
  H : Expr K
  z : List (Expr K × Expr K)
  alpha : List (Expr K)

/-- A component. `z` and `H` contain the symbols of the variables and of the keys. -/
inductive Comp (K : Type) where
  /-- edges/dissipatives.py:18-64 `DissipativeLinear` -/
  | dissLinear (label : String) (coeff : Obj K) (inv : Bool)
  /-- edges/storages.py:19-48 `StorageLinear` -/
  | stoLinear (label : String) (value : Obj K) (inv : Bool)
  /-- edges/dissipatives.py:71-133 `DissipativeNonLinear` (`H = 0`), edges/storages.py:55-100
  `StorageNonLinear` (`z = []`), mechanics/_felt.py:16-55 (both) -/
  | nonLinear (label : String) (kwargs : Dict (Obj K)) (H : Expr K) (z : List (Expr K × Expr K))
  /-- edges/connectors.py:11-54 `Connector` -/
  | connector (label : String) (kwargs : Dict (Obj K))

/-- `a * b` and the other operations of the components. -/
def mul (a b : Expr K) : Expr K := .op2 "*" a b
def div (a b : Expr K) : Expr K := .op2 "/" a b
def inv (a : Expr K) : Expr K := .op1 "inv" a
def sq (a : Expr K) : Expr K := mul a a

variable [Field K]

/-- The core of a component, after `__init__`. -/
def Comp.core : Comp K → PCore K
  | .dissLinear label coeff inv =>
    let c := form (label ++ "coeff") coeff
    let w : Expr K := .sym ("w" ++ label)
    let zf := mul (.sym c.symb) w
    let ze := div w (.sym c.symb)
    let z := if inv then (ze, zf) else (zf, ze)
    -- lines 60-64
    ⟨Dict.update [] c.sub, if c.sub.length = 0 then [c.symb] else [], .const 0, [z], []⟩
  | .stoLinear label value inv =>
    let c := form (label ++ "coeff") value
    let x : Expr K := .sym ("x" ++ label)
    let s : Expr K := if inv then Params.inv (.sym c.symb) else .sym c.symb
    -- lines 44-48: `coeff.symb**-1` is the original symbol again if `inv_coeff`
    ⟨Dict.update [] c.sub, if c.sub.length = 0 then [c.symb] else [],
      div (mul s (sq x)) (.const 2), [], []⟩
  | .nonLinear label kwargs H z =>
    let m := mappars label kwargs
    ⟨Dict.update [] m.subs, m.pars, H.subsDict m.dicpars,
      z.map fun q => (q.1.subsDict m.dicpars, q.2.subsDict m.dicpars), []⟩
  | .connector label kwargs =>
    let m := mappars label kwargs
    ⟨Dict.update [] m.subs, m.pars, .const 0, [], [(Expr.sym "alpha").subsDict m.dicpars]⟩

/-- core.py:309-365 `Core.__add__`, restricted to these attributes. -/
def PCore.add (a b : PCore K) : PCore K :=
  ⟨(Dict.update [] a.subs).update b.subs, a.p ++ b.p, .op2 "+" a.H b.H, a.z ++ b.z,
    a.alpha ++ b.alpha⟩

/-- The core of a graph built from its components (graph.py:380-396, 695-703). -/
def coreOf (cs : List (Comp K)) : PCore K :=
  cs.foldl (fun c k => c.add k.core) ⟨[], [], .const 0, [], []⟩

/-- The attributes that `core.substitute` acts on. -/
def PCore.toS (c : PCore K) : SCore K :=
  ⟨c.subs, [[c.H], c.z.map (·.1), c.z.map (·.2), c.alpha]⟩

end Params
end Pyphs
