/-
What the arguments of components mean, without symbols for them (specification of C80).
-/
import Verif.Params.Model

namespace Pyphs
namespace Params
open Sym

variable {K : Type} [Field K]

/-- Meaning of the operations used by the components. -/
structure Arith (I : Interp K) : Prop where
  add : ∀ a b, I.f2 "+" a b = a + b
  mul : ∀ a b, I.f2 "*" a b = a * b
  div : ∀ a b, I.f2 "/" a b = a / b
  inv : ∀ a, I.f1 "inv" a = a⁻¹

/-- The value meant by an argument: the number, the number of the tuple, the value of the named
parameter, or the value of the expression. -/
def Obj.value (I : Interp K) (e : String → K) : Obj K → K
  | .tuple _ v => v.expr.eval I e
  | .num c => c
  | .str s => e s
  | .expr a => a.eval I e

/-- Values of the symbols of the equations written in the source code of a component: the keys
have the values of the arguments, the other symbols are variables. -/
def atArgs (I : Interp K) (e : String → K) (kwargs : Dict (Obj K)) : String → K :=
  fun s => match kwargs.lookup s with
    | some o => o.value I e
    | none => e s

/-- Energy of a component. -/
def Comp.energy (I : Interp K) (e : String → K) : Comp K → K
  | .dissLinear .. => 0
  | .stoLinear label value false => value.value I e * e ("x" ++ label) ^ 2 / 2
  | .stoLinear label value true => (value.value I e)⁻¹ * e ("x" ++ label) ^ 2 / 2
  | .nonLinear _ kwargs H _ => H.eval I (atArgs I e kwargs)
  | .connector .. => 0

/-- Dissipation functions of a component (flux-controlled, effort-controlled). -/
def Comp.laws (I : Interp K) (e : String → K) : Comp K → List (K × K)
  | .dissLinear label r false => [(r.value I e * e ("w" ++ label), e ("w" ++ label) / r.value I e)]
  | .dissLinear label g true => [(e ("w" ++ label) / g.value I e, g.value I e * e ("w" ++ label))]
  | .stoLinear .. => []
  | .nonLinear _ kwargs _ z =>
    z.map fun q => (q.1.eval I (atArgs I e kwargs), q.2.eval I (atArgs I e kwargs))
  | .connector .. => []

/-- Coefficient of a connector. -/
def Comp.ratio (I : Interp K) (e : String → K) : Comp K → List K
  | .connector _ kwargs => [atArgs I e kwargs "alpha"]
  | _ => []

/-- The label of a component. -/
def Comp.label : Comp K → String
  | .dissLinear label _ _ => label
  | .stoLinear label _ _ => label
  | .nonLinear label _ _ _ => label
  | .connector label _ => label

/-- The arguments of a component, with the name of the symbol for arguments without name. -/
def Comp.args : Comp K → List (String × Obj K)
  | .dissLinear label o _ => [(label ++ "coeff", o)]
  | .stoLinear label o _ => [(label ++ "coeff", o)]
  | .nonLinear label kwargs _ _ => kwargs.map fun p => (label ++ "_" ++ p.1, p.2)
  | .connector label kwargs => kwargs.map fun p => (label ++ "_" ++ p.1, p.2)

/-- The keyword arguments for which symbols of the equations are replaced. -/
def Comp.kwargs : Comp K → Dict (Obj K)
  | .nonLinear _ kwargs _ _ => kwargs
  | .connector _ kwargs => kwargs
  | _ => []

/-- The symbols of the equations of a component, other than keys. -/
def Comp.vars : Comp K → List String
  | .dissLinear label _ _ => ["w" ++ label]
  | .stoLinear label _ _ => ["x" ++ label]
  | .nonLinear _ kwargs H z =>
    (H.free ++ z.flatMap fun q => q.1.free ++ q.2.free).filter fun s => s ∉ kwargs.map (·.1)
  | .connector _ kwargs => ["alpha"].filter fun s => s ∉ kwargs.map (·.1)

/-- The name of the symbol of an argument. -/
def Obj.symbol (auto : String) : Obj K → String
  | .tuple s _ => s
  | .str s => s
  | _ => auto

/-- The value recorded for an argument. -/
def Obj.recorded (auto : String) : Obj K → List (String × Val K)
  | .tuple s v => [(s, v)]
  | .num c => [(auto, .num c)]
  | .str _ => []
  | .expr a => [(auto, .ex a)]

/-- The name of a parameter given by its name only. -/
def Obj.named : Obj K → List String
  | .str s => [s]
  | _ => []

/-- All the values recorded by the components of a system. -/
def records (cs : List (Comp K)) : List (String × Val K) :=
  cs.flatMap fun c => c.args.flatMap fun a => a.2.recorded a.1

/-- All the parameters of a system given by their names. -/
def named (cs : List (Comp K)) : List String :=
  cs.flatMap fun c => c.args.flatMap fun a => a.2.named

/-- Conditions on the names. -/
structure NamesOK (cs : List (Comp K)) : Prop where
  /-- the keys of python keyword arguments are distinct -/
  keys : ∀ c ∈ cs, (c.kwargs.map (·.1)).Nodup
  /-- no symbol is the name of a key replaced later, in the order of the names -/
  order : ∀ c ∈ cs, ∀ p ∈ c.kwargs, ∀ q ∈ c.kwargs, p.1 < q.1 →
    p.2.symbol (c.label ++ "_" ++ p.1) ≠ q.1
  /-- no symbol has two values -/
  values : ∀ p ∈ records cs, ∀ q ∈ records cs, p.1 = q.1 → p.2 = q.2

/-- Conditions on the names for the variables and the parameters. -/
structure NamesFree (cs : List (Comp K)) : Prop where
  /-- no parameter given by its name has a recorded value -/
  pars : ∀ s ∈ named cs, s ∉ (records cs).map (·.1)
  /-- no variable has a recorded value -/
  vars : ∀ c ∈ cs, ∀ s ∈ c.vars, s ∉ (records cs).map (·.1)
  /-- no argument depends on a symbol with a recorded value -/
  exprs : ∀ p ∈ records cs, ∀ s ∈ p.2.expr.free, s ∉ (records cs).map (·.1)

end Params
end Pyphs
