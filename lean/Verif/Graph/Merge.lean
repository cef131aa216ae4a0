import Mathlib.Algebra.Field.Basic
import Mathlib.Algebra.BigOperators.Group.List.Basic

/-!
# Merging of series and parallel components

Model of pyphs/graphs/subgraph.py:26-86 and 229-360. A law is a function of one variable.
Expressions with several variables (a component whose law depends on another one) are not covered.
-/

namespace Pyphs
namespace Graph

variable {K : Type}

/-- `sympy.solve(f(v) - y, v)[0]` as a function of `y`; `none` is `IndexError` (no solution). -/
abbrev Solver (K : Type) := (K → K) → Option (K → K)

/-- What is assumed of the solver: its answer is a solution. -/
def Solver.Sound (solve : Solver K) : Prop := ∀ f g, solve f = some g → ∀ y, f (g y) = y

section model
variable [Field K]

/-- subgraph.py:238-240, 281-283, 316-318, 357-359: `-f.subs(v, -v)` when the orientation is -1. -/
def orient (o : Bool) (f : K → K) : K → K := if o then f else fun v => -f (-v)

/-- Sum of the values of functions at a point. -/
def total (fs : List (K → K)) (v : K) : K := (fs.map fun f => f v).sum

/-- subgraph.py:67-80 `nonrealizable_merge_dissipatives`: the law of the merged component. -/
def nonrealDiss (solve : Solver K) (zs : List (K → K)) : Option (K → K) := do
  let iz ← zs.mapM solve
  solve (total iz)

/-- subgraph.py:83-86 `realizable_merge_dissipatives` -/
def realDiss (zs : List (K → K)) : K → K := total zs

/-- subgraph.py:26-48 `nonrealizable_merge_storages`: `integ` is `sympy.integrate`. The second
component is the function `iQ`, which is not returned by the code. -/
def nonrealStor (solve : Solver K) (integ : (K → K) → K → K) (dxH : List (K → K)) :
    Option ((K → K) × (K → K)) := do
  let idxH ← dxH.mapM solve
  let iQ ← solve (total idxH)
  some (fun X => (List.zipWith (fun dh idh => integ dh (idh (iQ X))) dxH idxH).sum, iQ)

/-- subgraph.py:51-59 `realizable_merge_storages` -/
def realStor (integ : (K → K) → K → K) (dxH : List (K → K)) : K → K :=
  fun X => (dxH.map fun dh => integ dh X).sum

end model
end Graph
end Pyphs
