/-
Specification vocabulary for the core structure, independent of the functions of the code:
well-formedness, structure equations read by variable name, equality of two systems.
-/
import Verif.Core.Model

namespace Pyphs
namespace Core
open Finset

variable {K : Type} [Field K]

/-- The structure equations `b = M a`, read by variable name: `β` gives the flow of every
label (time derivative of a state, dissipation variable, output), `α` the dual effort
(gradient, dissipation law, input). -/
def StructEq (labels : List String) (M : Mat K) (β α : Env K) : Prop :=
  ∀ i < labels.length,
    β (labels.getD i "") = ∑ j ∈ range labels.length, M.e i j * α (labels.getD j "")

/-- Well-formedness: `M` has the size of the system, paired lists have equal lengths, names
are distinct. -/
structure WF (c : Core K) : Prop where
  Mr : c.M.r = c.tot
  Mc : c.M.c = c.tot
  uy : c.u.length = c.y.length
  cucy : c.cu.length = c.cy.length
  wz : c.w.length = c.z.length
  dxH : ∀ d, c.dxH = some d → d.length = c.x.length
  xl : c.xl ≤ c.x.length
  wl : c.wl ≤ c.w.length
  nodup : c.labels.Nodup

/-- Coefficient of `M` between two named variables. -/
def coef (c : Core K) (p q : String) : K := c.M.e (c.labels.idxOf p) (c.labels.idxOf q)

/-- Two cores describe the same system up to the order of the components: same variables,
each dissipation variable keeps its law, each output keeps its input, same energy, same
coefficient between any two named variables, and same solutions of the structure
equations. -/
structure SameSystem (c c' : Core K) : Prop where
  x : c'.x.Perm c.x
  laws : (c'.w.zip c'.z).Perm (c.w.zip c.z)
  ports : (c'.y.zip c'.u).Perm (c.y.zip c.u)
  conns : (c'.cy.zip c'.cu).Perm (c.cy.zip c.cu)
  H : c'.H = c.H
  connectors : c'.connectors = c.connectors
  coef : ∀ p ∈ c.labels, ∀ q ∈ c.labels, c'.coef p q = c.coef p q
  eqs : ∀ β α : Env K, StructEq c'.labels c'.M β α ↔ StructEq c.labels c.M β α

/-- `l'` is `l` with the element at position `i` now at position `f`, the others keeping
their order. -/
def MovedTo {α : Type} (i f : ℕ) (l l' : List α) : Prop :=
  l'[f]? = l[i]? ∧ l'.eraseIdx f = l.eraseIdx i

end Core
end Pyphs
