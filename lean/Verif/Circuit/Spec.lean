/-
What a circuit is, independently of the code: the laws of Kirchhoff and of the components.
-/
import Verif.Graph.Connectors
import Verif.Graph.Controls

namespace Pyphs
namespace Circuit
open Core Graph

variable {K : Type} [Field K] [DecidableEq K]

/-- `β` and `α` are the effort `E` and the flow `F` of an edge; which one is which depends on the
control of the edge. -/
def Side (ec : Prop) (E F β α : K) : Prop := (ec → β = E ∧ α = F) ∧ (¬ ec → β = F ∧ α = E)

/-- The laws of the gyrators and transformers, for the two orientations found in C51. -/
def ConnLaws (edges : List (Edge K)) (ec : String → Prop) (E F : String → K) : Prop :=
  ∀ d1 ∈ edges, ∀ d2 ∈ edges, ∀ a, d1.type = .connector → d1.alpha = some a →
    d1.link = some d2.label →
    (d1.ctype = .gyrator →
      (¬ ec d1.label → GyratorLaw a (E d1.label) (F d1.label) (E d2.label) (F d2.label)) ∧
      (ec d1.label → GyratorLaw (-a) (E d1.label) (F d1.label) (E d2.label) (F d2.label))) ∧
    (d1.ctype = .transformer →
      (ec d1.label → TransformerLaw a (E d1.label) (F d1.label) (E d2.label) (F d2.label)) ∧
      (¬ ec d1.label →
        TransformerLaw (-a⁻¹) (E d1.label) (F d1.label) (E d2.label) (F d2.label)))

/-- Efforts and flows of all edges which satisfy the laws of Kirchhoff and of the connectors. -/
structure Network (nodes : List String) (edges : List (Edge K)) (ec : String → Prop)
    (E F : String → K) : Prop where
  kcl : FlowBalance nodes edges F
  kvl : FromPotentials edges E
  conn : ConnLaws edges ec E F

/-- Labels of the edges of a type. -/
def ofType (t : EType) (edges : List (Edge K)) : List (Edge K) := edges.filter fun d => d.type = t

/-- A graph and the core in which its components declared their variables. -/
structure CircuitOK (nodes : List String) (edges : List (Edge K)) (c : Core K) : Prop where
  datum : datum ∈ nodes
  distinct : nodes.Nodup
  ends : ∀ d ∈ edges, d.tail ∈ nodes ∧ d.head ∈ nodes
  labels : (edges.map (·.label)).Nodup
  links : LinksUnique edges
  free : ∀ d ∈ edges, d.type = .connector → d.ctrl = .unknown
  dxH : c.dxH = none
  xl : c.xl = 0
  wl : c.wl = 0
  cy : c.cy.Perm ((ofType .connector edges).map (·.label))
  cu : c.cu.length = c.cy.length
  conn : ConnOK c
  kind : ∀ (i : ℕ) k, c.connectors[i]? = some k →
    ∃ d1 d2 a, a ≠ 0 ∧ IsConnector edges c d1 d2 a i k

/-- The input of a port. -/
def inputOf (c : Core K) (l : String) : String := c.u.getD (c.y.idxOf l) ""

end Circuit
end Pyphs
