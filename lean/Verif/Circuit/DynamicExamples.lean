/-
A circuit to which C81 applies: the resistance depends on the charge of the capacitor.
-/
import Verif.Circuit.DynamicProps
import Verif.Circuit.Examples

namespace Pyphs
namespace Circuit
open Scheme Core Graph Finset

/-- A resistance of `1 + q²`. -/
noncomputable def dLaw (s : String) (e : Env ℝ) : ℝ :=
  if s = "ze" then e "w" / (1 + e "q" ^ 2) else if s = "zf" then (1 + e "q" ^ 2) * e "w" else 0

theorem gStates : statesOf gEdges = ["q"] := gStor

theorem dState : StateLaws dLaw gEdges := by
  intro d hd ht
  rw [gStates]
  simp only [gEdges, List.mem_cons, List.not_mem_nil, or_false] at hd
  rcases hd with rfl | rfl | rfl | rfl | rfl <;> simp [gEdge] at ht
  have hw : ∀ e e' : Env ℝ, (∀ s, s ∉ ["q"].map gn → e s = e' s) → e "w" = e' "w" ∧ e "q" = e' "q" :=
    fun e e' h => ⟨h "w" (by decide), h "q" (by decide)⟩
  exact ⟨fun e e' h => by simp [gEdge, dLaw, (hw e e' h).1, (hw e e' h).2],
    fun e e' h => by simp [gEdge, dLaw, (hw e e' h).1, (hw e e' h).2]⟩

theorem dNames : StateNames (statesOf gEdges) := by
  rw [gStates]
  intro x hx
  obtain rfl := List.mem_singleton.1 hx
  decide

theorem dDiss : DissNames gEdges := by
  intro d hd ht d' hd' ht'
  simp only [gEdges, List.mem_cons, List.not_mem_nil, or_false] at hd hd'
  rcases hd with rfl | rfl | rfl | rfl | rfl <;> simp [gEdge] at ht
  rcases hd' with rfl | rfl | rfl | rfl | rfl <;> simp [gEdge] at ht'
  show "w" ≠ gn "q"
  decide

theorem dPassive : PassiveLaws dLaw gEdges := by
  intro d hd ht e
  simp only [gEdges, List.mem_cons, List.not_mem_nil, or_false] at hd
  rcases hd with rfl | rfl | rfl | rfl | rfl <;> simp [gEdge] at ht
  refine ⟨?_, ?_⟩
  · show 0 ≤ e "w" * (if "ze" = "ze" then _ else _)
    rw [if_pos rfl, mul_div_assoc']
    exact div_nonneg (mul_self_nonneg _) (by positivity)
  · show 0 ≤ e "w" * (if "zf" = "ze" then _ else if "zf" = "zf" then _ else _)
    rw [if_neg (by decide), if_pos rfl,
      show e "w" * ((1 + e "q" ^ 2) * e "w") = (1 + e "q" ^ 2) * (e "w") ^ 2 by ring]
    positivity

/-- The hypotheses of C81 are met by the circuit, for any options. The law depends on the state. -/
example (o : Config) : ∃ c2, toCore dLaw 30 gNodes gEdges (gCore linH) = some c2 ∧
    ∃ m, toMethod exSympy o c2 = some m := by
  obtain ⟨c2, h⟩ := gCore_any dLaw linH
  obtain ⟨m, -, hm, -⟩ := C81_step (gOK linH) dState dNames h exSympy exSympy_ok o
  exact ⟨c2, h, m, hm⟩

example : ¬ StaticLaws dLaw gEdges := by
  intro h
  have := (h gEdges[3] (by simp [gEdges]) rfl).2 (fun s => if s = "w" then 1 else 0)
    (fun s => if s = "w" then 1 else if s = "q" then 1 else 0)
    (fun s h1 h2 => by
      rw [show (ofType .storage gEdges).map (·.label) = ["q"] from gStor] at h1
      have : s ≠ "q" := by simpa using h1
      simp [this])
  simp [gEdges, gEdge, dLaw] at this

example (o : Config) (hfs : 0 < o.fs) (hθ : o.kind = .theta → o.θ = 1 / 2) :=
  fun c2 (h : toCore dLaw 30 gNodes gEdges (gCore linH) = some c2) =>
    C81_quadratic (gOK linH) dDiss dPassive (by rw [gStates]; exact linH_quad) h exSympy exSympy_ok o
      hfs hθ

example (o : Config) (hfs : 0 < o.fs) (hsp : o.split = false) (hk : o.kind = .discret)
    (ht : 0 < o.epsdg) :=
  fun c2 (h : toCore dLaw 30 gNodes gEdges (gCore nlH) = some c2) =>
    C81_nosplit (gOK nlH) dDiss dPassive (by rw [gStates]; exact nlH_smooth) h exSympy exSympy_ok
      exSympy_nz o hfs hsp hk ht

/-- C81. With `θ = 1/2` and `split=True`, the resistance in the equations solved for
this circuit is not that in the middle of the step, as it is with `split=False`: it is that at the end. -/
theorem C81_split_counterexample (o : Config) (hk : o.kind = .discret) (hθ : o.θ = 1 / 2) :
    ∃ c2 m ec, toCore dLaw 30 gNodes gEdges (gCore linH) = some c2 ∧ toMethod exSympy o c2 = some m ∧
      (o.split = true → ∀ e, m.Solved e ↔ ∃ E F,
        StepEqs (fun s e => dLaw s (shift ["q"] 1 e)) gNodes gEdges (gCore linH) m ec e E F) ∧
      (o.split = false → ∀ e, m.Solved e ↔ ∃ E F,
        StepEqs (fun s e => dLaw s (shift ["q"] (1 / 2) e)) gNodes gEdges (gCore linH) m ec e E F) ∧
      ∃ e : Env ℝ, dLaw "zf" (shift ["q"] 1 e) ≠ dLaw "zf" (shift ["q"] (1 / 2) e) := by
  obtain ⟨c2, h⟩ := gCore_any dLaw linH
  obtain ⟨m, ec, hm, -, -, -, -, -, -, hsol⟩ := C81_step (gOK linH) dState dNames h exSympy exSympy_ok o
  rw [gStates] at hsol
  have h1 : o.split = true → ∀ z : Sc, seen o ["q"] z = fun e => z (shift ["q"] 1 e) := by
    intro h z; funext e; simp only [seen, hk, h, hθ]; norm_num
  have h2 : o.split = false → ∀ z : Sc, seen o ["q"] z = fun e => z (shift ["q"] (1 / 2) e) := by
    intro h z; funext e; simp only [seen, hk, h, hθ]
  refine ⟨c2, m, ec, h, hm, fun h e => ?_, fun h e => ?_, fun s => if s = "w" ∨ s = "dq" then 1 else 0, ?_⟩
  · rw [hsol e]; simp only [h1 h]
  · rw [hsol e]; simp only [h2 h]
  · have : dn "q" = "dq" := by decide
    simp [dLaw, shift, this]
    norm_num

end Circuit
end Pyphs
