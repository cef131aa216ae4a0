/-
A circuit to which C74 and C75 apply.
-/
import Verif.Circuit.LinearExamples
import Verif.Circuit.Error

namespace Pyphs
namespace Circuit
open Scheme Graph Numeric Record

theorem gInputs (H : Sc) : ∀ d ∈ gEdges, d.type = .port → ∀ r ∈ gEdges,
    (r.type = .storage → inputOf (gCore H) d.label ≠ dn r.label) ∧
    (r.type = .dissipative → inputOf (gCore H) d.label ≠ r.label) := by
  intro d hd ht r hr
  simp only [gEdges, List.mem_cons, List.not_mem_nil, or_false] at hd hr
  rcases hd with rfl | rfl | rfl | rfl | rfl <;> simp [gEdge] at ht
  rcases hr with rfl | rfl | rfl | rfl | rfl <;> simp [gEdge, inputOf, gCore, dn]

/-- Slopes of the two laws of a resistance of 3. -/
theorem gSlope : SlopeBound gLaw gEdges fun _ => 3 := by
  intro d hd ht f hf e
  obtain ⟨h0, h1, h2⟩ := g_diss hd ht
  rw [h1, h2, gLaw_ze, gLaw_zf] at hf
  rw [h0]
  rcases hf with rfl | rfl
  · have : pdiff (fun e : Env ℝ => e "w" / 3) "w" e = 1 / 3 := by simp [pdiff]
    rw [this]; norm_num
  · have : pdiff (fun e : Env ℝ => 3 * e "w") "w" e = 3 := by simp [pdiff]
    rw [this]

theorem linH_stiff : ∀ d ∈ gEdges, d.type = .storage →
    ∀ e, pdiff (pdiff (gCore linH).H d.label) d.label e = (fun _ => 1 : String → ℝ) d.label := by
  intro d hd hty e
  have : d.label ∈ (ofType .storage gEdges).map (·.label) :=
    List.mem_map_of_mem (List.mem_filter.2 ⟨hd, by simpa using hty⟩)
  rw [gStor] at this
  rw [List.mem_singleton.1 this]
  exact congrFun linH_dd e

/-- C74 applies to this circuit. -/
example (o : Config) (hfs : 0 < o.fs) (ht : 0 < o.epsdg) (hθ : o.kind = .theta → 0 ≤ o.θ) :=
  fun c2 (h : toCore gLaw 30 gNodes gEdges (gCore linH) = some c2) =>
    C74_circuit (gOK linH) gStatic (gRegular linH_indep linH_quad.smooth)
      (gMonotone linH_convex) (gInputs linH) h iSympy iSympy_ok o (gJacSound ht h) hfs hθ
      (.inr ⟨by rw [gStor]; exact linH_quad, ht⟩)

example (o : Config) (hfs : 0 < o.fs) (ht : 0 < o.epsdg) (hθ : o.kind = .theta → 0 ≤ o.θ) :=
  fun c2 (h : toCore gLaw 30 gNodes gEdges (gCore linH) = some c2) =>
    C74_run (gOK linH) gStatic (gRegular linH_indep linH_quad.smooth)
      (gMonotone linH_convex) h iSympy iSympy_ok o (gJacSound ht h) hfs hθ
      (.inr ⟨by rw [gStor]; exact linH_quad, ht⟩)

/-- C75 applies to this circuit. -/
example (o : Config) (hfs : 0 < o.fs) (ht : 0 < o.epsdg) (hw : 1 / 2 ≤ weight o.kind o.θ) :=
  fun c2 (h : toCore gLaw 30 gNodes gEdges (gCore linH) = some c2) =>
    C75_exact (gOK linH) gStatic (gRegular linH_indep linH_quad.smooth)
      (gMonotone linH_convex) (by rw [gStor]; exact linH_quad) h iSympy iSympy_ok o (gJacSound ht h)
      hfs hw ht (fun _ => 1) (fun _ => 3) linH_stiff gSlope

example (o : Config) (hfs : 0 < o.fs) (ht : 0 < o.epsdg) (hw : 1 / 2 ≤ weight o.kind o.θ) :=
  fun c2 (h : toCore gLaw 30 gNodes gEdges (gCore linH) = some c2) =>
    C75_runs (gOK linH) gStatic (gRegular linH_indep linH_quad.smooth)
      (gMonotone linH_convex) (by rw [gStor]; exact linH_quad) h iSympy iSympy_ok o (gJacSound ht h)
      hfs hw ht (fun _ => 1) (fun _ => 3) linH_stiff gSlope

/-- In this circuit, at 48 kHz with the discrete gradient, a residual of 1 adds at most this distance in one
step. -/
example : rate (fun _ => 1) (fun _ => 3) ["q"] ["w"] (1 / 2) 48000 =
    1 / 48000 + Real.sqrt (3 / 96000) := by
  unfold rate
  norm_num

end Circuit
end Pyphs
