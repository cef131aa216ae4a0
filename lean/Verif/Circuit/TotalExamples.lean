/-
A circuit to which C67 applies.
-/
import Verif.Circuit.Total
import Verif.Circuit.RunExamples
import Verif.Numeric.TotalExamples

namespace Pyphs
namespace Circuit
open Scheme Graph Numeric Record H5

/-- The components of the circuit of a source, a gyrator, a resistor and a capacitor are monotone, if the
energy is convex. -/
theorem gMonotone {H : Sc} (hc : ∀ e, 0 ≤ pdiff (pdiff H "q") "q" e) : MonotoneCircuit gLaw gEdges H where
  cross := fun d hd ht r hr ht' h => absurd ((g_storage hr ht').trans (g_storage hd ht).symm) h
  convex := fun d hd ht e => by rw [g_storage hd ht]; exact hc e
  own := fun d hd ht f _ r hr ht' h => absurd ((g_diss hr ht').1.trans (g_diss hd ht).1.symm) h
  mono := fun d hd ht f hf e => by
    obtain ⟨h0, h1, h2⟩ := g_diss hd ht
    rw [h1, h2, gLaw_ze, gLaw_zf] at hf
    rw [h0]
    rcases hf with rfl | rfl <;> simp [pdiff, Function.update]

theorem linH_convex (e : Env ℝ) : 0 ≤ pdiff (pdiff linH "q") "q" e := by
  rw [linH_dd]; exact zero_le_one

/-- C67 applies to this circuit. -/
example (o : Config) (hfs : 0 < o.fs) (ht : 0 < o.epsdg) (hθ : o.kind = .theta → 0 ≤ o.θ) :=
  fun c2 (h : toCore gLaw 30 gNodes gEdges (gCore linH) = some c2) =>
    C67_circuit (gOK linH) gStatic (gRegular linH_indep linH_quad.smooth)
      (gMonotone linH_convex) h iSympy iSympy_ok o (gJacSound ht h) hfs hθ
      (.inr ⟨by rw [gStor]; exact linH_quad, ht⟩)

example (o : Config) (hfs : 0 < o.fs) (ht : 0 < o.epsdg) (hθ : o.kind = .theta → o.θ = 1 / 2) :=
  fun c2 (h : toCore gLaw 30 gNodes gEdges (gCore linH) = some c2) =>
    C67_passive (gOK linH) gStatic (gRegular linH_indep linH_quad.smooth)
      (gMonotone linH_convex) gPassive
      (by rw [gStor]; exact linH_quad) h iSympy iSympy_ok o (gJacSound ht h) hfs hθ ht

end Circuit
end Pyphs
