/-
A circuit to which C69 and C70 apply, and a numerical object on which the iterations are made.
-/
import Verif.Circuit.UniqueExamples
import Verif.Circuit.Linear
import Verif.Circuit.Contract

namespace Pyphs
namespace Circuit
open Scheme Graph Numeric Record

theorem gLinear : LinearLaws gLaw gEdges := by
  intro d hd ht f hf
  obtain ⟨h0, h1, h2⟩ := g_diss hd ht
  rw [h1, h2, gLaw_ze, gLaw_zf] at hf
  rw [h0]
  intro e t
  rcases hf with rfl | rfl <;> simp [pdiff, Function.update]

/-- C69 applies to this circuit. -/
example (o : Config) (hfs : 0 < o.fs) (ht : 0 < o.epsdg) (hθ : o.kind = .theta → 0 ≤ o.θ) :=
  fun c2 (h : toCore gLaw 30 gNodes gEdges (gCore linH) = some c2) =>
    C69_linear (gOK linH) gStatic (gRegular linH_indep linH_quad.smooth)
      (gMonotone linH_convex) gLinear (by rw [gStor]; exact linH_quad) h iSympy iSympy_ok o (gJacSound ht h)
      hfs hθ ht

example (o : Config) (hfs : 0 < o.fs) (ht : 0 < o.epsdg) (hθ : o.kind = .theta → o.θ = 1 / 2) :=
  fun c2 (h : toCore gLaw 30 gNodes gEdges (gCore linH) = some c2) =>
    C69_passive (gOK linH) gStatic (gRegular linH_indep linH_quad.smooth)
      (gMonotone linH_convex) gLinear gPassive
      (by rw [gStor]; exact linH_quad) h iSympy iSympy_ok o (gJacSound ht h) hfs hθ ht

example {fs ε θ : ℝ} (hfs : 0 < fs) (hε : 0 < ε) (c2 : Core ℝ)
    (h : toCore gLaw 30 gNodes gEdges (gCore linH) = some c2) :=
  C69_same (gOK linH) gStatic (gRegular linH_indep linH_quad.smooth) (gMonotone linH_convex) gLinear
    (by rw [gStor]; exact linH_quad) h
    iSympy iSympy iSympy_ok iSympy_ok _ _ (gSameRule (fs := fs) (θ := θ) hε) (gJacSound hε h)
    (gJacSound hε h) hfs (by intro h; cases h) (by intro h; cases h) hε hε

/-- C70 applies to this circuit: the stiffness of its storage is 1. -/
example (o : Config) (hfs : 0 < o.fs) (ht : 0 < o.epsdg) (hw : 1 / 2 ≤ weight o.kind o.θ) :=
  fun c2 (h : toCore gLaw 30 gNodes gEdges (gCore linH) = some c2) =>
    C70_linear (gOK linH) gStatic (gRegular linH_indep linH_quad.smooth)
      (gMonotone linH_convex) gLinear (by rw [gStor]; exact linH_quad) h iSympy iSympy_ok o (gJacSound ht h)
      hfs hw ht (fun _ => 1) (fun d hd hty e => by
        have : d.label ∈ (ofType .storage gEdges).map (·.label) :=
          List.mem_map_of_mem (List.mem_filter.2 ⟨hd, by simpa using hty⟩)
        rw [gStor] at this
        rw [List.mem_singleton.1 this]
        exact congrFun linH_dd e)

end Circuit
end Pyphs
