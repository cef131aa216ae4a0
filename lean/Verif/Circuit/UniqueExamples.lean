/-
A circuit to which C68 applies.
-/
import Verif.Circuit.TotalExamples
import Verif.Circuit.Unique

namespace Pyphs
namespace Circuit
open Scheme Graph Numeric Record

/-- The trapezoidal rule with the splitting and the discrete gradient without it. -/
theorem gSameRule {fs ε θ : ℝ} (hε : 0 < ε) : SameRule linH ((ofType .storage gEdges).map (·.label))
    ⟨true, .trapez, θ, ε, fs⟩ ⟨false, .discret, θ, ε, fs⟩ :=
  ⟨rfl, .inr ⟨by rw [gStor]; exact linH_quad, hε, hε, rfl⟩⟩

/-- C68 applies to this circuit. -/
example {fs ε θ : ℝ} (hε : 0 < ε) (c2 : Core ℝ)
    (h : toCore gLaw 30 gNodes gEdges (gCore linH) = some c2) :=
  C68_options (gOK linH) gStatic h iSympy iSympy iSympy_ok iSympy_ok _ _ (gSameRule (fs := fs) (θ := θ) hε)

example {fs ε θ : ℝ} (hfs : 0 < fs) (hε : 0 < ε) (c2 : Core ℝ)
    (h : toCore gLaw 30 gNodes gEdges (gCore linH) = some c2) :=
  C68_simulation (gOK linH) gStatic (gRegular linH_indep linH_quad.smooth) (gMonotone linH_convex) h
    iSympy iSympy iSympy_ok iSympy_ok _ _ (gSameRule (fs := fs) (θ := θ) hε) (gJacSound hε h)
    (gJacSound hε h) hfs (by intro h; cases h)

end Circuit
end Pyphs
