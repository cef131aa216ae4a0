/-
What the pickup computes: induction in a coil.
-/
import Mathlib.Algebra.Field.Basic
import Mathlib.Data.Real.Basic

namespace Pyphs
namespace Pickup

/-- A coil of `N` turns in a magnetic circuit of capacity (permeance) `C`, crossed by the current `I`, with
the flux `φ` and its rate `dφ`; a magnet of force `h` behind a gap adds the flux at the rate `f h` and
receives the flux rate `m`. `V` is the voltage of the coil. -/
structure Coil {K : Type} [Field K] (N C f h V I φ dφ m : K) : Prop where
  /-- Hopkinson: the magnetomotive force of the coil is that of its flux. -/
  ampere : N * I = φ / C
  /-- Faraday: each turn gives the rate of the flux, less the one due to the motion. -/
  faraday : V = N * (dφ - f * h)
  /-- The flow of the magnet. -/
  magnet : m = -(f * (N * I))

/-- The flux through a coil of radius `Rp` of the field of a magnetised ball of radius `Rb` at the height
`q + Lv` and the distance `Lh`, for a unit force of the magnet. -/
noncomputable def flux (Rb Rp Lh Lv q : ℝ) : ℝ :=
  2 * Rb ^ 2 * Rp * ((q + Rp + Lv) / ((q + Rp + Lv) ^ 2 + Lh ^ 2) -
    (q - Rp + Lv) / ((q - Rp + Lv) ^ 2 + Lh ^ 2))

end Pickup
end Pyphs
