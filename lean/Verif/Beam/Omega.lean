/-
Model of `omega_cosine` (pyphs/dictionary/beams/_cantilever.py:112-150), in exact arithmetic on reals.
-/
import Mathlib.Analysis.SpecialFunctions.Trigonometric.Deriv
import Mathlib.Analysis.SpecialFunctions.Trigonometric.DerivHyp

namespace Pyphs
namespace Beam
open Real

/-- `a` of `omega_cosine` (_cantilever.py:147). -/
noncomputable def omegaNum (zp wp Lb km : ℝ) : ℝ :=
  √2 * π ^ 2 * (cosh (km * Lb) * ((π ^ 2 + (km * wp) ^ 2) * cos ((km * wp) / 2) * cos (km * zp) -
      (π ^ 2 - (km * wp) ^ 2) * cosh ((km * wp) / 2) * cosh (km * zp)) +
    (π ^ 2 + (km * wp) ^ 2) * cos ((km * wp) / 2) * (cos (km * (Lb - zp)) - sin (km * zp) * sinh (km * Lb)) -
    (π ^ 2 - (km * wp) ^ 2) * cosh ((km * wp) / 2) *
      (cos (km * Lb) * cosh (km * zp) + (sin (km * Lb) - sinh (km * Lb)) * sinh (km * zp)))

/-- The argument of the last square root of `omega_cosine` (_cantilever.py:148). -/
noncomputable def omegaRoot (Lb km : ℝ) : ℝ :=
  -(1 / km) * (-km * Lb * (2 + cos (2 * km * Lb) + cosh (2 * km * Lb)) +
    2 * cosh (km * Lb) * (-2 * km * Lb * cos (km * Lb) + sin (km * Lb)) +
    cosh (km * Lb) ^ 2 * sin (2 * km * Lb) + 2 * cos (km * Lb) * sinh (km * Lb) +
    (cos (km * Lb) ^ 2) * sinh (2 * km * Lb))

/-- `b` of `omega_cosine` (_cantilever.py:148). -/
noncomputable def omegaDen (wp Lb km : ℝ) : ℝ := (π ^ 4 - (km * wp) ^ 4) * √(omegaRoot Lb km)

/-- `omega_cosine` for one wave number (_cantilever.py:146-150). -/
noncomputable def omegaCosine (zp wp Lb km : ℝ) : ℝ := omegaNum zp wp Lb km / omegaDen wp Lb km

end Beam
end Pyphs
