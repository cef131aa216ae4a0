/-
Model of `beamLength` and `waveNumbers` (pyphs/dictionary/beams/_cantilever.py:23-109), in exact
arithmetic on reals.
-/
import Mathlib.Analysis.SpecialFunctions.Pow.Real
import Mathlib.Analysis.SpecialFunctions.Trigonometric.Deriv
import Mathlib.Analysis.SpecialFunctions.Trigonometric.DerivHyp
import Mathlib.Data.Real.Sign

namespace Pyphs
namespace Beam
open Real

/-- `1 + cosh(x) * cos(x)` (_cantilever.py:54, 103). -/
noncomputable def chi (x : ℝ) : ℝ := 1 + cosh x * cos x

/-- Element `j` of `linspace(0, stop, num)`. -/
noncomputable def gridPoint (stop : ℝ) (num j : ℕ) : ℝ := j * (stop / (num - 1))

/-- `nonzero(abs(diff(sign(v))))[0]` for a vector of `num` elements `v 0`, `v 1`, … (_cantilever.py:54,
103). -/
noncomputable def signChanges (num : ℕ) (v : ℕ → ℝ) : List ℕ :=
  open Classical in (List.range (num - 1)).filter fun j => |Real.sign (v (j + 1)) - Real.sign (v j)| ≠ 0

/-- `waveNumbers` (_cantilever.py:60-109), the wave numbers. -/
noncomputable def waveNumbers (N : ℕ) (Lb : ℝ) : List ℝ :=
  let nPoints := N * 1000000
  let k := gridPoint (N * 2 * π / Lb) nPoints
  ((signChanges nPoints fun j => chi (k j * Lb)).map k).take N

/-- The frequency of a wave number (_cantilever.py:107). -/
noncomputable def frequency (Kb Mb k : ℝ) : ℝ := √(k ^ 4 * Kb / Mb) / (2 * π)

/-- `k0` of `beamLength` (_cantilever.py:48). -/
noncomputable def firstWave (f0 Kb Mb : ℝ) : ℝ := ((2 * π * f0) ^ 2 * Mb / Kb) ^ (1 / 4 : ℝ)

/-- `beamLength` (_cantilever.py:23-56); `none` is the `IndexError` of `Indices[0]`. -/
noncomputable def beamLength (f0 Kb Mb : ℝ) : Option ℝ :=
  let k0 := firstWave f0 Kb Mb
  let Lb := gridPoint 10 10000000
  (signChanges 10000000 fun j => chi (k0 * Lb j)).head?.map Lb

end Beam
end Pyphs
