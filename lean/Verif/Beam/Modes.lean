/-
The bending modes of a beam that is clamped at one end and free at the other, and the cosine window of
a contact: specification, with no reference to the formulas of the code.
-/
import Mathlib.Analysis.SpecialFunctions.Integrals.Basic
import Mathlib.Analysis.SpecialFunctions.Trigonometric.Deriv
import Mathlib.Analysis.SpecialFunctions.Trigonometric.DerivHyp
import Mathlib.Analysis.SpecialFunctions.Trigonometric.Bounds
import Mathlib.MeasureTheory.Integral.IntervalIntegral.FundThmCalculus
import Mathlib.Tactic.LinearCombination

namespace Pyphs
namespace Beam
open Real MeasureTheory

/-- `φ` with derivatives `φ1`, `φ2`, `φ3` and `φ'''' = k⁴ φ`: bending of a uniform beam. -/
structure Bending (k : ℝ) (φ φ1 φ2 φ3 : ℝ → ℝ) : Prop where
  d0 : ∀ x, HasDerivAt φ (φ1 x) x
  d1 : ∀ x, HasDerivAt φ1 (φ2 x) x
  d2 : ∀ x, HasDerivAt φ2 (φ3 x) x
  d3 : ∀ x, HasDerivAt φ3 (k ^ 4 * φ x) x

/-- Clamped at 0: no displacement and no slope. -/
def Clamped (φ φ1 : ℝ → ℝ) : Prop := φ 0 = 0 ∧ φ1 0 = 0

/-- Free at `L`: no bending moment and no shear. -/
def Free (L : ℝ) (φ2 φ3 : ℝ → ℝ) : Prop := φ2 L = 0 ∧ φ3 L = 0

/-- A mode of a cantilever beam of length `L`, normalised. -/
structure Mode (L k : ℝ) (φ : ℝ → ℝ) : Prop where
  shape : ∃ φ1 φ2 φ3, Bending k φ φ1 φ2 φ3 ∧ Clamped φ φ1 ∧ Free L φ2 φ3
  unit : ∫ x in (0 : ℝ)..L, φ x ^ 2 = 1

/-- Weight of the contact centered at `z` of width `w`. -/
noncomputable def window (z w x : ℝ) : ℝ := π / (2 * w) * cos (π * (x - z) / w)

/-- The mean displacement of `φ` under the window. -/
noncomputable def project (z w : ℝ) (φ : ℝ → ℝ) : ℝ :=
  ∫ x in (z - w / 2)..(z + w / 2), window z w x * φ x

/-- C77. The window is a weight: nonnegative, with integral 1. -/
theorem C77_window {z w : ℝ} (hw : 0 < w) :
    (∀ x, z - w / 2 ≤ x → x ≤ z + w / 2 → 0 ≤ window z w x) ∧
    ∫ x in (z - w / 2)..(z + w / 2), window z w x = 1 := by
  constructor
  · intro x h1 h2
    refine mul_nonneg (by positivity) (cos_nonneg_of_neg_pi_div_two_le_of_le ?_ ?_)
    · rw [le_div_iff₀ hw]; nlinarith [pi_pos]
    · rw [div_le_iff₀ hw]; nlinarith [pi_pos]
  · have hd : ∀ x ∈ Set.uIcc (z - w / 2) (z + w / 2),
        HasDerivAt (fun x => sin (π * (x - z) / w) / 2) (window z w x) x := by
      intro x _
      have h1 : HasDerivAt (fun x => π * (x - z) / w) (π * 1 / w) x :=
        (((hasDerivAt_id x).sub_const z).const_mul π).div_const w
      have := (h1.sin).div_const 2
      refine this.congr_deriv ?_
      unfold window
      field_simp
    rw [intervalIntegral.integral_eq_sub_of_hasDerivAt hd]
    · have e1 : π * (z + w / 2 - z) / w = π / 2 := by field_simp; ring
      have e2 : π * (z - w / 2 - z) / w = -(π / 2) := by field_simp; ring
      rw [e1, e2, sin_neg, sin_pi_div_two]
      norm_num
    · refine Continuous.intervalIntegrable ?_ _ _
      unfold window
      fun_prop

/-- C77. Two modes of different wave numbers are orthogonal: the modal equations of C76 are not
coupled. -/
theorem C77_orthogonal {L k k' : ℝ} {φ ψ : ℝ → ℝ} (hφ : Mode L k φ) (hψ : Mode L k' ψ)
    (hk : 0 ≤ k) (hk' : 0 ≤ k') (hne : k ≠ k') : ∫ x in (0 : ℝ)..L, φ x * ψ x = 0 := by
  obtain ⟨φ1, φ2, φ3, b, c, f⟩ := hφ.shape
  obtain ⟨ψ1, ψ2, ψ3, b', c', f'⟩ := hψ.shape
  have hd : ∀ x ∈ Set.uIcc 0 L, HasDerivAt
      (fun x => φ3 x * ψ x - φ2 x * ψ1 x + φ1 x * ψ2 x - φ x * ψ3 x)
      ((k ^ 4 - k' ^ 4) * (φ x * ψ x)) x := by
    intro x _
    have := ((((b.d3 x).mul (b'.d0 x)).sub ((b.d2 x).mul (b'.d1 x))).add
      ((b.d1 x).mul (b'.d2 x))).sub ((b.d0 x).mul (b'.d3 x))
    refine this.congr_deriv ?_
    ring
  have cont : Continuous fun x => (k ^ 4 - k' ^ 4) * (φ x * ψ x) := by
    have h1 : Continuous φ := continuous_iff_continuousAt.2 fun x => (b.d0 x).continuousAt
    have h2 : Continuous ψ := continuous_iff_continuousAt.2 fun x => (b'.d0 x).continuousAt
    fun_prop
  have h := intervalIntegral.integral_eq_sub_of_hasDerivAt hd (cont.intervalIntegrable _ _)
  rw [intervalIntegral.integral_const_mul] at h
  simp only [c.1, c.2, c'.1, c'.2, f.1, f.2, f'.1, f'.2, mul_zero, zero_mul, sub_zero, add_zero] at h
  refine (mul_eq_zero.1 h).resolve_left ?_
  intro e
  exact hne ((pow_left_inj₀ hk hk' (by norm_num : (4 : ℕ) ≠ 0)).1 (by linarith))

end Beam
end Pyphs
