/-
C77: the coefficients that `omega_cosine` computes are the projections of the window of a contact on the
normalised modes of the cantilever beam.
-/
import Verif.Beam.Omega
import Verif.Beam.Modes

namespace Pyphs
namespace Beam
open Real MeasureTheory

/-- `P (cos - cosh) + R (sin - sinh)` with the coefficients of the cantilever beam, not normalised. -/
noncomputable def bare (L k x : ℝ) : ℝ :=
  (cos (k * L) + cosh (k * L)) * (cos (k * x) - cosh (k * x)) +
    (sin (k * L) - sinh (k * L)) * (sin (k * x) - sinh (k * x))

/-- `√2 / √Q` times the function `bare`. -/
noncomputable def modeShape (L k x : ℝ) : ℝ := √2 / √(omegaRoot L k) * bare L k x

/-! ### Combinations of the four solutions -/

/-- `A cos + B sin + C cosh + D sinh`. -/
noncomputable def bend (k A B C D x : ℝ) : ℝ :=
  A * cos (k * x) + B * sin (k * x) + C * cosh (k * x) + D * sinh (k * x)

theorem bend_deriv (k A B C D x : ℝ) :
    HasDerivAt (bend k A B C D) (bend k (k * B) (-(k * A)) (k * D) (k * C) x) x := by
  have h : HasDerivAt (fun x => k * x) k x := by simpa using (hasDerivAt_id x).const_mul k
  have := (((h.cos.const_mul A).add (h.sin.const_mul B)).add (h.cosh.const_mul C)).add (h.sinh.const_mul D)
  refine this.congr_deriv ?_
  unfold bend
  ring

theorem bend_bending (k A B C D : ℝ) : Bending k (bend k A B C D)
    (bend k (k * B) (-(k * A)) (k * D) (k * C))
    (bend k (-(k ^ 2 * A)) (-(k ^ 2 * B)) (k ^ 2 * C) (k ^ 2 * D))
    (bend k (-(k ^ 3 * B)) (k ^ 3 * A) (k ^ 3 * D) (k ^ 3 * C)) := by
  refine ⟨bend_deriv k A B C D, ?_, ?_, ?_⟩ <;> intro x <;>
    refine (bend_deriv k _ _ _ _ x).congr_deriv ?_ <;> unfold bend <;> ring

theorem bare_bend (L k : ℝ) : bare L k = bend k (cos (k * L) + cosh (k * L)) (sin (k * L) - sinh (k * L))
    (-(cos (k * L) + cosh (k * L))) (-(sin (k * L) - sinh (k * L))) := by
  funext x; unfold bare bend; ring

theorem modeShape_bend (L k : ℝ) : modeShape L k = bend k
    (√2 / √(omegaRoot L k) * (cos (k * L) + cosh (k * L)))
    (√2 / √(omegaRoot L k) * (sin (k * L) - sinh (k * L)))
    (-(√2 / √(omegaRoot L k) * (cos (k * L) + cosh (k * L))))
    (-(√2 / √(omegaRoot L k) * (sin (k * L) - sinh (k * L)))) := by
  funext x; unfold modeShape bare bend; ring

theorem bend_continuous (k A B C D : ℝ) : Continuous (bend k A B C D) :=
  continuous_iff_continuousAt.2 fun x => (bend_deriv k A B C D x).continuousAt

/-! ### Normalisation -/

/-- A primitive of the square of `P (cos - cosh) + R (sin - sinh)`. -/
noncomputable def squarePrim (k P R x : ℝ) : ℝ :=
  (P ^ 2 * (x + (sin (k * x) * cos (k * x) + sinh (k * x) * cosh (k * x)) / (2 * k) -
      (cos (k * x) * sinh (k * x) + sin (k * x) * cosh (k * x)) / k) +
    2 * P * R * ((sin (k * x) ^ 2 + sinh (k * x) ^ 2) / (2 * k) -
      (cos (k * x) * cosh (k * x) + sin (k * x) * sinh (k * x)) / (2 * k) -
      (sin (k * x) * sinh (k * x) - cos (k * x) * cosh (k * x)) / (2 * k)) +
    R ^ 2 * ((sinh (k * x) * cosh (k * x) - sin (k * x) * cos (k * x)) / (2 * k) -
      (sin (k * x) * cosh (k * x) - cos (k * x) * sinh (k * x)) / k))

theorem squarePrim_deriv {k : ℝ} (hk : k ≠ 0) (P R x : ℝ) :
    HasDerivAt (squarePrim k P R)
      ((P * (cos (k * x) - cosh (k * x)) + R * (sin (k * x) - sinh (k * x))) ^ 2) x := by
  have h : HasDerivAt (fun x => k * x) k x := by simpa using (hasDerivAt_id x).const_mul k
  have hs := h.sin
  have hc := h.cos
  have hS := h.sinh
  have hC := h.cosh
  have t1 := ((((hasDerivAt_id x).add (((hs.mul hc).add (hS.mul hC)).div_const (2 * k))).sub
    (((hc.mul hS).add (hs.mul hC)).div_const k)).const_mul (P ^ 2))
  have t2 := (((((hs.pow 2).add (hS.pow 2)).div_const (2 * k)).sub
    (((hc.mul hC).add (hs.mul hS)).div_const (2 * k))).sub
    (((hs.mul hS).sub (hc.mul hC)).div_const (2 * k))).const_mul (2 * P * R)
  have t3 := ((((hS.mul hC).sub (hs.mul hc)).div_const (2 * k)).sub
    (((hs.mul hC).sub (hc.mul hS)).div_const k)).const_mul (R ^ 2)
  refine ((t1.add t2).add t3).congr_deriv ?_
  have e1 := sin_sq_add_cos_sq (k * x)
  have e2 := cosh_sq (k * x)
  simp only [Nat.cast_ofNat, Nat.add_one_sub_one, pow_one]
  field_simp
  generalize cos (k * x) = c at *
  generalize sin (k * x) = s at *
  generalize cosh (k * x) = C at *
  generalize sinh (k * x) = S at *
  linear_combination (-(P ^ 2) - R ^ 2) * e1 + (R ^ 2 - P ^ 2) * e2

theorem omegaRoot_eq {k : ℝ} (hk : k ≠ 0) (L : ℝ) : omegaRoot L k =
    2 * L * (cos (k * L) + cosh (k * L)) ^ 2 -
      2 / k * (1 + cos (k * L) * cosh (k * L)) *
        (cosh (k * L) * sin (k * L) + cos (k * L) * sinh (k * L)) := by
  unfold omegaRoot
  have e : 2 * k * L = 2 * (k * L) := by ring
  rw [e, cos_two_mul, sin_two_mul, cosh_two_mul, sinh_two_mul]
  have e2 := cosh_sq (k * L)
  field_simp
  linear_combination (-1) * k * L * e2

theorem bare_square {k : ℝ} (hk : k ≠ 0) (L : ℝ) :
    ∫ x in (0 : ℝ)..L, bare L k x ^ 2 = omegaRoot L k / 2 := by
  have hd : ∀ x ∈ Set.uIcc 0 L, HasDerivAt
      (squarePrim k (cos (k * L) + cosh (k * L)) (sin (k * L) - sinh (k * L))) (bare L k x ^ 2) x :=
    fun x _ => squarePrim_deriv hk _ _ x
  have hc : Continuous fun x => bare L k x ^ 2 := by
    rw [bare_bend]; exact (bend_continuous _ _ _ _ _).pow 2
  rw [intervalIntegral.integral_eq_sub_of_hasDerivAt hd (hc.intervalIntegrable _ _), omegaRoot_eq hk]
  have e1 := sin_sq_add_cos_sq (k * L)
  have e2 := cosh_sq (k * L)
  unfold squarePrim
  simp only [mul_zero, cos_zero, sin_zero, cosh_zero, sinh_zero]
  generalize cos (k * L) = c at *
  generalize sin (k * L) = s at *
  generalize cosh (k * L) = C at *
  generalize sinh (k * L) = S at *
  field_simp
  linear_combination (c * s - 2 * c * S - C * S) * e1 + (-(c * s) + C * S - 2 * C * s) * e2

/-- At the free end, the function and its slope are not both zero. -/
theorem bare_end {L k : ℝ} (hk : 0 < k) (hL : 0 < L) (h : ∀ x ∈ Set.Icc 0 L, bare L k x = 0) : False := by
  have e1 := sin_sq_add_cos_sq (k * L)
  have e2 := cosh_sq (k * L)
  have hS : sinh (k * L) ≠ 0 := (sinh_pos_iff.2 (mul_pos hk hL)).ne'
  have h1 : sin (k * L) = 0 := by
    have := h L ⟨hL.le, le_refl _⟩
    unfold bare at this
    refine (mul_eq_zero.1 (show sin (k * L) * sinh (k * L) = 0 from ?_)).resolve_right hS
    linear_combination (-1 / 2 : ℝ) * this + (1 / 2 : ℝ) * e1 - (1 / 2 : ℝ) * e2
  have hd := (bend_deriv k (cos (k * L) + cosh (k * L)) (sin (k * L) - sinh (k * L))
    (-(cos (k * L) + cosh (k * L))) (-(sin (k * L) - sinh (k * L))) L).hasDerivWithinAt (s := Set.Icc 0 L)
  rw [← bare_bend] at hd
  have h0 : HasDerivWithinAt (bare L k) 0 (Set.Icc 0 L) L :=
    (hasDerivWithinAt_const L (Set.Icc 0 L) (0 : ℝ)).congr h (h L ⟨hL.le, le_refl _⟩)
  have hu := (uniqueDiffOn_Icc hL) L ⟨hL.le, le_refl _⟩
  have e := hu.eq_deriv _ hd h0
  unfold bend at e
  rw [h1] at e e1
  have h2 : cos (k * L) * sinh (k * L) = 0 := by
    refine (mul_eq_zero.1 (show k * (cos (k * L) * sinh (k * L)) = 0 from ?_)).resolve_left hk.ne'
    linear_combination (-1 / 2 : ℝ) * e
  rcases mul_eq_zero.1 h2 with h3 | h3
  · rw [h3] at e1; norm_num at e1
  · exact hS h3

theorem omegaRoot_pos {L k : ℝ} (hk : 0 < k) (hL : 0 < L) : 0 < omegaRoot L k := by
  have hc : Continuous fun x => bare L k x ^ 2 := by
    rw [bare_bend]; exact (bend_continuous _ _ _ _ _).pow 2
  have h1 := bare_square hk.ne' L
  by_contra hn
  refine bare_end hk hL fun x hx => ?_
  by_contra hx0
  have : 0 < ∫ x in (0 : ℝ)..L, bare L k x ^ 2 :=
    intervalIntegral.integral_pos hL hc.continuousOn (fun x _ => sq_nonneg _) ⟨x, hx, by positivity⟩
  linarith

/-! ### The modes -/

/-- C77. For all wave numbers, the shape used by the code bends as a uniform beam, is clamped at 0, has
no shear at `L` and is normalised. Its bending moment at `L` is zero exactly when the wave number
satisfies `1 + cosh (k L) cos (k L) = 0`. -/
theorem C77_shape {L k : ℝ} (hk : 0 < k) (hL : 0 < L) : ∃ φ1 φ2 φ3,
    Bending k (modeShape L k) φ1 φ2 φ3 ∧ Clamped (modeShape L k) φ1 ∧ φ3 L = 0 ∧
    (φ2 L = 0 ↔ 1 + cosh (k * L) * cos (k * L) = 0) ∧
    ∫ x in (0 : ℝ)..L, modeShape L k x ^ 2 = 1 := by
  have hQ := omegaRoot_pos hk hL
  have hr : √2 / √(omegaRoot L k) ≠ 0 := by positivity
  have hb := bend_bending k (√2 / √(omegaRoot L k) * (cos (k * L) + cosh (k * L)))
    (√2 / √(omegaRoot L k) * (sin (k * L) - sinh (k * L)))
    (-(√2 / √(omegaRoot L k) * (cos (k * L) + cosh (k * L))))
    (-(√2 / √(omegaRoot L k) * (sin (k * L) - sinh (k * L))))
  rw [← modeShape_bend] at hb
  refine ⟨_, _, _, hb, ?_, ?_, ?_, ?_⟩
  · rw [modeShape_bend]
    constructor
    · simp [bend]
    · simp [bend]
  · unfold bend; ring
  · have e1 := sin_sq_add_cos_sq (k * L)
    have e2 := cosh_sq (k * L)
    have : bend k (-(k ^ 2 * (√2 / √(omegaRoot L k) * (cos (k * L) + cosh (k * L)))))
        (-(k ^ 2 * (√2 / √(omegaRoot L k) * (sin (k * L) - sinh (k * L)))))
        (k ^ 2 * -(√2 / √(omegaRoot L k) * (cos (k * L) + cosh (k * L))))
        (k ^ 2 * -(√2 / √(omegaRoot L k) * (sin (k * L) - sinh (k * L)))) L =
        -2 * k ^ 2 * (√2 / √(omegaRoot L k)) * (1 + cosh (k * L) * cos (k * L)) := by
      unfold bend
      linear_combination (-k ^ 2 * (√2 / √(omegaRoot L k))) * e1 - k ^ 2 * (√2 / √(omegaRoot L k)) * e2
    rw [this]
    constructor
    · intro h
      exact (mul_eq_zero.1 h).resolve_left (mul_ne_zero (by positivity) hr)
    · intro h; rw [h, mul_zero]
  · have e : ∀ x, modeShape L k x ^ 2 = 2 / omegaRoot L k * bare L k x ^ 2 := by
      intro x
      unfold modeShape
      rw [mul_pow, div_pow, sq_sqrt (by norm_num), sq_sqrt hQ.le]
    simp only [e]
    rw [intervalIntegral.integral_const_mul, bare_square hk.ne']
    field_simp

/-- C77. At the wave numbers of a cantilever beam the shape is one of its modes. -/
theorem C77_mode {L k : ℝ} (hk : 0 < k) (hL : 0 < L) (hc : 1 + cosh (k * L) * cos (k * L) = 0) :
    Mode L k (modeShape L k) := by
  obtain ⟨φ1, φ2, φ3, h1, h2, h3, h4, h5⟩ := C77_shape hk hL
  exact ⟨⟨φ1, φ2, φ3, h1, h2, h4.2 hc, h3⟩, h5⟩

/-! ### The projection -/

/-- Projection of a trigonometric function. -/
theorem project_trig {k z w : ℝ} (hw : 0 < w) (hkw : (k * w) ^ 2 ≠ π ^ 2) (A B : ℝ) :
    project z w (bend k A B 0 0) =
      π ^ 2 / (π ^ 2 - (k * w) ^ 2) * (cos (k * w / 2) * bend k A B 0 0 z) := by
  have h0 : (π / w) ^ 2 - k ^ 2 ≠ 0 := by
    intro h
    apply hkw
    field_simp at h
    linarith
  have h0' : π ^ 2 - (k * w) ^ 2 ≠ 0 := fun h => hkw (by linarith)
  have hd : ∀ x ∈ Set.uIcc (z - w / 2) (z + w / 2), HasDerivAt
      (fun x => π / (2 * w) * (((π / w) * sin (π * (x - z) / w) * bend k A B 0 0 x +
        cos (π * (x - z) / w) * bend k (k * B) (-(k * A)) (k * 0) (k * 0) x) / ((π / w) ^ 2 - k ^ 2)))
      (window z w x * bend k A B 0 0 x) x := by
    intro x _
    have h1 : HasDerivAt (fun x => π * (x - z) / w) (π * 1 / w) x :=
      (((hasDerivAt_id x).sub_const z).const_mul π).div_const w
    have h2 := bend_deriv k A B 0 0 x
    have h3 := bend_deriv k (k * B) (-(k * A)) (k * 0) (k * 0) x
    have := (((((h1.sin.const_mul (π / w)).mul h2).add (h1.cos.mul h3)).div_const
      ((π / w) ^ 2 - k ^ 2)).const_mul (π / (2 * w)))
    refine this.congr_deriv ?_
    unfold window
    have e : bend k (k * -(k * A)) (-(k * (k * B))) (k * (k * 0)) (k * (k * 0)) x =
        -k ^ 2 * bend k A B 0 0 x := by unfold bend; ring
    have e' : π / w * (cos (π * (x - z) / w) * (π * 1 / w)) * bend k A B 0 0 x +
        π / w * sin (π * (x - z) / w) * bend k (k * B) (-(k * A)) (k * 0) (k * 0) x +
        (-sin (π * (x - z) / w) * (π * 1 / w) * bend k (k * B) (-(k * A)) (k * 0) (k * 0) x +
          cos (π * (x - z) / w) * (-k ^ 2 * bend k A B 0 0 x)) =
        ((π / w) ^ 2 - k ^ 2) * (cos (π * (x - z) / w) * bend k A B 0 0 x) := by ring
    rw [e, e', mul_div_cancel_left₀ _ h0]
    ring
  have hc : Continuous fun x => window z w x * bend k A B 0 0 x := by
    have := bend_continuous k A B 0 0
    unfold window
    fun_prop
  unfold project
  rw [intervalIntegral.integral_eq_sub_of_hasDerivAt hd (hc.intervalIntegrable _ _)]
  have e1 : π * (z + w / 2 - z) / w = π / 2 := by field_simp; ring
  have e2 : π * (z - w / 2 - z) / w = -(π / 2) := by field_simp; ring
  have e3 : bend k A B 0 0 (z + w / 2) + bend k A B 0 0 (z - w / 2) =
      2 * (cos (k * w / 2) * bend k A B 0 0 z) := by
    unfold bend
    have a1 : k * (z + w / 2) = k * z + k * w / 2 := by ring
    have a2 : k * (z - w / 2) = k * z - k * w / 2 := by ring
    rw [a1, a2, cos_add, cos_sub, sin_add, sin_sub]
    ring
  rw [e1, e2, sin_neg, cos_neg, sin_pi_div_two, cos_pi_div_two]
  have e4 : π / (2 * w) * ((π / w * 1 * bend k A B 0 0 (z + w / 2) +
        0 * bend k (k * B) (-(k * A)) (k * 0) (k * 0) (z + w / 2)) / ((π / w) ^ 2 - k ^ 2)) -
      π / (2 * w) * ((π / w * -1 * bend k A B 0 0 (z - w / 2) +
        0 * bend k (k * B) (-(k * A)) (k * 0) (k * 0) (z - w / 2)) / ((π / w) ^ 2 - k ^ 2)) =
      π / (2 * w) * (π / w) / ((π / w) ^ 2 - k ^ 2) *
        (bend k A B 0 0 (z + w / 2) + bend k A B 0 0 (z - w / 2)) := by ring
  rw [e4, e3]
  have e5 : π / (2 * w) * (π / w) / ((π / w) ^ 2 - k ^ 2) * 2 = π ^ 2 / (π ^ 2 - (k * w) ^ 2) := by
    have : (π / w) ^ 2 - k ^ 2 = (π ^ 2 - (k * w) ^ 2) / w ^ 2 := by field_simp
    rw [this]
    field_simp
  linear_combination (cos (k * w / 2) * bend k A B 0 0 z) * e5

/-- Projection of a hyperbolic function. -/
theorem project_hyp {k z w : ℝ} (hw : 0 < w) (C D : ℝ) :
    project z w (bend k 0 0 C D) =
      π ^ 2 / (π ^ 2 + (k * w) ^ 2) * (cosh (k * w / 2) * bend k 0 0 C D z) := by
  have h0 : (π / w) ^ 2 + k ^ 2 ≠ 0 := by positivity
  have h0' : π ^ 2 + (k * w) ^ 2 ≠ 0 := by positivity
  have hd : ∀ x ∈ Set.uIcc (z - w / 2) (z + w / 2), HasDerivAt
      (fun x => π / (2 * w) * (((π / w) * sin (π * (x - z) / w) * bend k 0 0 C D x +
        cos (π * (x - z) / w) * bend k (k * 0) (-(k * 0)) (k * D) (k * C) x) / ((π / w) ^ 2 + k ^ 2)))
      (window z w x * bend k 0 0 C D x) x := by
    intro x _
    have h1 : HasDerivAt (fun x => π * (x - z) / w) (π * 1 / w) x :=
      (((hasDerivAt_id x).sub_const z).const_mul π).div_const w
    have h2 := bend_deriv k 0 0 C D x
    have h3 := bend_deriv k (k * 0) (-(k * 0)) (k * D) (k * C) x
    have := (((((h1.sin.const_mul (π / w)).mul h2).add (h1.cos.mul h3)).div_const
      ((π / w) ^ 2 + k ^ 2)).const_mul (π / (2 * w)))
    refine this.congr_deriv ?_
    unfold window
    have e : bend k (k * -(k * 0)) (-(k * (k * 0))) (k * (k * C)) (k * (k * D)) x =
        k ^ 2 * bend k 0 0 C D x := by unfold bend; ring
    have e' : π / w * (cos (π * (x - z) / w) * (π * 1 / w)) * bend k 0 0 C D x +
        π / w * sin (π * (x - z) / w) * bend k (k * 0) (-(k * 0)) (k * D) (k * C) x +
        (-sin (π * (x - z) / w) * (π * 1 / w) * bend k (k * 0) (-(k * 0)) (k * D) (k * C) x +
          cos (π * (x - z) / w) * (k ^ 2 * bend k 0 0 C D x)) =
        ((π / w) ^ 2 + k ^ 2) * (cos (π * (x - z) / w) * bend k 0 0 C D x) := by ring
    rw [e, e', mul_div_cancel_left₀ _ h0]
    ring
  have hc : Continuous fun x => window z w x * bend k 0 0 C D x := by
    have := bend_continuous k 0 0 C D
    unfold window
    fun_prop
  unfold project
  rw [intervalIntegral.integral_eq_sub_of_hasDerivAt hd (hc.intervalIntegrable _ _)]
  have e1 : π * (z + w / 2 - z) / w = π / 2 := by field_simp; ring
  have e2 : π * (z - w / 2 - z) / w = -(π / 2) := by field_simp; ring
  have e3 : bend k 0 0 C D (z + w / 2) + bend k 0 0 C D (z - w / 2) =
      2 * (cosh (k * w / 2) * bend k 0 0 C D z) := by
    unfold bend
    have a1 : k * (z + w / 2) = k * z + k * w / 2 := by ring
    have a2 : k * (z - w / 2) = k * z - k * w / 2 := by ring
    rw [a1, a2, cosh_add, cosh_sub, sinh_add, sinh_sub]
    ring
  rw [e1, e2, sin_neg, cos_neg, sin_pi_div_two, cos_pi_div_two]
  have e4 : π / (2 * w) * ((π / w * 1 * bend k 0 0 C D (z + w / 2) +
        0 * bend k (k * 0) (-(k * 0)) (k * D) (k * C) (z + w / 2)) / ((π / w) ^ 2 + k ^ 2)) -
      π / (2 * w) * ((π / w * -1 * bend k 0 0 C D (z - w / 2) +
        0 * bend k (k * 0) (-(k * 0)) (k * D) (k * C) (z - w / 2)) / ((π / w) ^ 2 + k ^ 2)) =
      π / (2 * w) * (π / w) / ((π / w) ^ 2 + k ^ 2) *
        (bend k 0 0 C D (z + w / 2) + bend k 0 0 C D (z - w / 2)) := by ring
  rw [e4, e3]
  have e5 : π / (2 * w) * (π / w) / ((π / w) ^ 2 + k ^ 2) * 2 = π ^ 2 / (π ^ 2 + (k * w) ^ 2) := by
    have : (π / w) ^ 2 + k ^ 2 = (π ^ 2 + (k * w) ^ 2) / w ^ 2 := by field_simp
    rw [this]
    field_simp
  linear_combination (cosh (k * w / 2) * bend k 0 0 C D z) * e5

theorem project_add {z w : ℝ} {f g : ℝ → ℝ} (hf : Continuous f) (hg : Continuous g) :
    project z w (fun x => f x + g x) = project z w f + project z w g := by
  have hw : Continuous (window z w) := by unfold window; fun_prop
  unfold project
  simp only [mul_add]
  exact intervalIntegral.integral_add ((hw.mul hf).intervalIntegrable _ _)
    ((hw.mul hg).intervalIntegrable _ _)

/-- C77. The coefficient of a contact of width `w > 0` is the mean of the mode under the window of the
contact. -/
theorem C77_projection {L k z w : ℝ} (hk : 0 < k) (hL : 0 < L) (hw : 0 < w) (hkw : k * w ≠ π) :
    omegaCosine z w L k = project z w (modeShape L k) := by
  have hQ := omegaRoot_pos hk hL
  have hs2 : (k * w) ^ 2 ≠ π ^ 2 := by
    intro h
    exact hkw ((pow_left_inj₀ (by positivity) pi_pos.le (by norm_num : (2 : ℕ) ≠ 0)).1 h)
  have h1 : π ^ 2 - (k * w) ^ 2 ≠ 0 := fun h => hs2 (by linarith)
  have h2 : π ^ 2 + (k * w) ^ 2 ≠ 0 := by positivity
  set r := √2 / √(omegaRoot L k) with hr
  have e : modeShape L k = fun x =>
      bend k (r * (cos (k * L) + cosh (k * L))) (r * (sin (k * L) - sinh (k * L))) 0 0 x +
      bend k 0 0 (-(r * (cos (k * L) + cosh (k * L)))) (-(r * (sin (k * L) - sinh (k * L)))) x := by
    funext x
    unfold modeShape bare bend
    ring
  rw [e, project_add (bend_continuous ..) (bend_continuous ..), project_trig hw hs2, project_hyp hw]
  unfold omegaCosine omegaNum omegaDen bend
  have a : k * (L - z) = k * L - k * z := by ring
  have q : π ^ 4 - (k * w) ^ 4 = (π ^ 2 - (k * w) ^ 2) * (π ^ 2 + (k * w) ^ 2) := by ring
  have hq : √(omegaRoot L k) ≠ 0 := (sqrt_pos.2 hQ).ne'
  rw [a, cos_sub, q, hr]
  generalize (k * w) ^ 2 = y at h1 h2 ⊢
  field_simp
  ring

/-- C77. The coefficient of a contact of width 0 is the value of the mode at the contact. -/
theorem C77_point {L k : ℝ} (z : ℝ) (hk : 0 < k) (hL : 0 < L) : omegaCosine z 0 L k = modeShape L k z := by
  have hq : √(omegaRoot L k) ≠ 0 := (sqrt_pos.2 (omegaRoot_pos hk hL)).ne'
  have a : k * (L - z) = k * L - k * z := by ring
  unfold omegaCosine omegaNum omegaDen modeShape bare
  rw [a, cos_sub]
  simp only [mul_zero, zero_div, cos_zero, cosh_zero]
  field_simp
  ring

/-- C77. A point contact at the clamped end has coefficient 0 for all modes: `C76_beam` excludes it, the
transformer would have ratio 0. -/
theorem C77_clamped_end (L k : ℝ) : omegaCosine 0 0 L k = 0 := by
  unfold omegaCosine omegaNum
  simp

end Beam
end Pyphs
