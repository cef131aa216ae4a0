/-
Instances of C77 and C78.
-/
import Verif.Beam.C78
import Mathlib.Analysis.Complex.Trigonometric

namespace Pyphs
namespace Beam
open Real

/-- Taylor bound of the cosine with 12 terms. -/
theorem cos_near {y : ℝ} (hy : |y| ≤ 1) :
    |cos y - (1 - y ^ 2 / 2 + y ^ 4 / 24 - y ^ 6 / 720 + y ^ 8 / 40320 - y ^ 10 / 3628800)|
      ≤ 1 / 100000000 := by
  have hn : ‖(y : ℂ) * Complex.I‖ ≤ 1 := by simpa using hy
  have h := Complex.exp_bound hn (n := 12) (by norm_num)
  have hs : ∑ m ∈ Finset.range 12, ((y : ℂ) * Complex.I) ^ m / (m.factorial : ℂ)
      = ((1 - y ^ 2 / 2 + y ^ 4 / 24 - y ^ 6 / 720 + y ^ 8 / 40320 - y ^ 10 / 3628800 : ℝ) : ℂ)
        + ((y - y ^ 3 / 6 + y ^ 5 / 120 - y ^ 7 / 5040 + y ^ 9 / 362880 - y ^ 11 / 39916800 : ℝ) : ℂ)
          * Complex.I := by
    have i2 : Complex.I ^ 2 = -1 := Complex.I_sq
    have i3 : Complex.I ^ 3 = -Complex.I := by rw [pow_succ, i2]; ring
    have i4 : Complex.I ^ 4 = 1 := Complex.I_pow_four
    have i5 : Complex.I ^ 5 = Complex.I := by rw [pow_succ, i4]; ring
    have i6 : Complex.I ^ 6 = -1 := by rw [pow_succ, i5]; rw [← sq, i2]
    have i7 : Complex.I ^ 7 = -Complex.I := by rw [pow_succ, i6]; ring
    have i8 : Complex.I ^ 8 = 1 := by rw [pow_succ, i7, neg_mul, ← sq, i2]; ring
    have i9 : Complex.I ^ 9 = Complex.I := by rw [pow_succ, i8]; ring
    have i10 : Complex.I ^ 10 = -1 := by rw [pow_succ, i9]; rw [← sq, i2]
    have i11 : Complex.I ^ 11 = -Complex.I := by rw [pow_succ, i10]; ring
    simp only [Finset.sum_range_succ, Finset.sum_range_zero, mul_pow, i2, i3, i4, i5, i6, i7, i8, i9,
      i10, i11, Nat.factorial]
    push_cast
    ring
  rw [hs, Complex.exp_mul_I, ← Complex.ofReal_cos, ← Complex.ofReal_sin] at h
  have h2 := (Complex.abs_re_le_norm _).trans h
  simp only [Complex.sub_re, Complex.add_re, Complex.mul_re, Complex.ofReal_re, Complex.I_re, mul_zero,
    Complex.ofReal_im, Complex.I_im, mul_one, sub_self, add_zero] at h2
  refine h2.trans ?_
  have h3 : ‖(y : ℂ) * Complex.I‖ ^ 12 ≤ 1 := pow_le_one₀ (norm_nonneg _) hn
  have h4 : (0 : ℝ) ≤ ((12 : ℕ).succ : ℝ) * (((12 : ℕ).factorial : ℝ) * (12 : ℕ))⁻¹ := by positivity
  refine (mul_le_mul_of_nonneg_right h3 h4).trans ?_
  norm_num [Nat.factorial]

theorem exp_near {y : ℝ} (hy : |y| ≤ 1) :
    |exp y - (1 + y + y ^ 2 / 2 + y ^ 3 / 6 + y ^ 4 / 24 + y ^ 5 / 120 + y ^ 6 / 720 + y ^ 7 / 5040
      + y ^ 8 / 40320 + y ^ 9 / 362880 + y ^ 10 / 3628800 + y ^ 11 / 39916800)| ≤ 1 / 100000000 := by
  have h := Real.exp_bound hy (n := 12) (by norm_num)
  have hs : ∑ m ∈ Finset.range 12, y ^ m / (m.factorial : ℝ)
      = 1 + y + y ^ 2 / 2 + y ^ 3 / 6 + y ^ 4 / 24 + y ^ 5 / 120 + y ^ 6 / 720 + y ^ 7 / 5040
      + y ^ 8 / 40320 + y ^ 9 / 362880 + y ^ 10 / 3628800 + y ^ 11 / 39916800 := by
    simp only [Finset.sum_range_succ, Finset.sum_range_zero, Nat.factorial]
    push_cast
    ring
  rw [hs] at h
  refine h.trans ?_
  have h3 : |y| ^ 12 ≤ 1 := pow_le_one₀ (abs_nonneg _) hy
  have h4 : (0 : ℝ) ≤ ((12 : ℕ).succ : ℝ) / (((12 : ℕ).factorial : ℝ) * (12 : ℕ)) := by positivity
  refine (mul_le_mul_of_nonneg_right h3 h4).trans ?_
  norm_num [Nat.factorial]

theorem chi_double (y : ℝ) :
    chi (2 * y) = 1 + (exp y ^ 2 + exp (-y) ^ 2) / 2 * (2 * cos y ^ 2 - 1) := by
  unfold chi
  rw [cos_two_mul, cosh_eq, ← exp_nat_mul, ← exp_nat_mul]
  norm_num

theorem chi_left : 0 < chi 1.8751 := by
  have hy : |(0.93755 : ℝ)| ≤ 1 := by norm_num [abs_of_pos]
  have hy' : |(-0.93755 : ℝ)| ≤ 1 := by rw [abs_neg]; exact hy
  have c := abs_le.1 (cos_near hy)
  have e := abs_le.1 (exp_near hy)
  have g := abs_le.1 (exp_near hy')
  have c1 : 0.5917646 < cos 0.93755 := by norm_num at c ⊢; linarith [c.1]
  have c2 : cos 0.93755 < 0.5917649 := by norm_num at c ⊢; linarith [c.2]
  have e1 : 2.5537170 < exp 0.93755 := by norm_num at e ⊢; linarith [e.1]
  have e2 : exp 0.93755 < 2.5537173 := by norm_num at e ⊢; linarith [e.2]
  have g1 : 0.3915859 < exp (-0.93755) := by norm_num at g ⊢; linarith [g.1]
  have g2 : exp (-0.93755) < 0.3915862 := by norm_num at g ⊢; linarith [g.2]
  rw [show (1.8751 : ℝ) = 2 * 0.93755 by norm_num, chi_double]
  generalize cos 0.93755 = C at *
  generalize exp 0.93755 = E at *
  generalize exp (-0.93755) = G at *

  have hE : E ^ 2 < 2.5537173 ^ 2 := by nlinarith
  have hG : G ^ 2 < 0.3915862 ^ 2 := by nlinarith
  have hC : 0.5917646 ^ 2 < C ^ 2 := by nlinarith
  have hC2 : C ^ 2 < 0.5917649 ^ 2 := by nlinarith
  have hC3 : 0 ≤ 1 - 2 * C ^ 2 := by norm_num at hC2; linarith
  have h1 : (E ^ 2 + G ^ 2) / 2 * (1 - 2 * C ^ 2)
      ≤ (2.5537173 ^ 2 + 0.3915862 ^ 2) / 2 * (1 - 2 * 0.5917646 ^ 2) :=
    mul_le_mul (by linarith) (by linarith) hC3 (by norm_num)
  norm_num at h1
  nlinarith

theorem chi_right : chi 1.875105 < 0 := by
  have hy : |(0.9375525 : ℝ)| ≤ 1 := by norm_num [abs_of_pos]
  have hy' : |(-0.9375525 : ℝ)| ≤ 1 := by rw [abs_neg]; exact hy
  have c := abs_le.1 (cos_near hy)
  have e := abs_le.1 (exp_near hy)
  have g := abs_le.1 (exp_near hy')
  have c1 : 0.5917626 < cos 0.9375525 := by norm_num at c ⊢; linarith [c.1]
  have c2 : cos 0.9375525 < 0.5917629 := by norm_num at c ⊢; linarith [c.2]
  have e1 : 2.5537234 < exp 0.9375525 := by norm_num at e ⊢; linarith [e.1]
  have e2 : exp 0.9375525 < 2.5537237 := by norm_num at e ⊢; linarith [e.2]
  have g1 : 0.3915849 < exp (-0.9375525) := by norm_num at g ⊢; linarith [g.1]
  have g2 : exp (-0.9375525) < 0.3915852 := by norm_num at g ⊢; linarith [g.2]
  rw [show (1.875105 : ℝ) = 2 * 0.9375525 by norm_num, chi_double]
  generalize cos 0.9375525 = C at *
  generalize exp 0.9375525 = E at *
  generalize exp (-0.9375525) = G at *

  have hE : 2.5537234 ^ 2 < E ^ 2 := by nlinarith
  have hG : 0.3915849 ^ 2 < G ^ 2 := by nlinarith
  have hC2 : C ^ 2 < 0.5917629 ^ 2 := by nlinarith
  have h1 : (2.5537234 ^ 2 + 0.3915849 ^ 2) / 2 * (1 - 2 * 0.5917629 ^ 2)
      ≤ (E ^ 2 + G ^ 2) / 2 * (1 - 2 * C ^ 2) :=
    mul_le_mul (by linarith) (by linarith) (by norm_num) (by positivity)
  norm_num at h1
  nlinarith

/-- The first root is 1.8751. -/
theorem root_zero_near : 1.8751 < root 0 ∧ root 0 < 1.875105 := by
  have hp := pi_gt_three
  have sign : ∀ x, 0 ≤ x → x ≤ π → (0 < chi x → x < root 0) ∧ (chi x < 0 → root 0 < x) := by
    intro x h0 h1
    constructor
    · intro h
      by_contra hn
      rcases lt_or_eq_of_le (not_lt.1 hn) with h2 | h2
      · have := root_right (i := 0) h2 (by simpa using h1)
        simp at this
        linarith
      · rw [← h2, root_zero] at h
        exact lt_irrefl _ h
    · intro h
      by_contra hn
      rcases lt_or_eq_of_le (not_lt.1 hn) with h2 | h2
      · have := root_left (i := 0) (by simpa using h0) h2
        simp at this
        linarith
      · rw [h2, root_zero] at h
        exact lt_irrefl _ h
  exact ⟨(sign _ (by norm_num) (by linarith)).1 chi_left, (sign _ (by norm_num) (by linarith)).2 chi_right⟩

/-- No point of the grid of the search for one mode is the root. -/
theorem no_hit {i j : ℕ} (hi : i < 1) :
    (j : ℝ) * ((1 : ℕ) * 2 * π / (((1 * 1000000 : ℕ) : ℝ) - 1)) ≠ root i := by
  obtain ⟨h1, h2⟩ := root_zero_near
  have p1 := pi_gt_d20
  have p2 := pi_lt_d20
  intro e
  rw [Nat.lt_one_iff.1 hi] at e
  push_cast at e
  rw [← e] at h1 h2
  have e2 : ∀ x : ℝ, x * (1 * 2 * π / (1000000 - 1)) = x * (2 * π / 999999) := fun x => by
    norm_num
  rw [e2] at h1 h2
  have a : (298431 : ℝ) < j := by
    by_contra hn
    have := mul_le_mul_of_nonneg_right (not_lt.1 hn) (show 0 ≤ 2 * π / 999999 by positivity)
    linarith
  have b : (j : ℝ) < 298432 := by
    by_contra hn
    have := mul_le_mul_of_nonneg_right (not_lt.1 hn) (show 0 ≤ 2 * π / 999999 by positivity)
    linarith
  have a' : 298431 < j := by exact_mod_cast a
  have b' : j < 298432 := by exact_mod_cast b
  omega

/-- Instance of `C78_waves`: one mode. -/
theorem one_mode {L : ℝ} (hL : 0 < L) : ∃ k, waveNumbers 1 L = [k] ∧ k < root 0 / L ∧
    root 0 / L < k + 0.00001 / L := by
  have p2 := pi_lt_d20
  obtain ⟨hl, hk⟩ := C78_waves (N := 1) one_pos hL fun i hi j _ => no_hit hi
  obtain ⟨k, hk1⟩ := List.length_eq_one_iff.1 hl
  obtain ⟨a, b⟩ := hk 0 k (by rw [hk1]; rfl)
  refine ⟨k, hk1, a, b.trans_le ?_⟩
  have : ((1 : ℕ) : ℝ) * 2 * π / L / (((1 * 1000000 : ℕ) : ℝ) - 1) ≤ 0.00001 / L := by
    rw [div_right_comm]
    refine div_le_div_of_nonneg_right ?_ hL.le
    push_cast
    rw [div_le_iff₀ (by norm_num)]
    linarith
  linarith

end Beam
end Pyphs
