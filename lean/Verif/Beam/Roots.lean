/-
The roots of `1 + cosh x cos x`: one in each interval `[n π, (n + 1) π]`.
-/
import Verif.Beam.Waves
import Mathlib.Analysis.Calculus.Deriv.MeanValue
import Mathlib.Analysis.Real.Pi.Bounds
import Mathlib.Topology.Order.IntermediateValue

namespace Pyphs
namespace Beam
open Real

theorem two_lt_cosh {y : ℝ} (h : 2 ≤ y) : 2 < cosh y := by
  rw [cosh_eq]
  have h1 := quadratic_le_exp_of_nonneg (show 0 ≤ y by linarith)
  have h2 := exp_pos (-y)
  nlinarith

/-- `cosh (a + t) cos t`. -/
noncomputable def wave (a t : ℝ) : ℝ := cosh (a + t) * cos t

theorem wave_deriv (a t : ℝ) :
    HasDerivAt (wave a) (sinh (a + t) * cos t - cosh (a + t) * sin t) t := by
  have h : HasDerivAt (fun t => a + t) 1 t := by simpa using (hasDerivAt_id t).const_add a
  have := h.cosh.mul (hasDerivAt_cos t)
  refine this.congr_deriv ?_
  ring

theorem wave_continuous (a : ℝ) : Continuous (wave a) :=
  continuous_iff_continuousAt.2 fun t => (wave_deriv a t).continuousAt

theorem wave_anti {a : ℝ} (ha : 0 ≤ a) : StrictAntiOn (wave a) (Set.Icc (π / 3) π) := by
  refine strictAntiOn_of_deriv_neg (convex_Icc _ _) (wave_continuous a).continuousOn ?_
  intro t ht
  rw [interior_Icc] at ht
  obtain ⟨h1, h2⟩ := ht
  rw [(wave_deriv a t).deriv]
  have hp := pi_pos
  have hs : 0 < sin t := sin_pos_of_pos_of_lt_pi (by linarith) h2
  have hS : 0 < sinh (a + t) := sinh_pos_iff.2 (by linarith)
  have hC : sinh (a + t) < cosh (a + t) := sinh_lt_cosh _
  rcases le_or_gt t (π / 2) with h3 | h3
  · have hc : 0 ≤ cos t := cos_nonneg_of_neg_pi_div_two_le_of_le (by linarith) h3
    have hcs : cos t < sin t := by
      rw [← sin_pi_div_two_sub]
      exact sin_lt_sin_of_lt_of_le_pi_div_two (by linarith) h3 (by linarith)
    nlinarith
  · have hc : cos t < 0 := cos_neg_of_pi_div_two_lt_of_lt h3 (by linarith)
    nlinarith

theorem chi_add (i : ℕ) (t : ℝ) : chi (i * π + t) = 1 + (-1) ^ i * wave (i * π) t := by
  unfold chi wave
  rw [add_comm (i * π) t, cos_add_nat_mul_pi]
  ring

/-- The root of `chi` between `i π` and `(i + 1) π`, and the signs on both sides. -/
theorem root_exists (i : ℕ) : ∃ r, i * π + π / 3 < r ∧ r < i * π + 2 * π / 3 ∧ chi r = 0 ∧
    (∀ x, i * π ≤ x → x < r → 0 < (-1) ^ i * chi x) ∧
    ∀ x, r < x → x ≤ (i + 1) * π → (-1) ^ i * chi x < 0 := by
  have hp := pi_pos
  have hp3 := pi_gt_three
  have ha : (0 : ℝ) ≤ i * π := by positivity
  have anti := wave_anti ha
  have half : wave (i * π) (π / 2) = 0 := by unfold wave; rw [cos_pi_div_two, mul_zero]
  have third : 1 ≤ i → 1 < wave (i * π) (π / 3) := by
    intro hi
    have hi' : (1 : ℝ) ≤ i := by exact_mod_cast hi
    have := two_lt_cosh (show 2 ≤ i * π + π / 3 by nlinarith)
    unfold wave
    rw [cos_pi_div_three]
    linarith
  have twothird : wave (i * π) (2 * π / 3) < -1 := by
    have := two_lt_cosh (show 2 ≤ i * π + 2 * π / 3 by linarith)
    unfold wave
    rw [show 2 * π / 3 = π - π / 3 by ring, cos_pi_sub, cos_pi_div_three,
      show i * π + (π - π / 3) = i * π + 2 * π / 3 by ring]
    linarith
  rcases Nat.even_or_odd i with hev | hodd
  · have hs : ((-1 : ℝ)) ^ i = 1 := hev.neg_one_pow
    obtain ⟨t0, ⟨l1, l2⟩, h0⟩ : ∃ t0 ∈ Set.Icc (π / 2) (2 * π / 3), wave (i * π) t0 = -1 :=
      intermediate_value_Icc' (by linarith) (wave_continuous _).continuousOn
        ⟨twothird.le, by rw [half]; norm_num⟩
    have l1' : π / 2 < t0 := lt_of_le_of_ne l1 fun e => by rw [← e, half] at h0; norm_num at h0
    have l2' : t0 < 2 * π / 3 := lt_of_le_of_ne l2 fun e => by rw [← e] at twothird; linarith
    have m0 : t0 ∈ Set.Icc (π / 3) π := ⟨by linarith, by linarith⟩
    refine ⟨i * π + t0, by linarith, by linarith, by rw [chi_add, hs, h0]; ring, ?_, ?_⟩
    · intro x hx1 hx2
      obtain ⟨t, rfl⟩ : ∃ t, x = i * π + t := ⟨x - i * π, by ring⟩
      rw [chi_add, hs]
      rcases le_or_gt (π / 3) t with h | h
      · have := anti ⟨h, by linarith⟩ m0 (show t < t0 by linarith)
        linarith
      · have : 0 ≤ wave (i * π) t := mul_nonneg (cosh_pos _).le
          (cos_nonneg_of_neg_pi_div_two_le_of_le (by linarith) (by linarith))
        linarith
    · intro x hx1 hx2
      obtain ⟨t, rfl⟩ : ∃ t, x = i * π + t := ⟨x - i * π, by ring⟩
      rw [chi_add, hs]
      have := anti m0 ⟨by linarith, by linarith⟩ (show t0 < t by linarith)
      linarith
  · have hs : ((-1 : ℝ)) ^ i = -1 := hodd.neg_one_pow
    have hi : 1 ≤ i := hodd.pos
    have third := third hi
    obtain ⟨t0, ⟨l1, l2⟩, h0⟩ : ∃ t0 ∈ Set.Icc (π / 3) (π / 2), wave (i * π) t0 = 1 :=
      intermediate_value_Icc' (by linarith) (wave_continuous _).continuousOn
        ⟨by rw [half]; norm_num, third.le⟩
    have l1' : π / 3 < t0 := lt_of_le_of_ne l1 fun e => by rw [← e] at h0; linarith
    have l2' : t0 < π / 2 := lt_of_le_of_ne l2 fun e => by rw [e, half] at h0; norm_num at h0
    have m0 : t0 ∈ Set.Icc (π / 3) π := ⟨by linarith, by linarith⟩
    refine ⟨i * π + t0, by linarith, by linarith, by rw [chi_add, hs, h0]; ring, ?_, ?_⟩
    · intro x hx1 hx2
      obtain ⟨t, rfl⟩ : ∃ t, x = i * π + t := ⟨x - i * π, by ring⟩
      rw [chi_add, hs]
      rcases le_or_gt (π / 3) t with h | h
      · have := anti ⟨h, by linarith⟩ m0 (show t < t0 by linarith)
        linarith
      · have hi' : (1 : ℝ) ≤ i := by exact_mod_cast hi
        have h1 := two_lt_cosh (show 2 ≤ i * π + t by nlinarith)
        have h2 : cos (π / 3) ≤ cos t := cos_le_cos_of_nonneg_of_le_pi (by linarith) (by linarith) h.le
        rw [cos_pi_div_three] at h2
        have : 1 < wave (i * π) t := by unfold wave; nlinarith
        linarith
    · intro x hx1 hx2
      obtain ⟨t, rfl⟩ : ∃ t, x = i * π + t := ⟨x - i * π, by ring⟩
      rw [chi_add, hs]
      have := anti m0 ⟨by linarith, by linarith⟩ (show t0 < t by linarith)
      linarith

/-- Root number `i` of `1 + cosh x cos x`. -/
noncomputable def root (i : ℕ) : ℝ := (root_exists i).choose

theorem root_gt (i : ℕ) : i * π + π / 3 < root i := (root_exists i).choose_spec.1
theorem root_lt (i : ℕ) : root i < i * π + 2 * π / 3 := (root_exists i).choose_spec.2.1
theorem root_zero (i : ℕ) : chi (root i) = 0 := (root_exists i).choose_spec.2.2.1
theorem root_left {i : ℕ} {x : ℝ} (h1 : i * π ≤ x) (h2 : x < root i) : 0 < (-1) ^ i * chi x :=
  (root_exists i).choose_spec.2.2.2.1 x h1 h2
theorem root_right {i : ℕ} {x : ℝ} (h1 : root i < x) (h2 : x ≤ (i + 1) * π) : (-1) ^ i * chi x < 0 :=
  (root_exists i).choose_spec.2.2.2.2 x h1 h2

theorem root_sep (i : ℕ) : root i + 2 * π / 3 < root (i + 1) := by
  have h1 := root_lt i
  have h2 := root_gt (i + 1)
  push_cast at h2
  linarith

theorem root_mono : StrictMono root := by
  refine strictMono_nat_of_lt_succ fun i => ?_
  have := root_sep i
  have := pi_pos
  linarith

theorem root_pos (i : ℕ) : 0 < root i := by
  have := root_gt i
  have : (0 : ℝ) ≤ i * π := by positivity
  have := pi_pos
  linarith

/-- C78. `root` enumerates the positive solutions of `1 + cosh x cos x = 0`. -/
theorem C78_roots {x : ℝ} (hx : 0 ≤ x) : chi x = 0 ↔ ∃ i, x = root i := by
  constructor
  · intro h
    have hp := pi_pos
    have h1 : (⌊x / π⌋₊ : ℝ) ≤ x / π := Nat.floor_le (by positivity)
    have h2 : x / π < ⌊x / π⌋₊ + 1 := Nat.lt_floor_add_one _
    rw [le_div_iff₀ hp] at h1
    rw [div_lt_iff₀ hp] at h2
    refine ⟨⌊x / π⌋₊, ?_⟩
    rcases lt_trichotomy x (root ⌊x / π⌋₊) with h3 | h3 | h3
    · have := root_left h1 h3
      rw [h, mul_zero] at this
      exact absurd this (lt_irrefl _)
    · exact h3
    · have := root_right h3 h2.le
      rw [h, mul_zero] at this
      exact absurd this (lt_irrefl _)
  · rintro ⟨i, rfl⟩
    exact root_zero i

/-- The number of roots below `x` gives the sign. -/
theorem count_roots {x : ℝ} (hx : 0 ≤ x) (h0 : chi x ≠ 0) :
    ∃ c : ℕ, (∀ i, root i < x ↔ i < c) ∧ 0 < (-1) ^ c * chi x := by
  have hp := pi_pos
  have h1 : (⌊x / π⌋₊ : ℝ) ≤ x / π := Nat.floor_le (by positivity)
  have h2 : x / π < ⌊x / π⌋₊ + 1 := Nat.lt_floor_add_one _
  rw [le_div_iff₀ hp] at h1
  rw [div_lt_iff₀ hp] at h2
  generalize ⌊x / π⌋₊ = n at h1 h2
  have below : ∀ i < n, root i < x := by
    intro i hi
    have h3 := root_lt i
    have : (i : ℝ) + 1 ≤ n := by exact_mod_cast hi
    nlinarith
  have above : ∀ i, n < i → x < root i := by
    intro i hi
    have h3 := root_gt i
    have : (n : ℝ) + 1 ≤ i := by exact_mod_cast hi
    nlinarith
  rcases lt_trichotomy x (root n) with h3 | h3 | h3
  · refine ⟨n, fun i => ⟨fun h => ?_, below i⟩, root_left h1 h3⟩
    by_contra hn
    rcases Nat.eq_or_lt_of_le (not_lt.1 hn) with rfl | h4
    · linarith
    · linarith [above i h4]
  · exact absurd (h3 ▸ root_zero n) h0
  · refine ⟨n + 1, fun i => ⟨fun h => ?_, fun h => ?_⟩, ?_⟩
    · by_contra hn
      linarith [above i (by omega)]
    · rcases Nat.lt_succ_iff_lt_or_eq.1 h with h4 | rfl
      · exact below i h4
      · exact h3
    · have := root_right h3 h2.le
      rw [pow_succ]
      linarith

end Beam
end Pyphs
