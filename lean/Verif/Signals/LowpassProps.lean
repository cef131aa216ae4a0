/-
C87: the low-pass filter has gain one at frequency zero and no delay.
-/
import Verif.Signals.Lowpass
import Mathlib.Analysis.SpecialFunctions.Trigonometric.Deriv
import Mathlib.Analysis.SpecialFunctions.Trigonometric.Complex
import Mathlib.Analysis.Calculus.Deriv.MeanValue
import Mathlib.Analysis.Calculus.LocalExtr.Basic
import Mathlib.Algebra.BigOperators.Field
import Mathlib.Data.List.GetD
import Mathlib.Tactic.Linarith
import Mathlib.Tactic.Ring
import Mathlib.Tactic.NormNum
import Mathlib.Tactic.FieldSimp

open Real

namespace Pyphs
namespace Signals
namespace Lowpass

/-! ### Partial sums of the series of sines over integers -/

/-- `sin x + sin 2x / 2 + ... + sin nx / n`. -/
noncomputable def sines (n : ℕ) (x : ℝ) : ℝ := ∑ k ∈ Finset.range n, sin ((k + 1 : ℕ) * x) / (k + 1 : ℕ)

theorem sines_deriv (n : ℕ) (x : ℝ) :
    HasDerivAt (sines n) (∑ k ∈ Finset.range n, cos ((k + 1 : ℕ) * x)) x := by
  unfold sines
  apply HasDerivAt.fun_sum
  intro k _
  have hk : ((k + 1 : ℕ) : ℝ) ≠ 0 := by positivity
  have h1 : HasDerivAt (fun y : ℝ => ((k + 1 : ℕ) : ℝ) * y) ((k + 1 : ℕ) : ℝ) x := by
    simpa using (hasDerivAt_id x).const_mul ((k + 1 : ℕ) : ℝ)
  have h2 := h1.sin.div_const ((k + 1 : ℕ) : ℝ)
  rw [mul_div_assoc, div_self hk, mul_one] at h2
  exact h2

theorem cosines_sum (n : ℕ) (x : ℝ) :
    2 * sin (x / 2) * ∑ k ∈ Finset.range n, cos ((k + 1 : ℕ) * x) =
      sin (n * x + x / 2) - sin (x / 2) := by
  induction n with
  | zero => simp
  | succ n ih =>
    rw [Finset.sum_range_succ, mul_add, ih]
    have h1 : (n : ℝ) * x + x / 2 = ((n + 1 : ℕ) : ℝ) * x - x / 2 := by push_cast; ring
    rw [h1, sin_sub, sin_add]
    ring

/-- The inequality of Fejér and Jackson. -/
theorem sines_nonneg (n : ℕ) : ∀ x ∈ Set.Icc 0 π, 0 ≤ sines n x := by
  induction n with
  | zero => intro x _; simp [sines]
  | succ n ih =>
    have hc : ContinuousOn (sines (n + 1)) (Set.Icc 0 π) := fun x _ =>
      (sines_deriv (n + 1) x).continuousAt.continuousWithinAt
    obtain ⟨x0, hx0, hmin⟩ := isCompact_Icc.exists_isMinOn (Set.nonempty_Icc.2 pi_pos.le) hc
    intro x hx
    refine le_trans ?_ (hmin hx)
    show 0 ≤ sines (n + 1) x0
    rcases eq_or_lt_of_le hx0.1 with h0 | h0
    · subst h0; simp [sines]
    rcases eq_or_lt_of_le hx0.2 with h1 | h1
    · subst h1
      apply le_of_eq
      symm
      apply Finset.sum_eq_zero
      intro k _
      rw [sin_nat_mul_pi, zero_div]
    · have hloc : IsLocalMin (sines (n + 1)) x0 := by
        apply hmin.isLocalMin
        exact Icc_mem_nhds h0 h1
      have hz := hloc.hasDerivAt_eq_zero (sines_deriv (n + 1) x0)
      have hs := cosines_sum (n + 1) x0
      rw [hz, mul_zero] at hs
      have hsx : 0 ≤ sin (x0 / 2) := sin_nonneg_of_nonneg_of_le_pi (by linarith) (by linarith)
      have hcx : 0 ≤ cos (x0 / 2) := cos_nonneg_of_neg_pi_div_two_le_of_le (by linarith) (by linarith)
      set y := ((n + 1 : ℕ) : ℝ) * x0 + x0 / 2 with hy
      have hcos : cos y ≤ cos (x0 / 2) := by
        have e1 := sin_sq_add_cos_sq y
        have e2 := sin_sq_add_cos_sq (x0 / 2)
        have : sin y = sin (x0 / 2) := by linarith
        rw [this] at e1
        nlinarith
      have hlast : 0 ≤ sin (((n + 1 : ℕ) : ℝ) * x0) := by
        have : ((n + 1 : ℕ) : ℝ) * x0 = y - x0 / 2 := by rw [hy]; ring
        rw [this, sin_sub]
        have : sin y = sin (x0 / 2) := by linarith
        rw [this]
        nlinarith
      have := ih x0 hx0
      unfold sines at this ⊢
      rw [Finset.sum_range_succ]
      have : 0 ≤ sin (((n + 1 : ℕ) : ℝ) * x0) / ((n + 1 : ℕ) : ℝ) := by positivity
      linarith

/-! ### The window -/

/-- The window seen from its middle. -/
noncomputable def centred (m : ℕ) (x : ℝ) : ℝ := 0.42 + 0.5 * cos (π * x / m) + 0.08 * cos (2 * (π * x / m))

theorem centred_antitone {m : ℕ} (hm : 0 < m) {x y : ℝ} (hx : 0 ≤ x) (hxy : x ≤ y) (hy : y ≤ m) :
    centred m y ≤ centred m x := by
  have hm' : (0 : ℝ) < m := by exact_mod_cast hm
  have h1 : cos (π * y / m) ≤ cos (π * x / m) := by
    apply cos_le_cos_of_nonneg_of_le_pi
    · positivity
    · rw [div_le_iff₀ hm']
      exact mul_le_mul_of_nonneg_left hy pi_pos.le
    · gcongr
  unfold centred
  rw [cos_two_mul, cos_two_mul]
  have h2 := neg_one_le_cos (π * y / m)
  have h3 := neg_one_le_cos (π * x / m)
  nlinarith

theorem centred_end {m : ℕ} (hm : 0 < m) : centred m m = 0 := by
  have hm' : (m : ℝ) ≠ 0 := by exact_mod_cast hm.ne'
  unfold centred
  rw [mul_div_assoc, div_self hm', mul_one, cos_pi, cos_two_pi]
  norm_num

theorem centred_zero (m : ℕ) : centred m 0 = 1 := by
  unfold centred; norm_num

theorem centred_neg (m : ℕ) (x : ℝ) : centred m (-x) = centred m x := by
  unfold centred
  rw [mul_neg, neg_div, cos_neg, mul_neg, cos_neg]

theorem window_eq {m : ℕ} (hm : 0 < m) (n : ℕ) :
    window (2 * m + 1) n = centred m ((n : ℝ) - m) := by
  have hm' : (m : ℝ) ≠ 0 := by exact_mod_cast hm.ne'
  unfold window centred
  have e : (((2 * m + 1 : ℕ) : ℝ) - 1) = 2 * m := by push_cast; ring
  rw [e]
  have e1 : 2 * π * n / (2 * m) = π * (n - m) / m + π := by field_simp; ring
  have e2 : 4 * π * n / (2 * m) = 2 * (π * (n - m) / m) + 2 * π := by field_simp; ring
  rw [e1, e2, cos_add_pi, cos_add_two_pi]
  ring

theorem npSinc_neg (x : ℝ) : npSinc (-x) = npSinc x := by
  unfold npSinc
  by_cases h : x = 0
  · simp [h]
  · rw [if_neg h, if_neg (by simpa using h), mul_neg, sin_neg, neg_div_neg_eq]

/-- Coefficient of the filter seen from its middle, before the normalisation. -/
noncomputable def coef (fc : ℝ) (m : ℕ) (x : ℝ) : ℝ := npSinc (2 * fc * x) * centred m x

theorem coef_neg (fc : ℝ) (m : ℕ) (x : ℝ) : coef fc m (-x) = coef fc m x := by
  unfold coef
  rw [mul_neg, npSinc_neg, centred_neg]

theorem raw_eq {m : ℕ} (hm : 0 < m) (fc : ℝ) :
    raw fc (2 * m + 1) = (List.range (2 * m + 1)).map fun n : ℕ => coef fc m ((n : ℝ) - m) := by
  unfold raw coef
  apply List.map_congr_left
  intro n _
  rw [window_eq hm]
  have : (((2 * m + 1 : ℕ) : ℝ) - 1) / 2 = m := by push_cast; ring
  rw [this]

theorem range_sum (f : ℕ → ℝ) (n : ℕ) : ((List.range n).map f).sum = ∑ k ∈ Finset.range n, f k := by
  induction n with
  | zero => simp
  | succ n ih => rw [List.range_succ, List.map_append, List.sum_append, ih, Finset.sum_range_succ]; simp

theorem sum_centred (m : ℕ) (g : ℝ → ℝ) (hg : ∀ x, g (-x) = g x) :
    ∑ k ∈ Finset.range (2 * m + 1), g ((k : ℝ) - m) =
      g 0 + 2 * ∑ k ∈ Finset.range m, g ((k + 1 : ℕ) : ℝ) := by
  have e : 2 * m + 1 = m + (m + 1) := by ring
  rw [e, Finset.sum_range_add, Finset.sum_range_succ', ← Finset.sum_range_reflect]
  have h1 : ∑ j ∈ Finset.range m, g (((m - 1 - j : ℕ) : ℝ) - m) =
      ∑ k ∈ Finset.range m, g ((k + 1 : ℕ) : ℝ) := by
    apply Finset.sum_congr rfl
    intro j hj
    have hj := Finset.mem_range.1 hj
    rw [← hg]
    congr 1
    have : ((m - 1 - j : ℕ) : ℝ) = m - 1 - j := by
      rw [Nat.cast_sub (by omega), Nat.cast_sub (by omega)]; simp
    rw [this]; push_cast; ring
  have h2 : ∑ k ∈ Finset.range m, g (((m + (k + 1) : ℕ) : ℝ) - m) =
      ∑ k ∈ Finset.range m, g ((k + 1 : ℕ) : ℝ) := by
    apply Finset.sum_congr rfl
    intro j _
    congr 1
    push_cast; ring
  rw [h1, h2]
  have h3 : (((m + 0 : ℕ) : ℝ) - m) = 0 := by simp
  rw [h3]
  ring

/-- Summation by parts. -/
theorem abel (a w : ℕ → ℝ) (m : ℕ) (hw : ∀ k < m, w (k + 1) ≤ w k)
    (hA : ∀ j ≤ m, 1 ≤ ∑ k ∈ Finset.range (j + 1), a k) :
    w 0 - w m ≤ ∑ k ∈ Finset.range (m + 1), w k * a k - w m * ∑ k ∈ Finset.range (m + 1), a k := by
  induction m with
  | zero => simp
  | succ m ih =>
    have h := ih (fun k hk => hw k (by omega)) (fun j hj => hA j (by omega))
    have h1 := hA m (by omega)
    have h2 := hw m (by omega)
    rw [Finset.sum_range_succ (fun k => w k * a k), Finset.sum_range_succ a (m + 1)]
    nlinarith

theorem sinc_sum {fc : ℝ} (h0 : 0 < fc) (h1 : fc ≤ 1 / 2) (j : ℕ) :
    0 ≤ ∑ k ∈ Finset.range j, npSinc (2 * fc * (k + 1 : ℕ)) := by
  have h := sines_nonneg j (2 * π * fc) ⟨by positivity, by nlinarith [pi_pos]⟩
  have : ∑ k ∈ Finset.range j, npSinc (2 * fc * (k + 1 : ℕ)) = sines j (2 * π * fc) / (2 * π * fc) := by
    unfold sines
    rw [Finset.sum_div]
    apply Finset.sum_congr rfl
    intro k _
    have hk : ((k + 1 : ℕ) : ℝ) ≠ 0 := by positivity
    unfold npSinc
    rw [if_neg (by positivity)]
    have : π * (2 * fc * ((k + 1 : ℕ) : ℝ)) = ((k + 1 : ℕ) : ℝ) * (2 * π * fc) := by ring
    rw [this, div_div]
  rw [this]
  positivity

/-- The coefficients before the normalisation have a sum of one at least. -/
theorem raw_sum {m : ℕ} (hm : 0 < m) {fc : ℝ} (h0 : 0 < fc) (h1 : fc ≤ 1 / 2) :
    1 ≤ (raw fc (2 * m + 1)).sum := by
  rw [raw_eq hm, range_sum, sum_centred m _ (coef_neg fc m)]
  have hA : ∀ j ≤ m, 1 ≤ ∑ k ∈ Finset.range (j + 1),
      (if k = 0 then 1 else 2 * npSinc (2 * fc * (k : ℕ))) := by
    intro j _
    rw [Finset.sum_range_succ']
    simp only [Nat.succ_ne_zero, if_false, if_true, ← Finset.mul_sum]
    have := sinc_sum h0 h1 j
    linarith
  have h := abel (fun k => if k = 0 then 1 else 2 * npSinc (2 * fc * (k : ℕ)))
    (fun k => centred m k) m
    (fun k hk => centred_antitone hm (by positivity) (by push_cast; linarith)
      (by exact_mod_cast hk)) hA
  simp only [centred_end hm, Nat.cast_zero, centred_zero, zero_mul, sub_zero] at h
  refine h.trans (le_of_eq ?_)
  rw [Finset.sum_range_succ', add_comm, Finset.mul_sum]
  congr 1
  · simp [coef, npSinc, centred_zero]
  · apply Finset.sum_congr rfl
    intro k _
    simp only [Nat.add_eq_zero_iff, one_ne_zero, and_false, if_false]
    unfold coef
    ring

/-! ### The number of coefficients -/

theorem ntaps_odd {b : ℝ} (h0 : 0 < b) (h1 : b < 1 / 2) :
    ∃ m : ℕ, 0 < m ∧ ntaps b = 2 * m + 1 ∧ 4 / b ≤ 2 * m + 1 ∧ (2 * m + 1 : ℝ) < 4 / b + 2 := by
  have h8 : 8 < 4 / b := by rw [lt_div_iff₀ h0]; linarith
  have hc := Int.le_ceil (4 / b)
  have hl := Int.ceil_lt_add_one (4 / b)
  have h9 : 8 < ⌈4 / b⌉ := by
    rw [Int.lt_ceil]; exact_mod_cast h8
  unfold ntaps
  generalize hN : ⌈4 / b⌉ = N at *
  dsimp only
  by_cases hp : N % 2 = 0
  · rw [if_pos hp]
    refine ⟨(N / 2).toNat, by omega, by omega, ?_⟩
    have e : N = 2 * ((N / 2).toNat : ℤ) := by omega
    have e' : (N : ℝ) = 2 * ((N / 2).toNat : ℝ) := by exact_mod_cast e
    rw [← e']
    exact ⟨by linarith, by linarith⟩
  · rw [if_neg hp]
    refine ⟨((N - 1) / 2).toNat, by omega, by omega, ?_⟩
    have e : N = 2 * (((N - 1) / 2).toNat : ℤ) + 1 := by omega
    have e' : (N : ℝ) = 2 * (((N - 1) / 2).toNat : ℝ) + 1 := by exact_mod_cast e
    rw [← e']
    exact ⟨by linarith, by linarith⟩

/-! ### The convolution -/

/-- Sample `i` of a signal extended by zeros on both sides. -/
noncomputable def sample (s : List ℝ) (i : ℤ) : ℝ := if 0 ≤ i then s.getD i.toNat 0 else 0

theorem conv_comm (a v : List ℝ) (n : ℕ) : conv a v n = conv v a n := by
  unfold conv
  rw [range_sum, range_sum, ← Finset.sum_range_reflect]
  apply Finset.sum_congr rfl
  intro j hj
  have hj := Finset.mem_range.1 hj
  rw [show n + 1 - 1 - j = n - j by omega, show n - (n - j) = j by omega, mul_comm]

theorem conv_eq (a v : List ℝ) (n : ℕ) :
    conv a v n = ∑ k ∈ Finset.range v.length, v.getD k 0 * sample a ((n : ℤ) - k) := by
  rw [conv_comm]
  unfold conv
  rw [range_sum]
  have hz : ∀ k : ℕ, sample a ((n : ℤ) - k) = if k ≤ n then a.getD (n - k) 0 else 0 := by
    intro k
    unfold sample
    by_cases hk : k ≤ n
    · rw [if_pos (by omega), if_pos hk]
      congr 1
      omega
    · rw [if_neg (by omega), if_neg hk]
  have h1 : ∑ k ∈ Finset.range (n + 1), v.getD k 0 * a.getD (n - k) 0 =
      ∑ k ∈ Finset.range (n + 1 + v.length), v.getD k 0 * sample a ((n : ℤ) - k) := by
    rw [Finset.sum_range_add _ (n + 1) v.length,
      Finset.sum_eq_zero (s := Finset.range v.length), add_zero]
    · apply Finset.sum_congr rfl
      intro k hk
      have hk := Finset.mem_range.1 hk
      rw [hz, if_pos (by omega)]
    · intro k _
      rw [hz, if_neg (by omega), mul_zero]
  have h2 : ∑ k ∈ Finset.range v.length, v.getD k 0 * sample a ((n : ℤ) - k) =
      ∑ k ∈ Finset.range (v.length + (n + 1)), v.getD k 0 * sample a ((n : ℤ) - k) := by
    rw [Finset.sum_range_add, left_eq_add]
    apply Finset.sum_eq_zero
    intro k _
    rw [List.getD_eq_default _ _ (by omega), zero_mul]
  rw [h1, h2, add_comm]

/-- The coefficients of the filter, seen from the middle one. -/
noncomputable def taps (fc : ℝ) (m : ℕ) (j : ℤ) : ℝ := coef fc m j / (raw fc (2 * m + 1)).sum

theorem taps_neg (fc : ℝ) (m : ℕ) (j : ℤ) : taps fc m (-j) = taps fc m j := by
  unfold taps
  rw [Int.cast_neg, coef_neg]

theorem taps_sum {m : ℕ} (hm : 0 < m) {fc : ℝ} (h0 : 0 < fc) (h1 : fc ≤ 1 / 2) :
    ∑ k ∈ Finset.range (2 * m + 1), taps fc m ((k : ℤ) - m) = 1 := by
  have h := raw_sum hm h0 h1
  unfold taps
  rw [← Finset.sum_div, div_eq_one_iff_eq (by linarith), raw_eq hm, range_sum]
  apply Finset.sum_congr rfl
  intro k _
  push_cast
  rfl

theorem taps_getD {m : ℕ} (hm : 0 < m) (fc : ℝ) {k : ℕ} (hk : k < 2 * m + 1) :
    ((raw fc (2 * m + 1)).map (· / (raw fc (2 * m + 1)).sum)).getD k 0 = taps fc m ((k : ℤ) - m) := by
  rw [List.getD_eq_getElem _ _ (by simpa [raw] using hk), List.getElem_map]
  unfold taps
  congr 1
  have := raw_eq hm fc
  rw [List.getElem_of_eq this]
  simp

/-- Position of the middle coefficient on the first sample of the result. -/
def shift (m len : ℕ) : ℕ := if 2 * m + 1 ≤ len then m else (len - 1) / 2

theorem lowpass_eq {fc tbw : ℝ} (h0 : 0 < fc) (h1 : fc < 1 / 2) (t0 : 0 < tbw) (t1 : tbw < 1) :
    ∃ m : ℕ, 0 < m ∧ 4 / (tbw * fc) ≤ 2 * m + 1 ∧ (2 * m + 1 : ℝ) < 4 / (tbw * fc) + 2 ∧
      ∀ s : List ℝ, s ≠ [] → lowpass s fc tbw = .ok ((List.range (max s.length (2 * m + 1))).map
        fun i => ∑ k ∈ Finset.range (2 * m + 1),
          taps (fc - tbw * fc) m ((k : ℤ) - m) * sample s (((i + shift m s.length : ℕ) : ℤ) - k)) := by
  have hb : 0 < tbw * fc := by positivity
  have hb' : tbw * fc < fc := by nlinarith
  obtain ⟨m, hm, hN, h4, h5⟩ := ntaps_odd hb (by linarith)
  refine ⟨m, hm, h4, h5, ?_⟩
  intro s hs
  have hlen : 0 < s.length := List.length_pos_iff.2 hs
  have hsum := raw_sum hm (fc := fc - tbw * fc) (by linarith) (by linarith)
  have hN' : (ntaps (tbw * fc)).toNat = 2 * m + 1 := by omega
  unfold lowpass
  simp only [hN']
  rw [if_neg hb.ne', if_neg (by omega), if_neg (by
    rintro (h | h)
    · omega
    · linarith)]
  set h := (raw (fc - tbw * fc) (2 * m + 1)).map (· / (raw (fc - tbw * fc) (2 * m + 1)).sum) with hh
  have hhl : h.length = 2 * m + 1 := by simp [hh, raw]
  have key : ∀ n : ℕ, conv s h n = ∑ k ∈ Finset.range (2 * m + 1),
      taps (fc - tbw * fc) m ((k : ℤ) - m) * sample s ((n : ℤ) - k) := by
    intro n
    rw [conv_eq, hhl]
    apply Finset.sum_congr rfl
    intro k hk
    rw [hh, taps_getD hm _ (Finset.mem_range.1 hk)]
  unfold convolveSame shift
  by_cases hl : s.length < h.length
  · simp only [if_pos hl]
    rw [if_neg (by omega), if_neg (by omega), if_neg (by omega), hhl,
      show max s.length (2 * m + 1) = 2 * m + 1 by omega]
    congr 1
    apply List.map_congr_left
    intro i _
    rw [conv_comm, key]
  · simp only [if_neg hl]
    rw [if_neg (by omega), if_neg (by omega), if_pos (by omega), hhl,
      show max s.length (2 * m + 1) = s.length by omega]
    congr 1
    apply List.map_congr_left
    intro i _
    rw [key, show (2 * m + 1 - 1) / 2 = m by omega]

/-- C87. The filter for a cutoff frequency in `(0, 1/2)` and a transition band in `(0, 1)`: it never
fails on a signal that is not empty; its `2m + 1` coefficients, at least `4/(tbw fc)` of them, are those
of the documented windowed cardinal sine, symmetric and of sum one; sample `i` of the result is the
mean of the samples of the signal (extended by zeros) around `i`, weighted by the coefficients. When
the signal is shorter than the filter the result is longer than the signal and it is moved. -/
theorem C87_filter {fc tbw : ℝ} (h0 : 0 < fc) (h1 : fc < 1 / 2) (t0 : 0 < tbw) (t1 : tbw < 1) :
    ∃ (m : ℕ) (h : ℤ → ℝ) (c : ℝ),
      4 / (tbw * fc) ≤ 2 * m + 1 ∧ (2 * m + 1 : ℝ) < 4 / (tbw * fc) + 2 ∧
      (0 < c ∧ c ≤ 1 ∧ h 0 = c) ∧
      (∀ j : ℤ, j ≠ 0 → h j = c * (sin (2 * π * (fc * (1 - tbw)) * j) / (2 * π * (fc * (1 - tbw)) * j)) *
        (0.42 + 0.5 * cos (π * j / m) + 0.08 * cos (2 * π * j / m))) ∧
      (∀ j, h (-j) = h j) ∧
      ∑ k ∈ Finset.range (2 * m + 1), h ((k : ℤ) - m) = 1 ∧
      ∀ s : List ℝ, s ≠ [] → ∃ out, lowpass s fc tbw = .ok out ∧
        out.length = max s.length (2 * m + 1) ∧
        (2 * m + 1 ≤ s.length → ∀ i < s.length, out.getD i 0 =
          ∑ k ∈ Finset.range (2 * m + 1), h ((k : ℤ) - m) * sample s ((i : ℤ) - ((k : ℤ) - m))) ∧
        (s.length < 2 * m + 1 → ∀ i < 2 * m + 1, out.getD i 0 =
          ∑ k ∈ Finset.range (2 * m + 1), h ((k : ℤ) - m) *
            sample s ((i : ℤ) - (m - ((s.length - 1) / 2 : ℕ)) - ((k : ℤ) - m))) := by
  obtain ⟨m, hm, h4, h5, hall⟩ := lowpass_eq h0 h1 t0 t1
  have hb' : tbw * fc < fc := by nlinarith
  have hb : 0 < tbw * fc := by positivity
  have hsum := raw_sum hm (fc := fc - tbw * fc) (by linarith) (by linarith)
  refine ⟨m, taps (fc - tbw * fc) m, 1 / (raw (fc - tbw * fc) (2 * m + 1)).sum, h4, h5,
    ⟨by positivity, by rw [div_le_one (by linarith)]; exact hsum, ?_⟩, ?_, taps_neg _ m,
    taps_sum hm (by linarith) (by linarith), ?_⟩
  · simp [taps, coef, npSinc, centred_zero]
  · intro j hj
    have hj' : (j : ℝ) ≠ 0 := by exact_mod_cast hj
    have hf : fc - tbw * fc ≠ 0 := by linarith
    unfold taps coef npSinc centred
    rw [if_neg (by simp [hf, hj'])]
    have e1 : π * (2 * (fc - tbw * fc) * (j : ℝ)) = 2 * π * (fc * (1 - tbw)) * j := by ring
    have e2 : 2 * (π * (j : ℝ) / m) = 2 * π * j / m := by ring
    rw [e1, e2]
    ring
  · intro s hs
    refine ⟨_, hall s hs, by simp, ?_, ?_⟩
    · intro hl i hi
      rw [List.getD_eq_getElem _ _ (by simp; omega), List.getElem_map, List.getElem_range]
      apply Finset.sum_congr rfl
      intro k _
      unfold shift
      rw [if_pos hl]
      congr 2
      push_cast; ring
    · intro hl i hi
      rw [List.getD_eq_getElem _ _ (by simp; omega), List.getElem_map, List.getElem_range]
      apply Finset.sum_congr rfl
      intro k _
      unfold shift
      rw [if_neg (by omega)]
      congr 2
      push_cast; ring

theorem sample_of_nonneg {s : List ℝ} {i : ℤ} (h0 : 0 ≤ i) :
    sample s i = s.getD i.toNat 0 := by unfold sample; rw [if_pos h0]

theorem odd_sum (m : ℕ) (h g : ℤ → ℝ) (hh : ∀ j, h (-j) = h j) (hg : ∀ j, g (-j) = -g j) :
    ∑ k ∈ Finset.range (2 * m + 1), h ((k : ℤ) - m) * g ((k : ℤ) - m) = 0 := by
  have e : ∑ k ∈ Finset.range (2 * m + 1), h ((k : ℤ) - m) * g ((k : ℤ) - m) =
      -∑ k ∈ Finset.range (2 * m + 1), h ((k : ℤ) - m) * g ((k : ℤ) - m) := by
    conv_lhs => rw [← Finset.sum_range_reflect]
    rw [← Finset.sum_neg_distrib]
    apply Finset.sum_congr rfl
    intro k hk
    have hk := Finset.mem_range.1 hk
    have : ((2 * m + 1 - 1 - k : ℕ) : ℤ) - m = -((k : ℤ) - m) := by omega
    rw [this, hh, hg]
    ring
  linarith

/-- C87. Away from the ends (by half the length of the filter), a sinusoid keeps its frequency and its
phase: it is only multiplied by a gain that depends on its frequency; the gain at frequency zero is
one. -/
theorem C87_sinusoid {fc tbw : ℝ} (h0 : 0 < fc) (h1 : fc < 1 / 2) (t0 : 0 < tbw) (t1 : tbw < 1) :
    ∃ (m : ℕ) (G : ℝ → ℝ), (2 * m + 1 : ℝ) < 4 / (tbw * fc) + 2 ∧ G 0 = 1 ∧ (∀ ν, G (-ν) = G ν) ∧
      (∀ ν, G (ν + 1) = G ν) ∧
      ∀ (A ν φ : ℝ) (s : List ℝ), 2 * m + 1 ≤ s.length →
        (∀ i < s.length, s.getD i 0 = A * cos (2 * π * ν * i + φ)) →
        ∃ out, lowpass s fc tbw = .ok out ∧ out.length = s.length ∧
          ∀ i, m ≤ i → i + m < s.length → out.getD i 0 = G ν * s.getD i 0 := by
  obtain ⟨m, h, c, -, h5, -, -, hneg, hsum, hall⟩ := C87_filter h0 h1 t0 t1
  refine ⟨m, fun ν => ∑ k ∈ Finset.range (2 * m + 1), h ((k : ℤ) - m) *
    cos (2 * π * ν * (((k : ℤ) - m : ℤ) : ℝ)), h5, by simpa using hsum, ?_, ?_, ?_⟩
  · intro ν
    apply Finset.sum_congr rfl
    intro k _
    rw [show 2 * π * -ν * (((k : ℤ) - m : ℤ) : ℝ) = -(2 * π * ν * (((k : ℤ) - m : ℤ) : ℝ)) by ring, cos_neg]
  · intro ν
    apply Finset.sum_congr rfl
    intro k _
    rw [show 2 * π * (ν + 1) * (((k : ℤ) - m : ℤ) : ℝ) =
      2 * π * ν * (((k : ℤ) - m : ℤ) : ℝ) + (((k : ℤ) - m : ℤ) : ℝ) * (2 * π) by ring,
      cos_add_int_mul_two_pi]
  · intro A ν φ s hl hs
    obtain ⟨out, ho, hlen, hlong, -⟩ := hall s (by rintro rfl; simp at hl)
    refine ⟨out, ho, by rw [hlen]; omega, ?_⟩
    intro i hi hi'
    rw [hlong hl i (by omega), hs i (by omega)]
    have e : ∀ k ∈ Finset.range (2 * m + 1), h ((k : ℤ) - m) * sample s ((i : ℤ) - ((k : ℤ) - m)) =
        (h ((k : ℤ) - m) * cos (2 * π * ν * (((k : ℤ) - m : ℤ) : ℝ))) * (A * cos (2 * π * ν * i + φ)) +
        (h ((k : ℤ) - m) * sin (2 * π * ν * (((k : ℤ) - m : ℤ) : ℝ))) * (A * sin (2 * π * ν * i + φ)) := by
      intro k hk
      have hk := Finset.mem_range.1 hk
      rw [sample_of_nonneg (by omega), hs _ (by omega)]
      have : (((((i : ℤ) - ((k : ℤ) - m)).toNat : ℕ)) : ℝ) = (i : ℝ) - (((k : ℤ) - m : ℤ) : ℝ) := by
        have : (((((i : ℤ) - ((k : ℤ) - m)).toNat : ℕ)) : ℤ) = (i : ℤ) - ((k : ℤ) - m) := by omega
        have := congrArg (fun z : ℤ => (z : ℝ)) this
        push_cast at this ⊢
        exact this
      rw [this, show 2 * π * ν * ((i : ℝ) - (((k : ℤ) - m : ℤ) : ℝ)) + φ =
        (2 * π * ν * i + φ) - 2 * π * ν * (((k : ℤ) - m : ℤ) : ℝ) by ring, cos_sub]
      ring
    rw [Finset.sum_congr rfl e, Finset.sum_add_distrib, ← Finset.sum_mul, ← Finset.sum_mul,
      odd_sum m h (fun j => sin (2 * π * ν * (j : ℝ))) hneg (fun j => by
        push_cast; rw [mul_neg, sin_neg])]
    ring

/-- C87. Away from the ends, constant signals and ramps are not changed. -/
theorem C87_ramp {fc tbw : ℝ} (h0 : 0 < fc) (h1 : fc < 1 / 2) (t0 : 0 < tbw) (t1 : tbw < 1) :
    ∃ m : ℕ, (2 * m + 1 : ℝ) < 4 / (tbw * fc) + 2 ∧
      ∀ (a b : ℝ) (s : List ℝ), 2 * m + 1 ≤ s.length → (∀ i < s.length, s.getD i 0 = a + b * i) →
        ∃ out, lowpass s fc tbw = .ok out ∧ out.length = s.length ∧
          ∀ i, m ≤ i → i + m < s.length → out.getD i 0 = a + b * i := by
  obtain ⟨m, h, c, -, h5, -, -, hneg, hsum, hall⟩ := C87_filter h0 h1 t0 t1
  refine ⟨m, h5, ?_⟩
  intro a b s hl hs
  obtain ⟨out, ho, hlen, hlong, -⟩ := hall s (by rintro rfl; simp at hl)
  refine ⟨out, ho, by rw [hlen]; omega, ?_⟩
  intro i hi hi'
  rw [hlong hl i (by omega)]
  have e : ∀ k ∈ Finset.range (2 * m + 1), h ((k : ℤ) - m) * sample s ((i : ℤ) - ((k : ℤ) - m)) =
      h ((k : ℤ) - m) * (a + b * i) + (h ((k : ℤ) - m) * (((k : ℤ) - m : ℤ) : ℝ)) * (-b) := by
    intro k hk
    have hk := Finset.mem_range.1 hk
    rw [sample_of_nonneg (by omega), hs _ (by omega)]
    have : (((((i : ℤ) - ((k : ℤ) - m)).toNat : ℕ)) : ℝ) = (i : ℝ) - (((k : ℤ) - m : ℤ) : ℝ) := by
      have : (((((i : ℤ) - ((k : ℤ) - m)).toNat : ℕ)) : ℤ) = (i : ℤ) - ((k : ℤ) - m) := by omega
      have := congrArg (fun z : ℤ => (z : ℝ)) this
      push_cast at this ⊢
      exact this
    rw [this]
    ring
  rw [Finset.sum_congr rfl e, Finset.sum_add_distrib, ← Finset.sum_mul, ← Finset.sum_mul, hsum,
    odd_sum m h (fun j => (j : ℝ)) hneg (fun j => by push_cast; ring)]
  ring

/-- C87. The filter is linear, at the ends of the signals also. -/
theorem C87_linear {fc tbw : ℝ} (h0 : 0 < fc) (h1 : fc < 1 / 2) (t0 : 0 < tbw) (t1 : tbw < 1)
    (a b : ℝ) (s t : List ℝ) (hs : s ≠ []) (hst : s.length = t.length) :
    ∃ s' t', lowpass s fc tbw = .ok s' ∧ lowpass t fc tbw = .ok t' ∧
      lowpass (List.zipWith (fun x y => a * x + b * y) s t) fc tbw =
        .ok (List.zipWith (fun x y => a * x + b * y) s' t') := by
  obtain ⟨m, hm, -, -, hall⟩ := lowpass_eq h0 h1 t0 t1
  have hlen : 0 < s.length := List.length_pos_iff.2 hs
  have ht : t ≠ [] := List.length_pos_iff.1 (by omega)
  have hz : (List.zipWith (fun x y => a * x + b * y) s t).length = s.length := by
    rw [List.length_zipWith]; omega
  refine ⟨_, _, hall s hs, hall t ht, ?_⟩
  rw [hall _ (List.length_pos_iff.1 (by omega)), hz, ← hst]
  congr 1
  rw [List.zipWith_map, List.zipWith_self]
  apply List.map_congr_left
  intro i _
  rw [Finset.mul_sum, Finset.mul_sum, ← Finset.sum_add_distrib]
  apply Finset.sum_congr rfl
  intro k _
  have : ∀ j : ℤ, sample (List.zipWith (fun x y => a * x + b * y) s t) j =
      a * sample s j + b * sample t j := by
    intro j
    unfold sample
    by_cases hj : 0 ≤ j
    · rw [if_pos hj, if_pos hj, if_pos hj]
      by_cases hl : j.toNat < s.length
      · rw [List.getD_eq_getElem _ _ (by omega), List.getD_eq_getElem _ _ hl,
          List.getD_eq_getElem _ _ (by omega), List.getElem_zipWith]
      · rw [List.getD_eq_default _ _ (by omega), List.getD_eq_default _ _ (by omega),
          List.getD_eq_default _ _ (by omega)]
        ring
    · rw [if_neg hj, if_neg hj, if_neg hj]; ring
  rw [this]
  ring

/-- C87. An empty signal is refused. -/
theorem C87_empty {fc tbw : ℝ} (h : tbw * fc ≠ 0) : lowpass [] fc tbw = .error .empty := by
  simp [lowpass, h]

/-- C87. Counterexample to "the result has the length of the signal": one sample gives 33. -/
theorem C87_short : ∃ out, lowpass [1] (1 / 4) (1 / 2) = .ok out ∧ out.length = 33 := by
  obtain ⟨m, h, c, h4, h5, -, -, -, -, hall⟩ := C87_filter (fc := 1 / 4) (tbw := 1 / 2)
    (by norm_num) (by norm_num) (by norm_num) (by norm_num)
  obtain ⟨out, ho, hlen, -⟩ := hall [1] (by simp)
  refine ⟨out, ho, ?_⟩
  norm_num at h4 h5
  have h4' : 32 ≤ 2 * m + 1 := by exact_mod_cast h4
  have h5' : 2 * m + 1 < 34 := by exact_mod_cast h5
  rw [hlen]
  simp
  omega

/-- A constant signal of 1000 samples: 801 coefficients, and the samples
400 to 599 of the result are those of the signal. -/
example : ∃ out, lowpass (List.replicate 1000 7) (1 / 20) (1 / 10) = .ok out ∧ out.length = 1000 ∧
    out.getD 450 0 = 7 := by
  obtain ⟨m, h5, hall⟩ := C87_ramp (fc := 1 / 20) (tbw := 1 / 10)
    (by norm_num) (by norm_num) (by norm_num) (by norm_num)
  norm_num at h5
  have h5' : 2 * m + 1 < 802 := by exact_mod_cast h5
  obtain ⟨out, ho, hlen, h⟩ := hall 7 0 (List.replicate 1000 7) (by rw [List.length_replicate]; omega) (by
    intro i hi
    rw [List.getD_eq_getElem _ _ hi, List.getElem_replicate]; norm_num)
  refine ⟨out, ho, by rw [hlen, List.length_replicate], ?_⟩
  rw [h 450 (by omega) (by rw [List.length_replicate]; omega)]
  norm_num

end Lowpass
end Signals
end Pyphs
