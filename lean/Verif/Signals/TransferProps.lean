/-
C88: the measured transfer function is the ratio of the amplitudes, at the frequencies within the limits.
-/
import Verif.Signals.Transfer
import Verif.Signals.LowpassProps
import Mathlib.Analysis.SpecialFunctions.Trigonometric.Basic
import Mathlib.Analysis.SpecialFunctions.Complex.Log
import Mathlib.Data.List.GetD
import Mathlib.Tactic.Linarith
import Mathlib.Tactic.Ring
import Mathlib.Tactic.FieldSimp

open Real

namespace Pyphs
namespace Signals
namespace Transfer

/-! ### The frequencies -/

open Classical in
theorem slice_eq {α : Type} {l : List (ℝ × α)} (h : (l.map (·.1)).Pairwise (· < ·)) (a b : ℝ) :
    (l.take ((l.map (·.1)).findIdx fun x => b < x)).drop ((l.map (·.1)).findIdx fun x => a ≤ x) =
      l.filter fun x => a ≤ x.1 ∧ x.1 ≤ b := by
  induction l with
  | nil => simp
  | cons y l ih =>
    rw [List.map_cons] at h ⊢
    rw [List.pairwise_cons] at h
    rw [List.findIdx_cons, List.findIdx_cons]
    by_cases hb : b < y.1
    · simp only [hb, decide_true, cond_true, List.take_zero, List.drop_nil]
      symm
      rw [List.filter_eq_nil_iff]
      intro x hx
      rcases List.mem_cons.1 hx with rfl | hx
      · simp [hb]
      · have := h.1 x.1 (List.mem_map_of_mem hx)
        simp only [decide_eq_true_eq, not_and, not_le]
        intro _; linarith
    · simp only [hb, decide_false, cond_false, List.take_succ_cons]
      by_cases ha : a ≤ y.1
      · simp only [ha, decide_true, cond_true, List.drop_zero]
        rw [List.filter_cons_of_pos (by simpa using ⟨ha, not_lt.1 hb⟩)]
        congr 1
        rw [← ih h.2]
        have : (l.map (·.1)).findIdx (fun x => decide (a ≤ x)) = 0 := by
          cases l with
          | nil => simp
          | cons x l =>
            have := h.1 x.1 (by simp)
            rw [List.map_cons, List.findIdx_cons]
            simp [show a ≤ x.1 by linarith]
        rw [this, List.drop_zero]
      · simp only [ha, decide_false, cond_false, List.drop_succ_cons]
        rw [List.filter_cons_of_neg (by simp [ha]), ih h.2]

/-- The frequencies of the spectrum of segments of `L` samples. -/
noncomputable def bins (L : ℕ) (fs : ℝ) : List ℝ := (List.range (L / 2 + 1)).map fun k : ℕ => k * fs / L

theorem bins_sorted {L : ℕ} (hL : 0 < L) {fs : ℝ} (hfs : 0 < fs) : (bins L fs).Pairwise (· < ·) := by
  unfold bins
  rw [List.pairwise_map]
  refine List.pairwise_lt_range.imp ?_
  intro a b hab
  have : (a : ℝ) < b := by exact_mod_cast hab
  have : (0 : ℝ) < L := by exact_mod_cast hL
  gcongr

theorem bins_last (L : ℕ) (fs : ℝ) : (bins L fs).getLast? = some ((L / 2 : ℕ) * fs / L) := by
  unfold bins
  rw [List.range_succ]
  simp

open Classical in
theorem limits_eq {L : ℕ} (hL : 0 < L) {fs : ℝ} (hfs : 0 < fs) (a b : ℝ) :
    limits (bins L fs) a b = if (L / 2 : ℕ) * fs / L < a then .error .index
      else .ok ((bins L fs).findIdx (fun x => a ≤ x), (bins L fs).findIdx fun x => b < x) := by
  have hmax : ∀ x ∈ bins L fs, x ≤ (L / 2 : ℕ) * fs / L := by
    intro x hx
    unfold bins at hx
    rw [List.mem_map] at hx
    obtain ⟨k, hk, rfl⟩ := hx
    have hk := List.mem_range.1 hk
    have : (k : ℝ) ≤ (L / 2 : ℕ) := by exact_mod_cast (by omega : k ≤ L / 2)
    gcongr
  have hmem : ((L / 2 : ℕ) : ℝ) * fs / L ∈ bins L fs := List.mem_of_getLast? (bins_last L fs)
  unfold limits
  rw [bins_last]
  dsimp only
  have h1 : (bins L fs).findIdx (fun x => decide (a ≤ x)) = (bins L fs).length ↔
      (L / 2 : ℕ) * fs / L < a := by
    rw [List.findIdx_eq_length]
    constructor
    · intro h
      simpa using h _ hmem
    · intro h x hx
      have := hmax x hx
      simp only [decide_eq_false_iff_not, not_le]
      linarith
  have h2 : (if (L / 2 : ℕ) * fs / L ≤ b then (bins L fs).length
      else (bins L fs).findIdx fun x => decide (b < x)) = (bins L fs).findIdx fun x => decide (b < x) := by
    split_ifs with hb
    · symm
      rw [List.findIdx_eq_length]
      intro x hx
      have := hmax x hx
      simp only [decide_eq_false_iff_not, not_lt]
      linarith
    · rfl
  rw [h2]
  by_cases h : (L / 2 : ℕ) * fs / L < a
  · rw [if_pos h, if_pos (h1.2 h)]
  · rw [if_neg h, if_neg (fun e => h (h1.1 e))]

theorem welch_eq {s : List ℝ} (hs : s ≠ []) (fs : ℝ) {nfft : ℕ} (hn : 0 < nfft) {noverlap : Option ℕ}
    (ho : ∀ o ∈ noverlap, o < min nfft s.length) :
    welch s fs nfft noverlap = .ok (bins (min nfft s.length) fs,
      (List.range (min nfft s.length / 2 + 1)).map fun k =>
        spectrum s (min nfft s.length) (noverlap.getD (min nfft s.length / 2)) k) := by
  have hlen : 0 < s.length := List.length_pos_iff.2 hs
  have hov : noverlap.getD (min nfft s.length / 2) < min nfft s.length := by
    cases noverlap with
    | none => simp only [Option.getD_none]; omega
    | some o => exact ho o rfl
  unfold welch
  rw [if_neg hlen.ne', if_neg hn.ne']
  dsimp only
  rw [if_neg (not_le.2 hov)]
  rfl

open Classical in
/-- What the function returns on two filtered signals of the same length. -/
theorem transfer_eq {x y x' y' : List ℝ} {fc : Option ℝ} (hx' : filtered x' fc = .ok x)
    (hy' : filtered y' fc = .ok y) (hx : x ≠ []) (hxy : x.length = y.length) {fs : ℝ} (hfs : 0 < fs)
    {nfft : ℕ} (hn : 0 < nfft) (lim : Option (ℝ × ℝ)) {noverlap : Option ℕ}
    (ho : ∀ o ∈ noverlap, o < min nfft x.length) {L o : ℕ} (hLe : L = min nfft x.length)
    (hoe : o = noverlap.getD (L / 2)) {r : List (ℝ × Option ℝ)}
    (hr : r = (bins L fs).zip ((List.range (L / 2 + 1)).map fun k =>
        ratio (spectrum x L o k) (spectrum y L o k))) {a b : ℝ} (hab : (a, b) = lim.getD (0, fs / 2)) :
    transferFunction x' y' fs nfft fc lim noverlap =
      if (L / 2 : ℕ) * fs / L < a then .error .index
      else .ok (((r.filter fun p => a ≤ p.1 ∧ p.1 ≤ b).map (·.1)),
        ((r.filter fun p => a ≤ p.1 ∧ p.1 ≤ b).map (·.2))) := by
  have hlen : 0 < x.length := List.length_pos_iff.2 hx
  have hL : 0 < L := by omega
  have hy : y ≠ [] := List.length_pos_iff.1 (by omega)
  unfold transferFunction
  rw [hx', hy', ← hab]
  simp only [bind, Except.bind]
  rw [welch_eq hx fs hn ho]
  simp only
  rw [welch_eq hy fs hn (by rw [← hxy]; exact ho), ← hxy, ← hLe, ← hoe]
  simp only [List.length_map, List.length_range, ne_eq, not_true_eq_false, if_false]
  rw [limits_eq hL hfs]
  by_cases h : (L / 2 : ℕ) * fs / L < a
  · simp only [if_pos h]
  · simp only [if_neg h]
    rw [List.zipWith_map, List.zipWith_self]
    set t := (List.range (L / 2 + 1)).map fun k => ratio (spectrum x L o k) (spectrum y L o k) with ht
    have hbt : (bins L fs).length = t.length := by simp [bins, ht]
    have hf : r.map (·.1) = bins L fs := by rw [hr]; exact List.map_fst_zip (by omega)
    have hs : r.map (·.2) = t := by rw [hr]; exact List.map_snd_zip (by omega)
    have key := slice_eq (l := r) (by rw [hf]; exact bins_sorted hL hfs) a b
    rw [hf] at key
    rw [← key, List.map_drop, List.map_take, List.map_drop, List.map_take, hf, hs]

/-! ### Sums of roots of unity -/

noncomputable def e (L : ℕ) (j : ℤ) (n : ℕ) : ℂ := Complex.exp (2 * π * Complex.I * j * n / L)

theorem e_add (L : ℕ) (i j : ℤ) (n : ℕ) : e L (i + j) n = e L i n * e L j n := by
  unfold e
  rw [← Complex.exp_add]
  congr 1
  push_cast
  ring

theorem e_zero (L n : ℕ) : e L 0 n = 1 := by simp [e]

theorem e_sum {L : ℕ} (hL : 0 < L) {j : ℤ} (hj : ¬ (L : ℤ) ∣ j) : ∑ n ∈ Finset.range L, e L j n = 0 := by
  have hL' : (L : ℂ) ≠ 0 := by exact_mod_cast hL.ne'
  set z : ℂ := Complex.exp (2 * π * Complex.I * j / L) with hz
  have h1 : ∀ n : ℕ, e L j n = z ^ n := by
    intro n
    rw [hz, ← Complex.exp_nat_mul]
    unfold e
    congr 1
    ring
  have hne : z ≠ 1 := by
    intro h
    rw [hz, Complex.exp_eq_one_iff] at h
    obtain ⟨m, hm⟩ := h
    apply hj
    have hpi : (2 * π * Complex.I : ℂ) ≠ 0 := Complex.two_pi_I_ne_zero
    rw [div_eq_iff hL'] at hm
    have : (2 * π * Complex.I : ℂ) * j = (2 * π * Complex.I) * (m * L) := by rw [hm]; ring
    have := mul_left_cancel₀ hpi this
    exact ⟨m, by rw [mul_comm]; exact_mod_cast this⟩
  have hpow : z ^ L = 1 := by
    rw [hz, ← Complex.exp_nat_mul]
    rw [show (L : ℂ) * (2 * π * Complex.I * j / L) = j * (2 * π * Complex.I) by field_simp]
    exact Complex.exp_int_mul_two_pi_mul_I j
  have := geom_sum_mul z L
  rw [hpow, sub_self] at this
  rcases mul_eq_zero.1 this with h | h
  · simpa only [h1] using h
  · exact absurd (sub_eq_zero.1 h) hne

theorem cos_e (L : ℕ) (k : ℕ) (φ : ℝ) (n : ℕ) :
    ((cos (2 * π * k * n / L + φ) : ℝ) : ℂ) =
      (Complex.exp (φ * Complex.I) * e L k n + Complex.exp (-(φ * Complex.I)) * e L (-k) n) / 2 := by
  rw [Complex.ofReal_cos, Complex.cos]
  unfold e
  rw [← Complex.exp_add, ← Complex.exp_add]
  congr 3
  · push_cast; ring
  · push_cast; ring

theorem hann_e {L : ℕ} (hL : 1 < L) (n : ℕ) :
    ((hann L n : ℝ) : ℂ) = 1 / 2 - (e L 1 n + e L (-1) n) / 4 := by
  have h := cos_e L 1 0 n
  unfold hann
  rw [if_neg (by omega)]
  have e1 : cos (2 * π * n / L) = cos (2 * π * (1 : ℕ) * n / L + 0) := by simp
  rw [e1]
  push_cast at h ⊢
  rw [h]
  norm_num
  ring

theorem not_dvd {L : ℕ} {j : ℤ} (h0 : 0 < j) (h1 : j < L) : ¬ (L : ℤ) ∣ j :=
  fun h => absurd (Int.le_of_dvd h0 h) (by omega)

theorem hann_sum {L : ℕ} (hL : 1 < L) : ∑ n ∈ Finset.range L, hann L n = L / 2 := by
  have h : ((∑ n ∈ Finset.range L, hann L n : ℝ) : ℂ) = ((L / 2 : ℝ) : ℂ) := by
    rw [Complex.ofReal_sum, Finset.sum_congr rfl (fun n _ => hann_e hL n), Finset.sum_sub_distrib,
      ← Finset.sum_div, ← Finset.sum_div, Finset.sum_add_distrib, e_sum (by omega) (not_dvd one_pos (by omega)),
      e_sum (by omega) (by rw [dvd_neg]; exact not_dvd one_pos (by omega))]
    simp
  exact_mod_cast h

theorem mean_sinusoid {L k : ℕ} (hk : 0 < k) (hkL : k < L) (A φ : ℝ) :
    mean L (fun n => A * cos (2 * π * k * n / L + φ)) = 0 := by
  unfold mean
  have h : ((∑ n ∈ Finset.range L, A * cos (2 * π * k * n / L + φ) : ℝ) : ℂ) = 0 := by
    rw [← Finset.mul_sum, Complex.ofReal_mul, Complex.ofReal_sum,
      Finset.sum_congr rfl (fun n _ => cos_e L k φ n), ← Finset.sum_div, Finset.sum_add_distrib,
      ← Finset.mul_sum, ← Finset.mul_sum, e_sum (by omega) (not_dvd (by omega) (by omega)),
      e_sum (by omega) (by rw [dvd_neg]; exact not_dvd (by omega) (by omega))]
    simp
  rw [Complex.ofReal_eq_zero.1 h, zero_div]

theorem dft_sinusoid {L k : ℕ} (hk : 0 < k) (hkL : 2 * k + 1 < L) (A φ : ℝ) :
    dft L (fun n => A * cos (2 * π * k * n / L + φ)) k =
      ((A * L / 4 : ℝ) : ℂ) * Complex.exp (φ * Complex.I) := by
  unfold dft
  rw [mean_sinusoid hk (by omega)]
  have h : ∀ n ∈ Finset.range L,
      ((hann L n * (A * cos (2 * π * k * n / L + φ) - 0) : ℝ) : ℂ) *
        Complex.exp (-(2 * π * Complex.I * k * n / L)) =
      (A / 2 * Complex.exp (φ * Complex.I)) * (1 / 2 - (e L 1 n + e L (-1) n) / 4) +
      (A / 2 * Complex.exp (-(φ * Complex.I))) *
        (e L (-(2 * k)) n / 2 - (e L (-(2 * k - 1)) n + e L (-(2 * k + 1)) n) / 4) := by
    intro n _
    rw [sub_zero, Complex.ofReal_mul, Complex.ofReal_mul, hann_e (by omega), cos_e]
    have e0 : Complex.exp (-(2 * π * Complex.I * k * n / L)) = e L (-k) n := by
      unfold e; congr 1; push_cast; ring
    have e1 : e L k n * e L (-k) n = 1 := by rw [← e_add, add_neg_cancel, e_zero]
    have e2 : e L (-(2 * k)) n = e L (-k) n * e L (-k) n := by rw [← e_add]; congr 1; ring
    have e3 : e L (-(2 * k - 1)) n = e L 1 n * (e L (-k) n * e L (-k) n) := by
      rw [← e_add, ← e_add]; congr 1; ring
    have e4 : e L (-(2 * k + 1)) n = e L (-1) n * (e L (-k) n * e L (-k) n) := by
      rw [← e_add, ← e_add]; congr 1; ring
    rw [e0, e2, e3, e4]
    linear_combination (1 / 2 - (e L 1 n + e L (-1) n) / 4) * A * Complex.exp (φ * Complex.I) / 2 * e1
  rw [Finset.sum_congr rfl h, Finset.sum_add_distrib, ← Finset.mul_sum, ← Finset.mul_sum,
    Finset.sum_sub_distrib, Finset.sum_sub_distrib, ← Finset.sum_div, ← Finset.sum_div, ← Finset.sum_div,
    ← Finset.sum_div,
    Finset.sum_add_distrib, Finset.sum_add_distrib,
    e_sum (by omega) (not_dvd one_pos (by omega)),
    e_sum (by omega) (j := -1) (by rw [dvd_neg]; exact not_dvd one_pos (by omega)),
    e_sum (by omega) (j := -(2 * k)) (by rw [dvd_neg]; exact not_dvd (by omega) (by omega)),
    e_sum (by omega) (j := -(2 * k - 1)) (by rw [dvd_neg]; exact not_dvd (by omega) (by omega)),
    e_sum (by omega) (j := -(2 * k + 1)) (by rw [dvd_neg]; exact not_dvd (by omega) (by omega))]
  simp
  ring

theorem power_sinusoid {L k : ℕ} (hk : 0 < k) (hkL : 2 * k + 1 < L) (A φ : ℝ) :
    power L (fun n => A * cos (2 * π * k * n / L + φ)) k = A ^ 2 / 2 := by
  have hL : (L : ℝ) ≠ 0 := by
    have : 0 < L := by omega
    exact_mod_cast this.ne'
  unfold power
  rw [dft_sinusoid hk hkL, hann_sum (by omega), if_neg (by omega), Complex.normSq_mul,
    Complex.normSq_ofReal, Complex.normSq_eq_norm_sq, Complex.norm_exp_ofReal_mul_I]
  field_simp
  ring

theorem segments_pos {len L o : ℕ} (h : L ≤ len) (ho : o < L) : 0 < segments len L o := by
  unfold segments
  exact Nat.div_pos (by omega) (by omega)

theorem power_congr {L : ℕ} {x y : ℕ → ℝ} (h : ∀ n < L, x n = y n) (k : ℕ) : power L x k = power L y k := by
  have hm : mean L x = mean L y := by
    unfold mean
    rw [Finset.sum_congr rfl fun n hn => h n (Finset.mem_range.1 hn)]
  unfold power dft
  rw [hm, Finset.sum_congr rfl fun n hn => by rw [h n (Finset.mem_range.1 hn)]]

/-- The spectrum of a sinusoid at its frequency: half the square of its amplitude. -/
theorem spectrum_sinusoid {s : List ℝ} {L k o : ℕ} (hL : L ≤ s.length) (ho : o < L) (hk : 0 < k)
    (hkL : 2 * k + 1 < L) {A φ : ℝ}
    (hs : ∀ i < s.length, s.getD i 0 = A * cos (2 * π * k * i / L + φ)) :
    spectrum s L o k = A ^ 2 / 2 := by
  have hp := segments_pos hL ho
  have hp' : (segments s.length L o : ℝ) ≠ 0 := by exact_mod_cast hp.ne'
  have hseg : ∀ i ∈ Finset.range (segments s.length L o),
      power L (fun n => s.getD (i * (L - o) + n) 0) k = A ^ 2 / 2 := by
    intro i hi
    have hi := Finset.mem_range.1 hi
    have hend : i * (L - o) + L ≤ s.length := by
      have h1 : (i + 1) * (L - o) ≤ s.length - o := by
        calc (i + 1) * (L - o) ≤ segments s.length L o * (L - o) := Nat.mul_le_mul_right _ hi
          _ ≤ s.length - o := Nat.div_mul_le_self _ _
      rw [add_mul, one_mul] at h1
      omega
    rw [← power_sinusoid hk hkL A (2 * π * k * (i * (L - o) : ℕ) / L + φ)]
    apply power_congr
    intro n hn
    rw [hs _ (by omega)]
    congr 2
    push_cast
    ring
  unfold spectrum
  rw [Finset.sum_congr rfl hseg, Finset.sum_const, Finset.card_range, nsmul_eq_mul]
  field_simp

theorem power_scale (L : ℕ) (x : ℕ → ℝ) (c : ℝ) (k : ℕ) :
    power L (fun n => c * x n) k = c ^ 2 * power L x k := by
  have hm : mean L (fun n => c * x n) = c * mean L x := by
    unfold mean
    rw [← Finset.mul_sum, mul_div_assoc]
  have hd : dft L (fun n => c * x n) k = (c : ℂ) * dft L x k := by
    unfold dft
    rw [hm, Finset.mul_sum]
    apply Finset.sum_congr rfl
    intro n _
    push_cast
    ring
  unfold power
  rw [hd, Complex.normSq_mul, Complex.normSq_ofReal]
  ring

theorem spectrum_scale (s : List ℝ) (c : ℝ) (L o k : ℕ) :
    spectrum (s.map (c * ·)) L o k = c ^ 2 * spectrum s L o k := by
  unfold spectrum
  rw [List.length_map, ← mul_div_assoc, Finset.mul_sum]
  congr 1
  apply Finset.sum_congr rfl
  intro i _
  have hg : ∀ n, (s.map (c * ·)).getD n 0 = c * s.getD n 0 := by
    intro n
    by_cases h : n < s.length
    · rw [List.getD_eq_getElem _ _ (by simpa using h), List.getD_eq_getElem _ _ h, List.getElem_map]
    · rw [List.getD_eq_default _ _ (by simpa using h), List.getD_eq_default _ _ (by omega), mul_zero]
  simp only [hg]
  exact power_scale L (fun n => s.getD (i * (L - o) + n) 0) c k

/-! ### The properties -/

theorem pair_eq (lim : Option (ℝ × ℝ)) (fs : ℝ) :
    ((lim.getD (0, fs / 2)).1, (lim.getD (0, fs / 2)).2) = lim.getD (0, fs / 2) := rfl

open Classical in
/-- C88. On two signals of the same length, the frequencies are the multiples `k fs / L` (`L` is the
length of the segments) from zero to half the sampling rate which are within the limits, in increasing
order, with one value for each; it fails only if the lower limit is above all of them. -/
theorem C88_frequencies {x y : List ℝ} (hx : x ≠ []) (hxy : x.length = y.length) {fs : ℝ} (hfs : 0 < fs)
    {nfft : ℕ} (hn : 0 < nfft) (lim : Option (ℝ × ℝ)) {noverlap : Option ℕ}
    (ho : ∀ o ∈ noverlap, o < min nfft x.length) {L : ℕ} (hL : L = min nfft x.length) {a b : ℝ}
    (hab : (a, b) = lim.getD (0, fs / 2)) :
    ((∀ k ≤ L / 2, k * fs / L < a) ∧ transferFunction x y fs nfft none lim noverlap = .error .index) ∨
      ∃ f t, transferFunction x y fs nfft none lim noverlap = .ok (f, t) ∧ t.length = f.length ∧
        f = ((List.range (L / 2 + 1)).map fun k : ℕ => k * fs / L).filter fun v => a ≤ v ∧ v ≤ b := by
  have h := transfer_eq (x' := x) (y' := y) (fc := none) rfl rfl hx hxy hfs hn lim ho hL rfl rfl hab
  by_cases hlow : (L / 2 : ℕ) * fs / L < a
  · left
    rw [if_pos hlow] at h
    refine ⟨?_, h⟩
    intro k hk
    refine lt_of_le_of_lt ?_ hlow
    have : (k : ℝ) ≤ (L / 2 : ℕ) := by exact_mod_cast hk
    gcongr
  · right
    rw [if_neg hlow] at h
    refine ⟨_, _, h, by simp, ?_⟩
    have hmap : ∀ (u : List ℝ) (v : List (Option ℝ)), u.length = v.length →
        (((u.zip v).filter fun p => a ≤ p.1 ∧ p.1 ≤ b).map (·.1)) = u.filter fun z => a ≤ z ∧ z ≤ b := by
      intro u v huv
      conv_rhs => rw [← List.map_fst_zip (l₁ := u) (l₂ := v) (by omega)]
      rw [List.filter_map]
      rfl
    rw [hmap _ _ (by simp [bins])]
    rfl

theorem mem_zip_filter {l : List (ℝ × Option ℝ)} {q : ℝ × Option ℝ → Bool} {p : ℝ × Option ℝ}
    (hp : p ∈ l) (hq : q p = true) : p ∈ ((l.filter q).map (·.1)).zip ((l.filter q).map (·.2)) := by
  rw [List.zip_map']
  simp [hp, hq]

/-- C88. Two sinusoids with a whole number `k` of periods in a segment, away from zero and from half the
sampling rate: the value at their frequency is the ratio of the amplitudes, whatever the phases. -/
theorem C88_sinusoid {x y : List ℝ} (hxy : x.length = y.length) {fs : ℝ} (hfs : 0 < fs)
    {nfft : ℕ} (lim : Option (ℝ × ℝ)) {noverlap : Option ℕ}
    (ho : ∀ o ∈ noverlap, o < min nfft x.length) {L : ℕ} (hL : L = min nfft x.length) {k : ℕ}
    (hk : 0 < k) (hkL : 2 * k + 1 < L) {A B φ ψ : ℝ} (hA : A ≠ 0)
    (hx : ∀ i < x.length, x.getD i 0 = A * cos (2 * π * k * i / L + φ))
    (hy : ∀ i < y.length, y.getD i 0 = B * cos (2 * π * k * i / L + ψ))
    (hlim : ∀ r ∈ lim, r.1 ≤ k * fs / L ∧ k * fs / L ≤ r.2) :
    ∃ f t, transferFunction x y fs nfft none lim noverlap = .ok (f, t) ∧
      (k * fs / L, some (|B| / |A|)) ∈ f.zip t := by
  classical
  have hx0 : x ≠ [] := List.length_pos_iff.1 (by omega)
  have h := transfer_eq (x' := x) (y' := y) (fc := none) rfl rfl hx0 hxy hfs (by omega) lim ho hL rfl rfl
    (pair_eq lim fs)
  have hLr : (0 : ℝ) < L := by exact_mod_cast (by omega : 0 < L)
  have hkr : 2 * (k : ℝ) ≤ L := by exact_mod_cast (by omega : 2 * k ≤ L)
  have hin : (lim.getD (0, fs / 2)).1 ≤ k * fs / L ∧ k * fs / L ≤ (lim.getD (0, fs / 2)).2 := by
    cases lim with
    | none =>
      simp only [Option.getD_none]
      refine ⟨by positivity, ?_⟩
      rw [div_le_div_iff₀ hLr two_pos]
      nlinarith
    | some r => exact hlim r rfl
  have hkl : (k : ℝ) ≤ (L / 2 : ℕ) := by exact_mod_cast (by omega : k ≤ L / 2)
  rw [if_neg (by
    rw [not_lt]
    refine hin.1.trans ?_
    gcongr)] at h
  refine ⟨_, _, h, ?_⟩
  apply mem_zip_filter
  · have ho' : noverlap.getD (L / 2) < L := by
      cases noverlap with
      | none => simp only [Option.getD_none]; omega
      | some o => rw [hL]; exact ho o rfl
    have hr : ratio (spectrum x L (noverlap.getD (L / 2)) k) (spectrum y L (noverlap.getD (L / 2)) k) =
        some (|B| / |A|) := by
      rw [spectrum_sinusoid (by omega) ho' hk hkL hx, spectrum_sinusoid (by omega) ho' hk hkL hy]
      unfold ratio
      rw [if_neg (by positivity)]
      congr 1
      rw [show B ^ 2 / 2 / (A ^ 2 / 2) = (B / A) ^ 2 by field_simp, Real.sqrt_sq_eq_abs, abs_div]
    unfold bins
    rw [List.zip_map', List.mem_map]
    exact ⟨k, List.mem_range.2 (by omega), by rw [hr]⟩
  · simpa using hin

theorem filtered_scale {x : List ℝ} (hx : x ≠ []) (c : ℝ) {fc : Option ℝ}
    (hfc : ∀ v ∈ fc, 0 < v ∧ v < 1 / 2) : ∃ x', filtered x fc = .ok x' ∧ x.length ≤ x'.length ∧
      filtered (x.map (c * ·)) fc = .ok (x'.map (c * ·)) := by
  cases fc with
  | none => exact ⟨x, rfl, le_refl _, rfl⟩
  | some v =>
    obtain ⟨h0, h1⟩ := hfc v rfl
    obtain ⟨m, h, c', -, -, -, -, -, -, hall⟩ := Lowpass.C87_filter (tbw := 0.01) h0 h1 (by norm_num) (by norm_num)
    obtain ⟨out, ho, hlen, -⟩ := hall x hx
    obtain ⟨s', t', hs, ht, hz⟩ := Lowpass.C87_linear (tbw := 0.01) h0 h1 (by norm_num) (by norm_num) c 0 x x hx rfl
    rw [ho] at hs ht
    injection hs with hs
    injection ht with ht
    subst hs ht
    have e : ∀ l : List ℝ, List.zipWith (fun x y => c * x + 0 * y) l l = l.map (c * ·) := by
      intro l
      rw [List.zipWith_self]
      apply List.map_congr_left
      intro z _
      ring
    rw [e, e] at hz
    refine ⟨out, ?_, by omega, ?_⟩
    · unfold filtered; simp only [ho]
    · unfold filtered; simp only [hz]

/-- C88. If the second signal is `c` times the first, with or without filter, every value is `|c|`, except
where the spectrum of the (filtered) first signal vanishes, where there is none (`nan`). -/
theorem C88_proportional {x : List ℝ} (hx : x ≠ []) (c : ℝ) {fs : ℝ} (hfs : 0 < fs) {nfft : ℕ} (hn : 0 < nfft)
    {fc : Option ℝ} (hfc : ∀ v ∈ fc, 0 < v ∧ v < 1 / 2) (lim : Option (ℝ × ℝ)) {noverlap : Option ℕ}
    (ho : ∀ o ∈ noverlap, o < min nfft x.length) {f : List ℝ} {t : List (Option ℝ)}
    (h : transferFunction x (x.map (c * ·)) fs nfft fc lim noverlap = .ok (f, t)) :
    ∃ (x' : List ℝ) (L o : ℕ), filtered x fc = .ok x' ∧ L = min nfft x'.length ∧ o = noverlap.getD (L / 2) ∧
      ∀ p ∈ f.zip t, ∃ k ≤ L / 2, p.1 = k * fs / L ∧
        p.2 = if spectrum x' L o k = 0 then none else some |c| := by
  classical
  obtain ⟨x', hx', hlen, hcx⟩ := filtered_scale hx c hfc
  have hpos : 0 < x.length := List.length_pos_iff.2 hx
  have h' := transfer_eq hx' hcx (List.length_pos_iff.1 (by omega)) (by simp) hfs hn lim
    (fun o h => by have := ho o h; omega) rfl rfl rfl (pair_eq lim fs)
  refine ⟨x', _, _, hx', rfl, rfl, ?_⟩
  rw [h] at h'
  split_ifs at h' with hlow
  injection h' with h'
  injection h' with hf ht
  intro p hp
  rw [hf, ht, List.zip_map'] at hp
  simp only [List.map_id', Prod.mk.eta] at hp
  have hp := (List.mem_filter.1 hp).1
  unfold bins at hp
  rw [List.zip_map', List.mem_map] at hp
  obtain ⟨k, hk, rfl⟩ := hp
  refine ⟨k, by have := List.mem_range.1 hk; omega, rfl, ?_⟩
  simp only
  rw [spectrum_scale]
  unfold ratio
  by_cases hz : spectrum x' (min nfft x'.length) (noverlap.getD (min nfft x'.length / 2)) k = 0
  · rw [if_pos hz, if_pos hz]
  · rw [if_neg hz, if_neg hz, mul_div_assoc, div_self hz, mul_one, Real.sqrt_sq_eq_abs]

/-- Energy of bin `k`: sum over the `m` segments, every `D` samples, of the squared modulus of the Fourier
coefficient of the segment without its mean, weighted by `1 - cos(2πn/L)`. -/
noncomputable def energy (s : List ℝ) (L D m k : ℕ) : ℝ :=
  ∑ i ∈ Finset.range m, ‖∑ n ∈ Finset.range L,
    (((1 - cos (2 * π * n / L)) *
      (s.getD (i * D + n) 0 - (∑ j ∈ Finset.range L, s.getD (i * D + j) 0) / L) : ℝ) : ℂ) *
      Complex.exp (-(2 * π * Complex.I * k * n / L))‖ ^ 2

theorem spectrum_energy {L : ℕ} (hL : 1 < L) (k o : ℕ) : ∃ K : ℝ, 0 < K ∧ ∀ s : List ℝ,
    spectrum s L o k = K * energy s L (L - o) ((s.length - o) / (L - o)) k / ((s.length - o) / (L - o) : ℕ) := by
  have hLr : (0 : ℝ) < L := by exact_mod_cast (by omega : 0 < L)
  refine ⟨(if k = 0 ∨ 2 * k = L then 1 else 2) / (L : ℝ) ^ 2, by split_ifs <;> positivity, ?_⟩
  intro s
  unfold spectrum energy segments
  congr 1
  rw [Finset.mul_sum]
  apply Finset.sum_congr rfl
  intro i _
  unfold power dft mean
  rw [hann_sum hL, Complex.normSq_eq_norm_sq]
  have : ∀ n ∈ Finset.range L, (((hann L n * (s.getD (i * (L - o) + n) 0 -
      (∑ j ∈ Finset.range L, s.getD (i * (L - o) + j) 0) / L) : ℝ) : ℂ) *
      Complex.exp (-(2 * π * Complex.I * k * n / L))) = (1 / 2 : ℂ) * ((((1 - cos (2 * π * n / L)) *
      (s.getD (i * (L - o) + n) 0 - (∑ j ∈ Finset.range L, s.getD (i * (L - o) + j) 0) / L) : ℝ) : ℂ) *
      Complex.exp (-(2 * π * Complex.I * k * n / L))) := by
    intro n _
    have hh : hann L n = 1 / 2 * (1 - cos (2 * π * n / L)) := by
      unfold hann
      rw [if_neg (by omega)]
      ring
    rw [hh]
    push_cast
    ring
  rw [Finset.sum_congr rfl this, ← Finset.mul_sum, norm_mul, show ‖(1 / 2 : ℂ)‖ = 1 / 2 by norm_num]
  generalize ‖(_ : ℂ)‖ = z
  generalize (if k = 0 ∨ 2 * k = L then (1 : ℝ) else 2) = c
  field_simp

open Classical in
/-- C88. All the values, for any two signals of the same length and segments of at least two samples: square
root of the ratio of the energies of the bins of both signals, none (`nan`, `inf`) where the first is zero.
By default half of a segment is also in the next one. -/
theorem C88_values {x y : List ℝ} (hxy : x.length = y.length) {fs : ℝ} (hfs : 0 < fs) {nfft : ℕ}
    (lim : Option (ℝ × ℝ)) {noverlap : Option ℕ} (ho : ∀ o ∈ noverlap, o < min nfft x.length) {L o m : ℕ}
    (hL : L = min nfft x.length) (hL1 : 2 ≤ L) (ho' : o = noverlap.getD (L / 2))
    (hm : m = (x.length - o) / (L - o)) {f : List ℝ} {t : List (Option ℝ)}
    (h : transferFunction x y fs nfft none lim noverlap = .ok (f, t)) :
    1 ≤ m ∧ ∀ p ∈ f.zip t, ∃ k ≤ L / 2, p.1 = k * fs / L ∧
      p.2 = if energy x L (L - o) m k = 0 then none
        else some (sqrt (energy y L (L - o) m k / energy x L (L - o) m k)) := by
  have hoL : o < L := by
    rw [ho']
    cases noverlap with
    | none => simp only [Option.getD_none]; omega
    | some o => rw [hL]; exact ho o rfl
  have hm1 : 0 < m := hm ▸ segments_pos (by omega) hoL
  have hmr : (0 : ℝ) < m := by exact_mod_cast hm1
  have h' := transfer_eq (x' := x) (y' := y) (fc := none) rfl rfl (List.length_pos_iff.1 (by omega)) hxy hfs
    (by omega) lim ho hL ho' rfl (pair_eq lim fs)
  refine ⟨hm1, ?_⟩
  rw [h] at h'
  split_ifs at h' with hlow
  injection h' with h'
  injection h' with hf ht
  intro p hp
  rw [hf, ht, List.zip_map'] at hp
  simp only [List.map_id', Prod.mk.eta] at hp
  have hp := (List.mem_filter.1 hp).1
  unfold bins at hp
  rw [List.zip_map', List.mem_map] at hp
  obtain ⟨k, hk, rfl⟩ := hp
  refine ⟨k, by have := List.mem_range.1 hk; omega, rfl, ?_⟩
  obtain ⟨K, hK, hs⟩ := spectrum_energy hL1 k o
  simp only
  rw [hs x, hs y, ← hxy, ← hm]
  unfold ratio
  by_cases hz : energy x L (L - o) m k = 0
  · rw [if_pos hz, if_pos (by rw [hz]; simp)]
  · rw [if_neg hz, if_neg (by positivity)]
    congr 2
    field_simp

/-- C88. Constants added to the signals change nothing: each segment is taken without its mean. -/
theorem C88_offset {x y : List ℝ} (hx : x ≠ []) (hxy : x.length = y.length) {fs : ℝ} (hfs : 0 < fs)
    {nfft : ℕ} (hn : 0 < nfft) (lim : Option (ℝ × ℝ)) {noverlap : Option ℕ}
    (ho : ∀ o ∈ noverlap, o < min nfft x.length) (a b : ℝ) :
    transferFunction (x.map (· + a)) (y.map (· + b)) fs nfft none lim noverlap =
      transferFunction x y fs nfft none lim noverlap := by
  have hlen : 0 < x.length := List.length_pos_iff.2 hx
  have key : ∀ (s : List ℝ) (c : ℝ) (L o k : ℕ), 0 < L → L ≤ s.length → o < L →
      spectrum (s.map (· + c)) L o k = spectrum s L o k := by
    intro s c L o k h0 hL hoL
    unfold spectrum
    rw [List.length_map]
    congr 1
    apply Finset.sum_congr rfl
    intro i hi
    have hi := Finset.mem_range.1 hi
    have hend : i * (L - o) + L ≤ s.length := by
      have h1 : (i + 1) * (L - o) ≤ s.length - o := by
        calc (i + 1) * (L - o) ≤ segments s.length L o * (L - o) := Nat.mul_le_mul_right _ hi
          _ ≤ s.length - o := Nat.div_mul_le_self _ _
      rw [add_mul, one_mul] at h1
      omega
    rw [power_congr (y := fun n => s.getD (i * (L - o) + n) 0 + c)]
    · unfold power dft
      have hLr : (L : ℝ) ≠ 0 := by exact_mod_cast h0.ne'
      have hm : mean L (fun n => s.getD (i * (L - o) + n) 0 + c) =
          mean L (fun n => s.getD (i * (L - o) + n) 0) + c := by
        unfold mean
        rw [Finset.sum_add_distrib, Finset.sum_const, Finset.card_range, nsmul_eq_mul]
        field_simp
      rw [hm]
      simp only [add_sub_add_right_eq_sub]
    · intro n hn
      rw [List.getD_eq_getElem _ _ (by simp; omega), List.getD_eq_getElem _ _ (by omega), List.getElem_map]
  have hoL : noverlap.getD (min nfft x.length / 2) < min nfft x.length := by
    cases noverlap with
    | none => simp only [Option.getD_none]; omega
    | some o => exact ho o rfl
  rw [transfer_eq (x := x.map (· + a)) (y := y.map (· + b)) (fc := none) rfl rfl (by simpa using hx)
      (by simpa using hxy) hfs hn lim (by simpa using ho) (L := min nfft x.length) (by simp) rfl rfl
      (pair_eq lim fs),
    transfer_eq (x := x) (y := y) (fc := none) rfl rfl hx hxy hfs hn lim ho rfl rfl rfl (pair_eq lim fs)]
  have e : ∀ k, ratio (spectrum (x.map (· + a)) (min nfft x.length) (noverlap.getD (min nfft x.length / 2)) k)
      (spectrum (y.map (· + b)) (min nfft x.length) (noverlap.getD (min nfft x.length / 2)) k) =
      ratio (spectrum x (min nfft x.length) (noverlap.getD (min nfft x.length / 2)) k)
        (spectrum y (min nfft x.length) (noverlap.getD (min nfft x.length / 2)) k) := by
    intro k
    rw [key _ _ _ _ _ (by omega) (by omega) hoL, key _ _ _ _ _ (by omega) (by omega) hoL]
  simp only [e]

/-- C88. An empty signal is refused. -/
theorem C88_empty (fs : ℝ) (nfft : ℕ) (lim : Option (ℝ × ℝ)) (noverlap : Option ℕ) :
    transferFunction [] [] fs nfft none lim noverlap = .error .index := by
  simp [transferFunction, filtered, welch, limits, bind, Except.bind]

/-- Two samples, one segment: the frequency zero has an energy, so its value is a number. -/
example : energy [1, 0] 2 1 1 0 = 1 ∧ energy [0, 3] 2 1 1 0 = 9 ∧
    ∃ f t, transferFunction [1, 0] [0, 3] 8 = .ok (f, t) ∧ f.length = 2 := by
  refine ⟨by norm_num [energy, Finset.sum_range_succ], by norm_num [energy, Finset.sum_range_succ], ?_⟩
  rcases C88_frequencies (x := [1, 0]) (y := [0, 3]) (by simp) rfl (fs := 8) (by norm_num)
    (nfft := 20000000000) (by norm_num) none (noverlap := none) (by simp) (L := 2) (by simp) (a := 0) (b := 8 / 2)
    rfl with ⟨h, -⟩ | ⟨f, t, h, -, hf⟩
  · have := h 0 (by norm_num)
    norm_num at this
  · norm_num [List.range_succ, List.filter] at hf
    exact ⟨f, t, h, by rw [hf]; rfl⟩

/-- Two periods in 8 samples, through an amplifier of gain 3 which changes the phase: the value at the
fourth of the sampling rate is 3. -/
example : ∃ f t, transferFunction ((List.range 8).map fun i : ℕ => cos (2 * π * (2 : ℕ) * i / (8 : ℕ) + 0))
    ((List.range 8).map fun i : ℕ => 3 * cos (2 * π * (2 : ℕ) * i / (8 : ℕ) + 1)) 1000 = .ok (f, t) ∧
    (250, some 3) ∈ f.zip t := by
  have h := C88_sinusoid (x := (List.range 8).map fun i : ℕ => cos (2 * π * (2 : ℕ) * i / (8 : ℕ) + 0))
    (y := (List.range 8).map fun i : ℕ => 3 * cos (2 * π * (2 : ℕ) * i / (8 : ℕ) + 1)) (by simp)
    (fs := 1000) (by norm_num) (nfft := 20000000000) none (noverlap := none) (by simp) (L := 8) (by simp)
    (k := 2) (by norm_num) (by norm_num) (A := 1) (B := 3) (φ := 0) (ψ := 1) one_ne_zero
    (by intro i hi; rw [List.getD_eq_getElem _ _ hi]; simp)
    (by intro i hi; rw [List.getD_eq_getElem _ _ hi]; simp) (by simp)
  obtain ⟨f, t, hft, hm⟩ := h
  refine ⟨f, t, hft, ?_⟩
  norm_num at hm
  exact hm

/-- Eight samples per second, segments of 8 samples, limits 1 Hz and 3 Hz: bins 1, 2 and 3. -/
example (x y : List ℝ) (hx : x.length = 100) (hy : y.length = 100) :
    ∃ t, transferFunction x y 8 8 none (some (1, 3)) = .ok ([1, 2, 3], t) ∧ t.length = 3 := by
  rcases C88_frequencies (x := x) (y := y) (by rintro rfl; simp at hx) (by omega) (fs := 8) (by norm_num)
    (nfft := 8) (by norm_num) (some (1, 3)) (noverlap := none) (by simp) (L := 8) (by omega) (a := 1) (b := 3)
    rfl with ⟨h, -⟩ | ⟨f, t, h, hlen, hf⟩
  · have := h 4 (by norm_num)
    norm_num at this
  · norm_num [List.range_succ, List.filter] at hf
    subst hf
    exact ⟨t, h, hlen⟩

/-- A signal and its double. -/
example (x : List ℝ) (hx : x.length = 100) : ∃ f t,
    transferFunction x (x.map (2 * ·)) 8 8 (some (1 / 4)) none = .ok (f, t) ∧
      ∀ v ∈ t, v = none ∨ v = some 2 := by
  have hx0 : x ≠ [] := by rintro rfl; simp at hx
  have hfc : ∀ v ∈ (some (1 / 4) : Option ℝ), 0 < v ∧ v < 1 / 2 := by
    intro v hv
    injection hv with hv
    subst hv
    norm_num
  obtain ⟨x', h1, h2, h3⟩ := filtered_scale hx0 2 hfc
  have h := transfer_eq h1 h3 (List.length_pos_iff.1 (by omega)) (by simp) (fs := 8) (by norm_num) (nfft := 8)
    (by norm_num) none (noverlap := none) (by simp) (L := 8) (by omega) rfl rfl (pair_eq none 8)
  rw [if_neg (by norm_num)] at h
  refine ⟨_, _, h, ?_⟩
  intro v hv
  obtain ⟨x'', L, o, -, -, -, hall⟩ := C88_proportional hx0 2 (by norm_num) (by norm_num) hfc none (by simp) h
  obtain ⟨p, hp, rfl⟩ := List.mem_map.1 hv
  obtain ⟨k, -, -, hk⟩ := hall p (by
    rw [List.zip_map']
    simpa using hp)
  rw [hk]
  split_ifs
  · exact Or.inl rfl
  · right; norm_num

end Transfer
end Signals
end Pyphs
