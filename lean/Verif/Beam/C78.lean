/-
C78: the wave numbers and the length of a beam.
-/
import Verif.Beam.Roots

namespace Pyphs
namespace Beam
open Real

/-- Positions of the increments of a counter that grows by 0 or 1. -/
theorem steps (c : ℕ → ℕ) (h0 : c 0 = 0) : ∀ m, (∀ j < m, c (j + 1) = c j ∨ c (j + 1) = c j + 1) →
    ((List.range m).filter fun j => c (j + 1) ≠ c j).length = c m ∧
    ∀ i j, ((List.range m).filter fun j => c (j + 1) ≠ c j)[i]? = some j →
      c j = i ∧ c (j + 1) = i + 1 ∧ j < m := by
  intro m
  induction m with
  | zero => intro _; simp [h0]
  | succ m ih =>
    intro hs
    obtain ⟨l, g⟩ := ih fun j hj => hs j (by omega)
    rw [List.range_succ, List.filter_append]
    rcases hs m (by omega) with h | h
    · have hf : ([m].filter fun j => c (j + 1) ≠ c j) = [] := by simp [h]
      rw [hf, List.append_nil]
      refine ⟨by rw [l, h], fun i j hj => ?_⟩
      obtain ⟨a, b, d⟩ := g i j hj
      exact ⟨a, b, by omega⟩
    · have hf : ([m].filter fun j => c (j + 1) ≠ c j) = [m] := by simp [h]
      rw [hf]
      refine ⟨by rw [List.length_append, l, h]; rfl, fun i j hj => ?_⟩
      rcases Nat.lt_or_ge i (c m) with hi | hi
      · rw [List.getElem?_append_left (by omega)] at hj
        obtain ⟨a, b, d⟩ := g i j hj
        exact ⟨a, b, by omega⟩
      · rw [List.getElem?_append_right (by omega), l] at hj
        obtain ⟨hi', hj'⟩ := List.getElem?_eq_some_iff.1 hj
        have : i - c m = 0 := by simpa using hi'
        have e : i = c m := by omega
        have ej : m = j := by simpa [this] using hj'
        subst ej
        exact ⟨e.symm, by omega, by omega⟩

theorem sign_of {c : ℕ} {v : ℝ} (h : 0 < (-1) ^ c * v) : Real.sign v = (-1) ^ c := by
  rcases Nat.even_or_odd c with e | e
  · rw [e.neg_one_pow] at h ⊢
    exact Real.sign_of_pos (by linarith)
  · rw [e.neg_one_pow] at h ⊢
    exact Real.sign_of_neg (by linarith)

/-- What the search of sign changes of `chi` on a grid finds: change number `i` is the step of the
grid that contains root number `i`. -/
theorem scan {h : ℝ} (hh : 0 < h) (hsep : h ≤ 2 * π / 3) {num : ℕ}
    (hno : ∀ j < num, chi (j * h) ≠ 0) (hnum : 0 < num) :
    (∀ i j : ℕ, (signChanges num fun j => chi (j * h))[i]? = some j →
      j * h < root i ∧ root i < (j + 1) * h ∧ j + 1 < num) ∧
    ∀ i, i < (signChanges num fun j => chi (j * h)).length ↔ root i < ((num : ℝ) - 1) * h := by
  have hc : ∀ j, ∃ c : ℕ, j < num → (∀ i, root i < j * h ↔ i < c) ∧ 0 < (-1) ^ c * chi (j * h) := by
    intro j
    by_cases hj : j < num
    · obtain ⟨c, h1⟩ := count_roots (x := j * h) (by positivity) (hno j hj)
      exact ⟨c, fun _ => h1⟩
    · exact ⟨0, fun h => absurd h hj⟩
  choose c hc using hc
  have c0 : c 0 = 0 := by
    by_contra h1
    have := ((hc 0 hnum).1 0).2 (Nat.pos_of_ne_zero h1)
    have := root_pos 0
    simp at *
    linarith
  have hstep : ∀ j < num - 1, c (j + 1) = c j ∨ c (j + 1) = c j + 1 := by
    intro j hj
    have a := (hc j (by omega)).1
    have b := (hc (j + 1) (by omega)).1
    have e : ((j + 1 : ℕ) : ℝ) * h = j * h + h := by push_cast; ring
    rw [e] at b
    have low : c j ≤ c (j + 1) := by
      by_contra hlt
      have h1 := (a (c (j + 1))).2 (by omega)
      have h2 := (b (c (j + 1))).1 (by linarith)
      omega
    have up : c (j + 1) ≤ c j + 1 := by
      by_contra hlt
      have h1 := (b (c j + 1)).2 (by omega)
      have h2 := root_sep (c j)
      have h3 : ¬ root (c j) < j * h := fun hh => by have := (a (c j)).1 hh; omega
      linarith
    omega
  have hfil : (signChanges num fun j => chi (j * h))
      = (List.range (num - 1)).filter fun j => c (j + 1) ≠ c j := by
    unfold signChanges
    refine List.filter_congr fun j hj => ?_
    have hj := List.mem_range.1 hj
    have a := sign_of (hc j (by omega)).2
    have b := sign_of (hc (j + 1) (by omega)).2
    rw [decide_eq_decide, a, b]
    rcases hstep j hj with e | e
    · simp [e]
    · rw [e, pow_succ]
      rcases neg_one_pow_eq_or ℝ (c j) with h1 | h1 <;> rw [h1] <;> norm_num
  obtain ⟨hl, hg⟩ := steps c c0 (num - 1) hstep
  rw [hfil]
  constructor
  · intro i j hij
    obtain ⟨g1, g2, g3⟩ := hg i j hij
    have a := (hc j (by omega)).1 i
    have b := (hc (j + 1) (by omega)).1 i
    have e : ((j + 1 : ℕ) : ℝ) = j + 1 := by push_cast; ring
    rw [e] at b
    refine ⟨?_, b.2 (by omega), by omega⟩
    have h1 : ¬ root i < j * h := fun hh => by have := a.1 hh; omega
    refine lt_of_le_of_ne (not_lt.1 h1) fun e => hno j (by omega) (by rw [e]; exact root_zero i)
  · intro i
    rw [hl]
    have b := (hc (num - 1) (by omega)).1 i
    have e : ((num - 1 : ℕ) : ℝ) = num - 1 := by rw [Nat.cast_sub hnum]; norm_num
    rw [e] at b
    exact b.symm

theorem signChanges_append {n m : ℕ} (h : n ≤ m) (v : ℕ → ℝ) :
    ∃ t, signChanges m v = signChanges n v ++ t := by
  obtain ⟨d, hd⟩ : ∃ d, m - 1 = n - 1 + d := ⟨m - 1 - (n - 1), by omega⟩
  unfold signChanges
  rw [hd, List.range_add, List.filter_append]
  exact ⟨_, rfl⟩

/-- The search when only the first `n` roots are known not to be points of the grid. -/
theorem scan_first {h : ℝ} (hh : 0 < h) (hsep : h ≤ 2 * π / 3) {num n : ℕ}
    (hno : ∀ i < n, ∀ j < num, (j : ℝ) * h ≠ root i) (hnum : 0 < num) :
    (∀ i < n, ∀ j : ℕ, (signChanges num fun j => chi (j * h))[i]? = some j →
      j * h < root i ∧ root i < (j + 1) * h) ∧
    ∀ i < n, i < (signChanges num fun j => chi (j * h)).length ↔ root i < ((num : ℝ) - 1) * h := by
  rcases Nat.eq_zero_or_pos n with rfl | hn
  · exact ⟨fun i hi => absurd hi (by omega), fun i hi => absurd hi (by omega)⟩
  obtain ⟨m, rfl⟩ : ∃ m, n = m + 1 := ⟨n - 1, by omega⟩
  have hfl : (⌊root m / h⌋₊ : ℝ) * h ≤ root m := by
    have := Nat.floor_le (div_nonneg (root_pos m).le hh.le)
    rwa [le_div_iff₀ hh] at this
  have hfl' : root m < (⌊root m / h⌋₊ + 1) * h := by
    have := Nat.lt_floor_add_one (root m / h)
    rwa [div_lt_iff₀ hh] at this
  generalize ⌊root m / h⌋₊ = f at hfl hfl'
  have hno' : ∀ k ≤ num, k ≤ f + 2 → ∀ j < k, chi (j * h) ≠ 0 := by
    intro k hk1 hk2 j hj h0
    obtain ⟨i, hi⟩ := (C78_roots (show (0 : ℝ) ≤ j * h by positivity)).1 h0
    refine hno i ?_ j (by omega) hi
    by_contra hlt
    have h1 : root (m + 1) ≤ root i := root_mono.monotone (by omega)
    have h2 := root_sep m
    have h3 : (j : ℝ) ≤ f + 1 := by exact_mod_cast (by omega : j ≤ f + 1)
    have h4 : (j : ℝ) * h ≤ (f + 1) * h := mul_le_mul_of_nonneg_right h3 hh.le
    linarith
  rcases Nat.lt_or_ge num (f + 2) with hlt | hge
  · obtain ⟨s1, s2⟩ := scan hh hsep (hno' num le_rfl hlt.le) hnum
    exact ⟨fun i _ j hj => ⟨(s1 i j hj).1, (s1 i j hj).2.1⟩, fun i _ => s2 i⟩
  · obtain ⟨s1, s2⟩ := scan hh hsep (hno' (f + 2) hge le_rfl) (by omega)
    obtain ⟨t, ht⟩ := signChanges_append hge fun j => chi (j * h)
    rw [ht]
    have hle : ∀ i < m + 1, root i ≤ root m := fun i hi => root_mono.monotone (by omega)
    have hlen : ∀ i < m + 1, i < (signChanges (f + 2) fun j => chi (j * h)).length := by
      intro i hi
      refine (s2 i).2 ?_
      push_cast
      linarith [hle i hi]
    have hge' : ((f : ℝ) + 1) * h ≤ ((num : ℝ) - 1) * h := by
      have : (f : ℝ) + 2 ≤ num := by exact_mod_cast hge
      exact mul_le_mul_of_nonneg_right (by linarith) hh.le
    refine ⟨fun i hi j hj => ?_, fun i hi => ⟨fun _ => by linarith [hle i hi], fun _ => ?_⟩⟩
    · rw [List.getElem?_append_left (hlen i hi)] at hj
      exact ⟨(s1 i j hj).1, (s1 i j hj).2.1⟩
    · rw [List.length_append]
      have := hlen i hi
      omega

/-- C78. `waveNumbers` returns the first `N` wave numbers of the beam in increasing order, none missed,
each less than one step of the grid below the exact one. -/
theorem C78_waves {N : ℕ} (hN : 0 < N) {L : ℝ} (hL : 0 < L)
    (hno : ∀ i < N, ∀ j < N * 1000000,
      (j : ℝ) * (N * 2 * π / (((N * 1000000 : ℕ) : ℝ) - 1)) ≠ root i) :
    (waveNumbers N L).length = N ∧
    ∀ i k, (waveNumbers N L)[i]? = some k →
      k < root i / L ∧ root i / L < k + N * 2 * π / L / (((N * 1000000 : ℕ) : ℝ) - 1) := by
  have hp := pi_pos
  have hN' : (1 : ℝ) ≤ N := by exact_mod_cast hN
  have hcast : ((N * 1000000 : ℕ) : ℝ) = N * 1000000 := by push_cast; ring
  set M := N * 1000000 with hM
  have hM1 : (0 : ℝ) < (M : ℝ) - 1 := by rw [hcast]; linarith
  set h := N * 2 * π / ((M : ℝ) - 1) with hh
  have hpos : 0 < h := by positivity
  have hsep : h ≤ 2 * π / 3 := by
    rw [hh, div_le_div_iff₀ hM1 (by norm_num), hcast]
    nlinarith
  have hgrid : ∀ j : ℕ, gridPoint (N * 2 * π / L) M j = j * h / L := by
    intro j
    unfold gridPoint
    rw [hh]
    field_simp
  have hv : (fun j : ℕ => chi (gridPoint (N * 2 * π / L) M j * L)) = fun j : ℕ => chi (j * h) := by
    funext j
    rw [hgrid, div_mul_cancel₀ _ hL.ne']
  obtain ⟨s1, s2⟩ := scan_first hpos hsep hno (by omega)
  have hw : waveNumbers N L = ((signChanges M fun j => chi (j * h)).map fun j : ℕ => j * h / L).take N := by
    unfold waveNumbers
    simp only [← hM, hv]
    congr 2
    funext j
    exact hgrid j
  rw [hw]
  constructor
  · rw [List.length_take, List.length_map]
    refine Nat.min_eq_left ?_
    have := (s2 (N - 1) (by omega)).2 (by
      have h1 := root_lt (N - 1)
      have e : ((N - 1 : ℕ) : ℝ) = N - 1 := by rw [Nat.cast_sub hN]; norm_num
      rw [e] at h1
      rw [hh, mul_div_cancel₀ _ hM1.ne']
      nlinarith)
    omega
  · intro i k hk
    have hi : i < N := by
      by_contra hn
      rw [List.getElem?_eq_none (by rw [List.length_take]; omega)] at hk
      exact absurd hk (by simp)
    rw [List.getElem?_take, if_pos hi, List.getElem?_map, Option.map_eq_some_iff] at hk
    obtain ⟨j, hj, rfl⟩ := hk
    obtain ⟨a, b⟩ := s1 i hi j hj
    have e : N * 2 * π / L / ((M : ℝ) - 1) = h / L := by rw [hh]; field_simp
    rw [e, ← add_div]
    exact ⟨div_lt_div_of_pos_right a hL, div_lt_div_of_pos_right (by linarith) hL⟩

/-- C78. The frequency of a wave number is that of the equation of the beam: `(2π f)² Mb = Kb k⁴`. -/
theorem C78_frequency {Kb Mb k : ℝ} (hK : 0 < Kb) (hM : 0 < Mb) :
    0 ≤ frequency Kb Mb k ∧ (2 * π * frequency Kb Mb k) ^ 2 * Mb = Kb * k ^ 4 := by
  unfold frequency
  have hp := pi_pos
  have h1 : 0 ≤ k ^ 4 * Kb / Mb := by positivity
  refine ⟨by positivity, ?_⟩
  rw [mul_div_cancel₀ _ (by positivity), sq_sqrt h1]
  field_simp

/-- C78. `beamLength` returns the length, rounded down to its grid, of the beam with the requested
fundamental frequency; it fails when this length is 10 metres or more. -/
theorem C78_length {f0 Kb Mb : ℝ} (hf : 0 < f0) (hK : 0 < Kb) (hM : 0 < Mb)
    (hk : firstWave f0 Kb Mb ≤ 1000000)
    (hno : ∀ j < 10000000, ((j : ℕ) : ℝ) * (firstWave f0 Kb Mb * (10 / 9999999)) ≠ root 0) :
    ∃ Ls, 0 < Ls ∧ frequency Kb Mb (root 0 / Ls) = f0 ∧
      (Ls < 10 → ∃ L, beamLength f0 Kb Mb = some L ∧ L < Ls ∧ Ls < L + 10 / 9999999) ∧
      (10 ≤ Ls → beamLength f0 Kb Mb = none) := by
  have hp := pi_pos
  have hp3 := pi_gt_three
  have hb : 0 < (2 * π * f0) ^ 2 * Mb / Kb := by positivity
  have hk0 : 0 < firstWave f0 Kb Mb := rpow_pos_of_pos hb _
  have hk4 : firstWave f0 Kb Mb ^ 4 = (2 * π * f0) ^ 2 * Mb / Kb := by
    unfold firstWave
    rw [← rpow_natCast, ← rpow_mul hb.le]
    norm_num
  have hbl : beamLength f0 Kb Mb = ((signChanges 10000000 fun j => chi (firstWave f0 Kb Mb *
      gridPoint 10 10000000 j)).head?.map (gridPoint 10 10000000)) := rfl
  rw [hbl]
  generalize firstWave f0 Kb Mb = k0 at *
  have hr := root_pos 0
  have hv : (fun j : ℕ => chi (k0 * gridPoint 10 10000000 j)) = fun j : ℕ => chi (j * (k0 * (10 / 9999999))) := by
    funext j
    have e : k0 * gridPoint 10 10000000 j = j * (k0 * (10 / 9999999)) := by
      simp only [gridPoint, Nat.cast_ofNat]
      ring
    rw [e]
  rw [hv]
  obtain ⟨s1, s2⟩ := scan_first (h := k0 * (10 / 9999999)) (num := 10000000) (n := 1)
    (by positivity) (by linarith) (fun i hi j hj => by rw [Nat.lt_one_iff.1 hi]; exact hno j hj)
    (by norm_num)
  have s2 := s2 0 one_pos
  have hend : (((10000000 : ℕ) : ℝ) - 1) * (k0 * (10 / 9999999)) = 10 * k0 := by push_cast; ring
  rw [hend] at s2
  refine ⟨root 0 / k0, by positivity, ?_, ?_, ?_⟩
  · unfold frequency
    have e : root 0 / (root 0 / k0) = k0 := by field_simp
    rw [e, hk4]
    have e2 : (2 * π * f0) ^ 2 * Mb / Kb * Kb / Mb = (2 * π * f0) ^ 2 := by field_simp
    rw [e2, sqrt_sq (by positivity)]
    field_simp
  · intro hlt
    rw [div_lt_iff₀ hk0] at hlt
    have h1 := s2.2 hlt
    generalize hl : (signChanges 10000000 fun j => chi (j * (k0 * (10 / 9999999)))) = l at *
    cases l with
    | nil => simp at h1
    | cons j t =>
      obtain ⟨a, b⟩ := s1 0 one_pos j rfl
      refine ⟨gridPoint 10 10000000 j, rfl, ?_, ?_⟩
      · unfold gridPoint
        rw [lt_div_iff₀ hk0]
        push_cast
        have e : (j : ℝ) * (10 / (10000000 - 1)) * k0 = j * (k0 * (10 / 9999999)) := by ring
        rw [e]; exact a
      · unfold gridPoint
        rw [div_lt_iff₀ hk0]
        push_cast
        have e : ((j : ℝ) * (10 / (10000000 - 1)) + 10 / 9999999) * k0 = (j + 1) * (k0 * (10 / 9999999)) := by ring
        rw [e]; exact b
  · intro hge
    rw [le_div_iff₀ hk0] at hge
    have h1 : ¬ 0 < (signChanges 10000000 fun j => chi (j * (k0 * (10 / 9999999)))).length :=
      fun h => by linarith [s2.1 h]
    rw [List.length_eq_zero_iff.1 (Nat.eq_zero_of_not_pos h1)]
    rfl

end Beam
end Pyphs
