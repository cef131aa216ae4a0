/-
C56: round trip through WAV files.
-/
import Verif.Signals.Props

namespace Pyphs
namespace Signals

variable {K : Type} [Field K] [LinearOrder K] [IsStrictOrderedRing K] [FloorRing K]

theorem maxVol_eq : (maxVol : K) = 32767 := by unfold maxVol; norm_num

theorem unpack_pack {d : ℤ} {b : ℕ × ℕ} (h : pack d = .ok b) :
    unpack b = d ∧ b.1 < 256 ∧ b.2 < 256 := by
  unfold pack at h
  split_ifs at h with hd
  obtain rfl := Except.ok.inj h
  unfold unpack
  dsimp only
  refine ⟨?_, by omega, by omega⟩
  split_ifs <;> omega

theorem pack_ok {d : ℤ} : (∃ b, pack d = .ok b) ↔ -32768 ≤ d ∧ d ≤ 32767 := by
  unfold pack
  split_ifs with h
  · simp [h]
  · simp only [reduceCtorEq, exists_false, false_iff]; exact h

/-! ### Fades -/

theorem fade_none (sig : List K) (fs : K) : fade sig fs 0 = sig := by
  have h : pint ((0 : K) * fs) = 0 := by rw [zero_mul]; simp [pint]
  unfold fade
  rw [h, if_pos (by omega)]
  unfold fades
  simp only [Int.toNat_zero, List.range_zero, List.map_nil, List.nil_append, mul_zero, sub_zero,
    Int.toNat_natCast, List.append_nil]
  apply List.ext_getElem
  · simp
  · intro i h1 h2
    simp

theorem fades_length {n : ℕ} {nf : ℤ} (h : 2 * nf ≤ n) : n ≤ (fades (K := K) n nf).length := by
  unfold fades
  simp only [List.length_append, List.length_map, List.length_range, List.length_replicate]
  omega

theorem fades_mem {n : ℕ} {nf : ℤ} {a : K} (h : a ∈ fades (K := K) n nf) : 0 ≤ a ∧ a ≤ 1 := by
  unfold fades at h
  simp only [List.mem_append, List.mem_map, List.mem_range, List.mem_replicate] at h
  rcases h with (⟨i, hi, rfl⟩ | ⟨-, rfl⟩) | ⟨i, hi, rfl⟩
  · have h1 : (0 : K) ≤ (nf : K) := by exact_mod_cast (by omega : 0 ≤ nf)
    have h2 : ((i : ℤ) : K) ≤ (nf : K) := Int.cast_le.2 (by omega)
    rw [Int.cast_natCast] at h2
    exact ⟨div_nonneg (Nat.cast_nonneg _) h1, div_le_one_of_le₀ h2 h1⟩
  · exact ⟨zero_le_one, le_rfl⟩
  · have h1 : (0 : K) ≤ (nf : K) := by exact_mod_cast (by omega : 0 ≤ nf)
    have h2 : ((nf - 1 - i : ℤ) : K) ≤ (nf : K) := by exact_mod_cast (by omega : nf - 1 - i ≤ nf)
    have h3 : (0 : K) ≤ ((nf - 1 - i : ℤ) : K) := by exact_mod_cast (by omega : 0 ≤ nf - 1 - (i : ℤ))
    exact ⟨div_nonneg h3 h1, div_le_one_of_le₀ h2 h1⟩

/-- Fades keep the length and never increase a sample. -/
theorem fade_spec (sig : List K) (fs t : K) : (fade sig fs t).length = sig.length ∧
    ∀ i (h1 : i < (fade sig fs t).length) (h2 : i < sig.length),
      |(fade sig fs t)[i]| ≤ |sig[i]| := by
  unfold fade
  split_ifs with h
  · have hl := fades_length (K := K) h
    refine ⟨by simp [hl], ?_⟩
    intro i h1 h2
    rw [List.getElem_zipWith]
    obtain ⟨a, b⟩ := fades_mem (List.getElem_mem (show i < (fades (K := K) sig.length
      (pint (t * fs))).length from lt_of_lt_of_le h2 hl))
    rw [abs_mul, abs_of_nonneg a]
    exact mul_le_of_le_one_right (abs_nonneg _) b
  · exact ⟨rfl, fun i h1 h2 => le_rfl⟩

/-- **C56** (fades): with a fade that fits, the first and the last sample are silent. -/
theorem C56_fade_silent {sig : List K} {fs t : K} (h1 : 1 ≤ pint (t * fs))
    (h2 : 2 * pint (t * fs) ≤ sig.length) : (fade sig fs t).head? = some 0 ∧
      (fade sig fs t).getLast? = some 0 := by
  obtain ⟨hl, -⟩ := fade_spec sig fs t
  have hlen : (fades (K := K) sig.length (pint (t * fs))).length = sig.length := by
    unfold fades
    simp only [List.length_append, List.length_map, List.length_range, List.length_replicate]
    omega
  have hg : ∀ (i : ℕ) (a b : K), sig[i]? = some a → (fades (K := K) sig.length (pint (t * fs)))[i]? = some b →
      (fade sig fs t)[i]? = some (a * b) := by
    intro i a b ha hb
    unfold fade
    rw [if_pos h2, List.getElem?_zipWith, ha, hb]
  constructor
  · rw [List.head?_eq_getElem?]
    have hs : sig[0]? = some (sig[0]'(by omega)) := List.getElem?_eq_getElem _
    have hf : (fades (K := K) sig.length (pint (t * fs)))[0]? = some 0 := by
      unfold fades
      rw [List.append_assoc, List.getElem?_append_left (by simp; omega)]
      rw [List.getElem?_map, List.getElem?_range (by omega)]
      simp
    rw [hg _ _ _ hs hf, mul_zero]
  · rw [List.getLast?_eq_getElem?, hl]
    have hs : sig[sig.length - 1]? = some (sig[sig.length - 1]'(by omega)) := List.getElem?_eq_getElem _
    have hf : (fades (K := K) sig.length (pint (t * fs)))[sig.length - 1]? = some 0 := by
      unfold fades
      rw [List.getElem?_append_right (by simp; omega)]
      simp only [List.length_append, List.length_map, List.length_range, List.length_replicate]
      have e : sig.length - 1 - ((pint (t * fs)).toNat + ((sig.length : ℤ) - 2 * pint (t * fs)).toNat) =
          (pint (t * fs)).toNat - 1 := by omega
      rw [e, List.getElem?_map, List.getElem?_range (by omega)]
      have e2 : pint (t * fs) - 1 - (((pint (t * fs)).toNat - 1 : ℕ) : ℤ) = 0 := by omega
      simp only [Option.map_some]
      rw [e2]
      simp
    rw [hg _ _ _ hs hf, mul_zero]

/-! ### Round trip -/

theorem mapM_frame {f : K → Except WErr (ℕ × ℕ)} : ∀ {l : List K},
    (∀ v ∈ l, ∃ b, f v = .ok b) → ∃ bs, l.mapM f = .ok bs ∧ List.Forall₂ (fun v b => f v = .ok b) l bs := by
  intro l
  induction l with
  | nil => intro _; exact ⟨[], rfl, .nil⟩
  | cons v l ih =>
    intro h
    obtain ⟨b, hb⟩ := h v (by simp)
    obtain ⟨bs, h1, h2⟩ := ih fun v hv => h v (by simp [hv])
    refine ⟨b :: bs, ?_, .cons hb h2⟩
    rw [List.mapM_cons, hb, h1]
    rfl

/-- A sample whose ratio to the scale is at most one is written, and read with an error of less than a
quantisation step, towards zero. -/
theorem frame_spec {scale v : K} (hs : 0 < scale) (hv : |v| ≤ scale) :
    ∃ b, frame scale v = .ok b ∧ |scale * (((unpack b : ℤ) : K) / maxVol) - v| < scale / maxVol ∧
      |scale * (((unpack b : ℤ) : K) / maxVol)| ≤ |v| := by
  set q : K := maxVol * v / scale with hq
  have h0 : (0 : K) < maxVol := by rw [maxVol_eq]; norm_num
  have hqa : |q| ≤ maxVol := by
    rw [hq, abs_div, abs_mul, abs_of_pos h0, abs_of_pos hs, div_le_iff₀ hs]
    exact mul_le_mul_of_nonneg_left hv h0.le
  have hpa := (pint_abs q).trans hqa
  rw [maxVol_eq] at hpa
  obtain ⟨p1, p2⟩ := abs_le.1 hpa
  have p1' : -32767 ≤ pint q := by exact_mod_cast p1
  have p2' : pint q ≤ 32767 := by exact_mod_cast p2
  obtain ⟨b, hb⟩ := pack_ok.2 ⟨by omega, p2'⟩
  refine ⟨b, ?_, ?_⟩
  · unfold frame
    rw [if_neg hs.ne']; exact hb
  · rw [(unpack_pack hb).1]
    have hv' : v = scale * (q / maxVol) := by
      rw [hq]; field_simp
    have hk : (0 : K) < scale / maxVol := div_pos hs h0
    have e : ∀ x : K, scale * (x / maxVol) = scale / maxVol * x := by intro x; ring
    have l1 := lt_pint (q := q)
    have l2 := pint_lt (q := q)
    constructor
    · rw [hv', e, e, ← mul_sub, abs_mul, abs_of_pos hk]
      apply mul_lt_of_lt_one_right hk
      rw [abs_lt]
      constructor <;> linarith
    · rw [hv', e, e, abs_mul, abs_mul, abs_of_pos hk]
      exact mul_le_mul_of_nonneg_left (pint_abs q) hk.le

theorem wav_main {sig : List K} {scale : K} (hs : 0 < scale) (hv : ∀ v ∈ sig, |v| ≤ scale) :
    ∃ bs, sig.mapM (frame scale) = .ok bs ∧ List.Forall₂ (fun v w => |scale * w - v| < scale / maxVol ∧
      |scale * w| ≤ |v|) sig (wavread bs) := by
  obtain ⟨bs, h1, h2⟩ := mapM_frame (f := frame scale) (l := sig) fun v h =>
    ⟨_, (frame_spec hs (hv v h)).choose_spec.1⟩
  refine ⟨bs, h1, ?_⟩
  unfold wavread
  rw [List.forall₂_map_right_iff]
  clear h1
  induction h2 with
  | nil => exact .nil
  | cons hb _ ih =>
    rename_i v b l bs _
    refine .cons ?_ (ih fun v h => hv v (by simp [h]))
    obtain ⟨b', e, r⟩ := frame_spec hs (hv v (by simp))
    rw [hb] at e
    obtain rfl := Except.ok.inj e
    exact r

/-- **C56**: a signal in [-1, 1] is written without error, and the samples that are read differ from it by
less than one quantisation step, and are not larger. -/
theorem C56_round_trip {sig : List K} {fs : K} (h : ∀ v ∈ sig, |v| ≤ 1) :
    ∃ bs, wavwrite sig fs .none 0 = .ok bs ∧
      List.Forall₂ (fun v w => |w - v| < 1 / 32767 ∧ |w| ≤ |v|) sig (wavread bs) := by
  obtain ⟨bs, h1, h2⟩ := wav_main (scale := 1) one_pos h
  refine ⟨bs, ?_, ?_⟩
  · unfold wavwrite
    rw [fade_none]
    exact h1
  · refine h2.imp fun v w hw => ?_
    rw [one_mul, maxVol_eq] at hw
    exact hw

theorem le_maxAbs {sig : List K} : ∀ v ∈ sig, |v| ≤ maxAbs sig := by
  induction sig with
  | nil => intro v h; simp at h
  | cons a l ih =>
    intro v h
    show |v| ≤ max |a| (maxAbs l)
    rcases List.mem_cons.1 h with rfl | h
    · exact le_max_left _ _
    · exact (ih v h).trans (le_max_right _ _)

/-- **C56** (normalization): with `normalize=True`, any signal that is not empty is written, and is read up
to the scale with the precision of the scale. -/
theorem C56_normalize {sig : List K} {fs : K} (hne : sig ≠ []) :
    ∃ bs scale, wavwrite sig fs .yes 0 = .ok bs ∧ 0 < scale ∧
      (scale = maxAbs sig ∨ ∀ v ∈ sig, v = 0) ∧
      List.Forall₂ (fun v w => |scale * w - v| < scale / 32767) sig (wavread bs) := by
  set scale : K := if maxAbs sig = 0 then 1 else maxAbs sig with hsc
  have hnn : 0 ≤ maxAbs sig := by
    obtain ⟨v, hv⟩ := List.exists_mem_of_ne_nil sig hne
    exact (abs_nonneg v).trans (le_maxAbs v hv)
  have hs : 0 < scale := by
    rw [hsc]
    split_ifs with h0
    · exact one_pos
    · exact lt_of_le_of_ne hnn (Ne.symm h0)
  have hv : ∀ v ∈ sig, |v| ≤ scale := by
    intro v h
    refine (le_maxAbs v h).trans ?_
    rw [hsc]
    split_ifs with h0
    · rw [h0]; exact zero_le_one
    · exact le_rfl
  obtain ⟨bs, h1, h2⟩ := wav_main hs hv
  refine ⟨bs, scale, ?_, hs, ?_, ?_⟩
  · unfold wavwrite
    rw [fade_none]
    unfold Norm.value
    dsimp only
    rw [if_neg hne, ← hsc]
    exact h1
  · rw [hsc]
    split_ifs with h0
    · right
      intro v h
      have := le_maxAbs v h
      rw [h0] at this
      exact abs_eq_zero.1 (le_antisymm this (abs_nonneg v))
    · left; rfl
  · refine h2.imp fun v w hw => ?_
    rw [maxVol_eq] at hw
    exact hw.1

/-- **C56** (out of range): a sample at or above `32768/32767`, or at or below `-32769/32767`, raises; the
whole signal is lost. -/
theorem C56_out_of_range {sig : List K} {fs v : K} (hv : v ∈ sig)
    (h : 32768 ≤ 32767 * v ∨ 32767 * v ≤ -32769) : ¬ ∃ bs, wavwrite sig fs .none 0 = .ok bs := by
  rintro ⟨bs, hb⟩
  unfold wavwrite at hb
  rw [fade_none] at hb
  change sig.mapM (frame 1) = .ok bs at hb
  have key : ∀ {l : List K} {bs : List (ℕ × ℕ)}, l.mapM (frame 1) = .ok bs → ∀ v ∈ l,
      ∃ b, frame (1 : K) v = .ok b := by
    intro l
    induction l with
    | nil => intro bs _ v h; simp at h
    | cons a l ih =>
      intro bs he v h
      rw [List.mapM_cons] at he
      cases ha : frame (1 : K) a with
      | error e => rw [ha] at he; cases he
      | ok b =>
        rw [ha] at he
        cases hl : l.mapM (frame (1 : K)) with
        | error e =>
          have he' : (l.mapM (frame (1 : K))).bind (fun r => Except.ok (b :: r)) = .ok bs := he
          rw [hl] at he'; cases he'
        | ok bs' =>
          rcases List.mem_cons.1 h with rfl | h
          · exact ⟨b, ha⟩
          · exact ih hl v h
  obtain ⟨b, hb⟩ := key hb v hv
  unfold frame at hb
  rw [if_neg one_ne_zero, div_one, maxVol_eq] at hb
  obtain ⟨h1, h2⟩ := pack_ok.1 ⟨b, hb⟩
  have h1' : ((-32768 : ℤ) : K) ≤ ((pint (32767 * v) : ℤ) : K) := by exact_mod_cast h1
  have h2' : ((pint (32767 * v) : ℤ) : K) ≤ ((32767 : ℤ) : K) := by exact_mod_cast h2
  push_cast at h1' h2'
  rcases h with h | h
  · have : 32768 ≤ pint (32767 * v) := by
      unfold pint
      rw [if_pos (by linarith)]
      exact Int.le_floor.2 (by exact_mod_cast h)
    omega
  · have : pint (32767 * v) ≤ -32769 := by
      unfold pint
      rw [if_neg (by linarith)]
      exact Int.ceil_le.2 (by exact_mod_cast h)
    omega

/-- **C56** (second round trip): what has been read is written again without any change. -/
theorem C56_stable {bs : List (ℕ × ℕ)} {fs : K}
    (h : ∀ b ∈ bs, b.1 < 256 ∧ b.2 < 256) :
    wavwrite (wavread (K := K) bs) fs .none 0 = .ok bs := by
  unfold wavwrite
  rw [fade_none]
  show (wavread bs).mapM (frame (1 : K)) = .ok bs
  unfold wavread
  induction bs with
  | nil => rfl
  | cons b bs ih =>
    have hb : frame (1 : K) (((unpack b : ℤ) : K) / maxVol) = .ok b := by
      have h0 : (maxVol : K) ≠ 0 := by rw [maxVol_eq]; norm_num
      unfold frame
      rw [if_neg one_ne_zero, div_one, mul_div_cancel₀ _ h0, pint_int]
      obtain ⟨h1, h2⟩ := h b (by simp)
      obtain ⟨b1, b2⟩ := b
      dsimp only at h1 h2
      unfold unpack
      dsimp only
      unfold pack
      split_ifs with c1 c2 c2
      · congr 2 <;> omega
      · omega
      · congr 2 <;> omega
      · omega
    rw [List.map_cons, List.mapM_cons, hb, ih fun b h' => h b (by simp [h'])]
    rfl

example : wavwrite (K := ℚ) [0, 1 / 2, -1, 1 / 3] 44100 .none 0 =
      .ok [(0, 0), (255, 63), (1, 128), (170, 42)] ∧
    wavread (K := ℚ) [(0, 0), (255, 63), (1, 128), (170, 42)] =
      [0, 16383 / 32767, -1, 10922 / 32767] ∧
    wavwrite (K := ℚ) [2] 44100 .none 0 = .error .pack := by
  decide +kernel

end Signals
end Pyphs
