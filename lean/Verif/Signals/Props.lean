/-
C55: length and content of generated signals.
-/
import Verif.Signals.Model
import Mathlib.Tactic.Linarith
import Mathlib.Tactic.Ring
import Mathlib.Tactic.NormNum

namespace Pyphs
namespace Signals

variable {K : Type} [Field K] [LinearOrder K] [IsStrictOrderedRing K] [FloorRing K]

theorem pint_nonneg {q : K} (h : 0 ≤ q) : 0 ≤ pint q := by
  unfold pint; rw [if_pos h]; exact Int.floor_nonneg.2 h

theorem pint_le {q : K} (h : 0 ≤ q) : (pint q : K) ≤ q := by
  unfold pint; rw [if_pos h]; exact Int.floor_le q

theorem lt_pint {q : K} : q - 1 < (pint q : K) := by
  unfold pint
  split_ifs with h
  · exact Int.sub_one_lt_floor q
  · have := Int.le_ceil q
    linarith

theorem pint_neg (q : K) : pint (-q) = -pint q := by
  unfold pint
  rcases lt_trichotomy q 0 with h | h | h
  · rw [if_pos (by linarith), if_neg (by linarith), Int.floor_neg]
  · subst h; simp
  · rw [if_neg (by linarith), if_pos (by linarith), Int.ceil_neg]

theorem pint_lt {q : K} : (pint q : K) < q + 1 := by
  have h := lt_pint (q := -q)
  rw [pint_neg] at h
  push_cast at h
  linarith

theorem pint_abs (q : K) : |(pint q : K)| ≤ |q| := by
  rcases le_total 0 q with h | h
  · have h1 : (0 : K) ≤ (pint q : K) := by exact_mod_cast pint_nonneg h
    rw [abs_of_nonneg h, abs_of_nonneg h1]
    exact pint_le h
  · have h1 := pint_le (q := -q) (by linarith)
    have h2 : (0 : K) ≤ (pint (-q) : K) := by exact_mod_cast pint_nonneg (q := -q) (by linarith)
    rw [pint_neg] at h1 h2
    push_cast at h1 h2
    rw [abs_of_nonpos h, abs_of_nonpos (by linarith)]
    exact h1

theorem pint_int (n : ℤ) : pint (n : K) = n := by
  unfold pint; split_ifs <;> simp

/-! ### C55 -/

/-- The durations are nonnegative and the cycle ratio is between 0 and 1. -/
structure Par.OK (p : Par K) : Prop where
  kind : p.which ∈ names
  tsig : 0 ≤ p.tsig
  tdeb : 0 ≤ p.tdeb
  tend : 0 ≤ p.tend
  fs : 0 ≤ p.fs
  ratio0 : 0 ≤ p.cycleRatio
  ratio1 : p.cycleRatio ≤ 1
  /-- the slope of the ramp is not infinite -/
  ramp : p.rampOn = true → p.ncycles * p.nsig ≠ 1

namespace Par
variable {p : Par K}

theorem OK.nsig (h : p.OK) : 0 ≤ p.nsig := pint_nonneg (mul_nonneg h.tsig h.fs)
theorem OK.ndeb (h : p.OK) : 0 ≤ p.ndeb := pint_nonneg (mul_nonneg h.tdeb h.fs)
theorem OK.nend (h : p.OK) : 0 ≤ p.nend := pint_nonneg (mul_nonneg h.tend h.fs)

theorem OK.nsigK (h : p.OK) : (0 : K) ≤ (p.nsig : K) := by exact_mod_cast h.nsig

theorem OK.non (h : p.OK) : 0 ≤ p.non := pint_nonneg (mul_nonneg h.nsigK h.ratio0)

theorem OK.noff (h : p.OK) : 0 ≤ p.noff := by
  have h1 : (p.non : K) ≤ p.nsig * p.cycleRatio := pint_le (mul_nonneg h.nsigK h.ratio0)
  have h2 : (p.nsig : K) * p.cycleRatio ≤ p.nsig := mul_le_of_le_one_right h.nsigK h.ratio1
  have h3 : p.non ≤ p.nsig := by exact_mod_cast h1.trans h2
  unfold Par.noff
  omega

end Par

/-- Specification: the sample `i` of the active part of cycle `c`. -/
def onSample (p : Par K) (wave : ℕ → ℕ → K) (noise : ℕ → Bool → ℕ → K) (c i : ℕ) : K :=
  ramp p (i + c * p.nsig) * env p i * wave c i + noise c false i + p.offset

theorem cycle_ok {p : Par K} (h : p.OK) (wave : ℕ → ℕ → K) (noise : ℕ → Bool → ℕ → K) (c : ℕ) :
    cycle p wave noise c = .ok ((List.range p.non.toNat).map (onSample p wave noise c),
      (List.range p.noff.toNat).map fun i => noise c true i + p.offset) := by
  have hw : waveform p (wave c) = .ok ((List.range p.non.toNat).map (wave c)) := by
    unfold waveform array
    have := h.non
    split_ifs with h1 h2
    · rfl
    · omega
    · rfl
  have ha : array p.noff (noise c true) = .ok ((List.range p.noff.toNat).map (noise c true)) := by
    unfold array
    have := h.noff
    rw [if_neg (by omega)]
  have hz : ((List.range p.non.toNat).map (wave c)).zipIdx.map (fun q =>
      ramp p (q.2 + c * p.nsig) * env p q.2 * q.1 + noise c false q.2) =
      (List.range p.non.toNat).map fun i : ℕ =>
        ramp p (i + c * p.nsig) * env p i * wave c i + noise c false i := by
    apply List.ext_getElem
    · simp
    · intro i h1 h2
      simp
  unfold cycle
  rw [hw]
  show (Except.bind (array p.noff (noise c true)) _) = _
  rw [ha]
  show Except.ok _ = Except.ok _
  congr 1
  rw [hz]
  by_cases h0 : p.offset = 0
  · rw [if_neg (by simpa using h0)]
    simp [onSample, h0]
  · rw [if_pos h0]
    simp [onSample, Function.comp_def]

theorem cycles_ok {p : Par K} (h : p.OK) (wave : ℕ → ℕ → K) (noise : ℕ → Bool → ℕ → K) :
    ∀ (l : List ℕ) (acc : Option (List K × List K)), cycles p wave noise l acc =
      .ok (match l.getLast? with
        | none => acc
        | some c => some ((List.range p.non.toNat).map (onSample p wave noise c),
            (List.range p.noff.toNat).map fun i => noise c true i + p.offset)) := by
  intro l
  induction l with
  | nil => intro acc; rfl
  | cons c l ih =>
    intro acc
    unfold cycles
    rw [cycle_ok h]
    show cycles p wave noise l _ = _
    rw [ih]
    cases l with
    | nil => rfl
    | cons d l => rw [List.getLast?_cons_cons]; simp [List.getLast?_cons]

/-- **C55** (content): for parameters in their documented ranges and at least one cycle, the signal is made
of `ndeb` samples of noise, the active and the inactive part of the *last* cycle, and `nend` samples of
noise. -/
theorem C55_content {p : Par K} (h : p.OK) (hc : 1 ≤ p.ncycles) (wave : ℕ → ℕ → K)
    (noise : ℕ → Bool → ℕ → K) (deb fin : ℕ → K) :
    generate p wave noise deb fin = .ok ((List.range p.ndeb.toNat).map deb ++
      (List.range p.non.toNat).map (onSample p wave noise (p.ncycles.toNat - 1)) ++
      (List.range p.noff.toNat).map (fun i => noise (p.ncycles.toNat - 1) true i + p.offset) ++
      (List.range p.nend.toNat).map fin) := by
  have hd : array p.ndeb deb = .ok ((List.range p.ndeb.toNat).map deb) := by
    unfold array
    have := h.ndeb
    rw [if_neg (by omega)]
  have he : array p.nend fin = .ok ((List.range p.nend.toNat).map fin) := by
    unfold array
    have := h.nend
    rw [if_neg (by omega)]
  unfold generate
  rw [if_neg (by simpa using h.kind), hd, cycles_ok h, he]
  obtain ⟨m, hm⟩ : ∃ m, p.ncycles.toNat = m + 1 := ⟨p.ncycles.toNat - 1, by omega⟩
  rw [hm]
  have hl : (List.range (m + 1)).getLast? = some m := by
    rw [List.range_succ, List.getLast?_concat]
  rw [hl]
  rfl

/-- **C55** (length): whatever the number of cycles, the length is that of one cycle. -/
theorem C55_length {p : Par K} (h : p.OK) (hc : 1 ≤ p.ncycles) (wave : ℕ → ℕ → K)
    (noise : ℕ → Bool → ℕ → K) (deb fin : ℕ → K) :
    ∃ s, generate p wave noise deb fin = .ok s ∧ (s.length : ℤ) = p.ndeb + p.nsig + p.nend := by
  refine ⟨_, C55_content h hc wave noise deb fin, ?_⟩
  have h1 := h.ndeb
  have h2 := h.non
  have h3 := h.noff
  have h4 := h.nend
  simp only [List.length_append, List.length_map, List.length_range]
  unfold Par.noff at h3 ⊢
  omega

/-- **C55**: the length is the documented one exactly when there is one cycle or cycles are empty. -/
theorem C55_documented_length {p : Par K} (h : p.OK) (hc : 1 ≤ p.ncycles) (wave : ℕ → ℕ → K)
    (noise : ℕ → Bool → ℕ → K) (deb fin : ℕ → K) {s : List K}
    (hs : generate p wave noise deb fin = .ok s) :
    (s.length : ℤ) = p.ndeb + p.ncycles * p.nsig + p.nend ↔ p.ncycles = 1 ∨ p.nsig = 0 := by
  obtain ⟨s', h1, h2⟩ := C55_length h hc wave noise deb fin
  rw [hs] at h1
  obtain rfl := Except.ok.inj h1
  rw [h2]
  constructor
  · intro h3
    have h4 : (p.ncycles - 1) * p.nsig = 0 := by
      rw [sub_mul]; omega
    rcases mul_eq_zero.1 h4 with h5 | h5
    · left; omega
    · right; exact h5
  · rintro (h3 | h3)
    · rw [h3]; ring
    · rw [h3]; ring

/-- **C55** (duration): each duration is cut to a whole number of samples. -/
theorem C55_duration {p : Par K} (h : p.OK) (hc : 1 ≤ p.ncycles) (wave : ℕ → ℕ → K)
    (noise : ℕ → Bool → ℕ → K) (deb fin : ℕ → K) :
    ∃ s, generate p wave noise deb fin = .ok s ∧
      (s.length : K) ≤ (p.tdeb + p.tsig + p.tend) * p.fs ∧
      (p.tdeb + p.tsig + p.tend) * p.fs < s.length + 3 := by
  obtain ⟨s, h1, h2⟩ := C55_length h hc wave noise deb fin
  refine ⟨s, h1, ?_⟩
  have hl : (s.length : K) = (p.ndeb : K) + p.nsig + p.nend := by exact_mod_cast h2
  have a1 : (p.ndeb : K) ≤ p.tdeb * p.fs := pint_le (mul_nonneg h.tdeb h.fs)
  have a2 : (p.nsig : K) ≤ p.tsig * p.fs := pint_le (mul_nonneg h.tsig h.fs)
  have a3 : (p.nend : K) ≤ p.tend * p.fs := pint_le (mul_nonneg h.tend h.fs)
  have b1 : p.tdeb * p.fs - 1 < (p.ndeb : K) := lt_pint
  have b2 : p.tsig * p.fs - 1 < (p.nsig : K) := lt_pint
  have b3 : p.tend * p.fs - 1 < (p.nend : K) := lt_pint
  rw [hl]
  constructor
  · linarith
  · linarith

/-- **C55** (no cycle): the function raises. -/
theorem C55_no_cycle {p : Par K} (h : p.OK) (hc : p.ncycles ≤ 0) (wave : ℕ → ℕ → K)
    (noise : ℕ → Bool → ℕ → K) (deb fin : ℕ → K) :
    generate p wave noise deb fin = .error .unbound := by
  have hd : array p.ndeb deb = .ok ((List.range p.ndeb.toNat).map deb) := by
    unfold array
    have := h.ndeb
    rw [if_neg (by omega)]
  have he : array p.nend fin = .ok ((List.range p.nend.toNat).map fin) := by
    unfold array
    have := h.nend
    rw [if_neg (by omega)]
  unfold generate
  rw [if_neg (by simpa using h.kind), hd, cycles_ok h, he]
  have : p.ncycles.toNat = 0 := by omega
  rw [this]
  rfl

theorem clamp_mem (x : K) : 0 ≤ clamp x 0 1 ∧ clamp x 0 1 ≤ 1 :=
  ⟨le_min (le_max_right _ _) zero_le_one, min_le_right _ _⟩

theorem env_mem (p : Par K) (i : ℤ) : 0 ≤ env p i ∧ env p i ≤ 1 := by
  have h : ∀ (n : ℤ) (x : K), 0 ≤ (if 0 < n then clamp x 0 1 else 1) ∧
      (if 0 < n then clamp x 0 1 else 1) ≤ 1 := by
    intro n x
    split_ifs
    · exact clamp_mem x
    · exact ⟨zero_le_one, le_rfl⟩
  unfold env
  obtain ⟨a, b⟩ := h p.nd (((p.non - i : ℤ) : K) / (p.nd : K))
  obtain ⟨c, d⟩ := h p.na ((i : K) / (p.na : K))
  exact ⟨mul_nonneg a c, mul_le_one₀ b c d⟩

/-- During the active part of the last cycle the ramp is between 0 and 1. -/
theorem ramp_mem {p : Par K} (h : p.OK) (hc : 1 ≤ p.ncycles) {i : ℕ} (hi : (i : ℤ) < p.non) :
    0 ≤ ramp p (i + (p.ncycles.toNat - 1 : ℕ) * p.nsig) ∧
      ramp p (i + (p.ncycles.toNat - 1 : ℕ) * p.nsig) ≤ 1 := by
  unfold ramp
  split_ifs with hr
  · have h1 := h.noff
    unfold Par.noff at h1
    have hn := h.nsig
    have hm : ((p.ncycles.toNat - 1 : ℕ) : ℤ) = p.ncycles - 1 := by omega
    rw [hm]
    have hle : (i : ℤ) + (p.ncycles - 1) * p.nsig ≤ p.ncycles * p.nsig - 1 := by
      rw [sub_mul]; omega
    have h0 : 0 ≤ (i : ℤ) + (p.ncycles - 1) * p.nsig := by
      have : 0 ≤ (p.ncycles - 1) * p.nsig := mul_nonneg (by omega) hn
      omega
    have hK : ((i + (p.ncycles - 1) * p.nsig : ℤ) : K) ≤ ((p.ncycles * p.nsig - 1 : ℤ) : K) := by
      exact_mod_cast hle
    have h0K : (0 : K) ≤ ((i + (p.ncycles - 1) * p.nsig : ℤ) : K) := by exact_mod_cast h0
    exact ⟨div_nonneg h0K (h0K.trans hK), div_le_one_of_le₀ hK (h0K.trans hK)⟩
  · exact ⟨zero_le_one, le_rfl⟩

/-- **C55** (amplitude): with a waveform bounded by `A` and noises bounded by `B`, the signal is bounded by
`A + B + |offset|`. -/
theorem C55_bounded {p : Par K} (h : p.OK) (hc : 1 ≤ p.ncycles) {wave : ℕ → ℕ → K}
    {noise : ℕ → Bool → ℕ → K} {deb fin : ℕ → K} {A B : K} (hw : ∀ c i, |wave c i| ≤ A)
    (hn : ∀ c b i, |noise c b i| ≤ B) (hd : ∀ i, |deb i| ≤ B) (hf : ∀ i, |fin i| ≤ B) {s : List K}
    (hs : generate p wave noise deb fin = .ok s) : ∀ v ∈ s, |v| ≤ A + B + |p.offset| := by
  rw [C55_content h hc] at hs
  obtain rfl := Except.ok.inj hs
  have hA : 0 ≤ A := (abs_nonneg _).trans (hw 0 0)
  have hB : 0 ≤ B := (abs_nonneg _).trans (hd 0)
  have hO : 0 ≤ |p.offset| := abs_nonneg _
  intro v hv
  simp only [List.mem_append, List.mem_map, List.mem_range] at hv
  rcases hv with ((⟨i, -, rfl⟩ | ⟨i, hi, rfl⟩) | ⟨i, -, rfl⟩) | ⟨i, -, rfl⟩
  · linarith [hd i]
  · have hi' : (i : ℤ) < p.non := by have := h.non; omega
    obtain ⟨r0, r1⟩ := ramp_mem h hc hi'
    obtain ⟨e0, e1⟩ := env_mem p i
    unfold onSample
    refine (abs_add_le _ _).trans (add_le_add ((abs_add_le _ _).trans (add_le_add ?_ (hn _ _ _))) le_rfl)
    rw [abs_mul, abs_of_nonneg (mul_nonneg r0 e0)]
    exact (mul_le_of_le_one_left (abs_nonneg _) (mul_le_one₀ r1 e0 e1)).trans (hw _ _)
  · refine (abs_add_le _ _).trans ?_
    linarith [hn (p.ncycles.toNat - 1) true i]
  · linarith [hf i]

/-- **C55** fails as stated: two cycles of four samples give four samples. -/
theorem C55_counterexample :
    generate (K := ℚ) ⟨"const", 1, 2, 0, 0, 4, 1, 0, 0, false, 0⟩ (fun c _ => c + 1) (fun _ _ _ => 0)
      (fun _ => 0) (fun _ => 0) = .ok [2, 2, 2, 2] := by
  decide +kernel

/-- The hypotheses: three cycles with attack and offset. -/
example : generate (K := ℚ) ⟨"const", 1, 3, 1 / 2, 1 / 4, 4, 1 / 2, 1, 0, true, 1⟩ (fun _ _ => 1)
    (fun _ _ _ => 0) (fun _ => 0) (fun _ => 0) = .ok [0, 0, 1, 31 / 22, 1, 1, 0] ∧
    Par.OK (K := ℚ) ⟨"const", 1, 3, 1 / 2, 1 / 4, 4, 1 / 2, 1, 0, true, 1⟩ := by
  refine ⟨by decide +kernel, ⟨by decide, ?_, ?_, ?_, ?_, ?_, ?_, fun _ => by decide +kernel⟩⟩ <;> norm_num

/-- **C55** (negative parts): a cycle ratio larger than one raises. -/
theorem C55_ratio_raises :
    generate (K := ℚ) ⟨"const", 1, 1, 0, 0, 4, 3 / 2, 0, 0, false, 0⟩ (fun _ _ => 1) (fun _ _ _ => 0)
      (fun _ => 0) (fun _ => 0) = .error .value := by
  decide +kernel

end Signals
end Pyphs
