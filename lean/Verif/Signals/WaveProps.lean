/-
C89: the values of the waveforms.
-/
import Verif.Signals.Wave
import Verif.Signals.Props
import Mathlib.Analysis.SpecialFunctions.Trigonometric.Deriv
import Mathlib.Analysis.SpecialFunctions.Log.Deriv
import Mathlib.Analysis.SpecialFunctions.Pow.Deriv
import Mathlib.Data.List.GetD
import Mathlib.Tactic.FieldSimp

open Real

namespace Pyphs
namespace Signals
namespace Wave

/-! ### Frequency of the sweeps -/

/-- The names of the four kinds of sweeps. -/
def methods : List String := ["linear", "quadratic", "logarithmic", "hyperbolic"]

/-- The documented frequency of a sweep at time `t`: `f0` at time zero, `f1` at time `T`. -/
noncomputable def frequency (method : String) (f0 f1 T t : ℝ) : ℝ :=
  if method = "linear" then f0 + (f1 - f0) * t / T
  else if method = "quadratic" then f0 + (f1 - f0) * t ^ 2 / T ^ 2
  else if method = "logarithmic" then f0 * (f1 / f0) ^ (t / T)
  else f0 * f1 * T / ((f0 - f1) * t + f1 * T)

theorem linear_deriv {f0 f1 T : ℝ} (t : ℝ) :
    HasDerivAt (fun t => 2 * π * (f0 * t + 0.5 * ((f1 - f0) / T) * t * t))
      (2 * π * (f0 + (f1 - f0) * t / T)) t := by
  have h1 := (hasDerivAt_id t).const_mul f0
  have h2 := ((hasDerivAt_id t).const_mul (0.5 * ((f1 - f0) / T))).mul (hasDerivAt_id t)
  have h := (h1.add h2).const_mul (2 * π)
  refine h.congr_deriv ?_
  simp only [id]
  ring

theorem quadratic_deriv {f0 f1 T : ℝ} (t : ℝ) :
    HasDerivAt (fun t => 2 * π * (f0 * t + (f1 - f0) / T ^ 2 * t ^ 3 / 3))
      (2 * π * (f0 + (f1 - f0) * t ^ 2 / T ^ 2)) t := by
  have h1 := (hasDerivAt_id t).const_mul f0
  have h2 := ((hasDerivAt_pow 3 t).const_mul ((f1 - f0) / T ^ 2)).div_const 3
  have h := (h1.add h2).const_mul (2 * π)
  refine h.congr_deriv ?_
  push_cast
  ring

theorem logarithmic_deriv {f0 f1 T : ℝ} (hT : T ≠ 0) (h0 : 0 < f0) (h1 : 0 < f1) (hne : f0 ≠ f1) (t : ℝ) :
    HasDerivAt (fun t => 2 * π * (T / log (f1 / f0)) * f0 * ((f1 / f0) ^ (t / T) - 1))
      (2 * π * (f0 * (f1 / f0) ^ (t / T))) t := by
  have hr : 0 < f1 / f0 := by positivity
  have hl : log (f1 / f0) ≠ 0 := by
    apply Real.log_ne_zero_of_pos_of_ne_one hr
    rw [Ne, div_eq_one_iff_eq h0.ne']
    exact hne.symm
  have hd := (((hasDerivAt_id t).div_const T).const_rpow hr).sub_const (1 : ℝ)
  have h := hd.const_mul (2 * π * (T / log (f1 / f0)) * f0)
  refine h.congr_deriv ?_
  simp only [id]
  field_simp

theorem hyperbolic_deriv {f0 f1 T : ℝ} (hT : 0 < T) (h0 : 0 < f0) (h1 : 0 < f1) (hne : f0 ≠ f1) {t : ℝ}
    (ht : (f0 - f1) * t + f1 * T ≠ 0) :
    HasDerivAt (fun t => 2 * π * (-(-f1 * T / (f0 - f1)) * f0) * log |1 - t / (-f1 * T / (f0 - f1))|)
      (2 * π * (f0 * f1 * T / ((f0 - f1) * t + f1 * T))) t := by
  have hd : f0 - f1 ≠ 0 := sub_ne_zero.2 hne
  have hne' : 1 - t / (-f1 * T / (f0 - f1)) ≠ 0 := by
    have : 1 - t / (-f1 * T / (f0 - f1)) = ((f0 - f1) * t + f1 * T) / (f1 * T) := by
      field_simp
      ring
    rw [this]
    positivity
  have hlin : HasDerivAt (fun t : ℝ => 1 - t / (-f1 * T / (f0 - f1))) (-(1 / (-f1 * T / (f0 - f1)))) t :=
    ((hasDerivAt_id t).div_const _).const_sub 1
  have h := (hlin.log hne').const_mul (2 * π * (-(-f1 * T / (f0 - f1)) * f0))
  simp only [Real.log_abs]
  refine h.congr_deriv ?_
  have e : 1 - t / (-f1 * T / (f0 - f1)) = ((f0 - f1) * t + f1 * T) / (f1 * T) := by
    field_simp
    ring
  rw [e]
  field_simp

/-- C89. The sweeps: for each documented method and positive frequencies the phase exists at all times, it is
zero at time zero, and its derivative is `2 π` times the documented frequency from time zero to the last
sample. -/
theorem C89_sweep_phase {method : String} (hm : method ∈ methods) {f0 f1 T : ℝ} (h0 : 0 < f0) (h1 : 0 < f1)
    (hT : 0 < T) : ∃ ph : ℝ → ℝ, (∀ t, chirpPhase method f0 f1 T t = .ok (ph t)) ∧ ph 0 = 0 ∧
      ∀ t ∈ Set.Icc 0 T, HasDerivAt ph (2 * π * frequency method f0 f1 T t) t := by
  have hden : ∀ t ∈ Set.Icc 0 T, (f0 - f1) * t + f1 * T ≠ 0 := by
    intro t ht
    have : (f0 - f1) * t + f1 * T = f0 * t + f1 * (T - t) := by ring
    rw [this]
    rcases eq_or_lt_of_le ht.1 with h | h
    · rw [← h]; simp; exact ⟨h1.ne', hT.ne'⟩
    · have : 0 ≤ f1 * (T - t) := mul_nonneg h1.le (by linarith [ht.2])
      have : 0 < f0 * t := by positivity
      linarith
  have hconst : ∀ t, HasDerivAt (fun t => 2 * π * f0 * t) (2 * π * f0) t := by
    intro t
    simpa using (hasDerivAt_id t).const_mul (2 * π * f0)
  simp only [methods, List.mem_cons, List.not_mem_nil, or_false] at hm
  rcases hm with rfl | rfl | rfl | rfl
  · refine ⟨_, fun t => by simp [chirpPhase]; rfl, by simp, ?_⟩
    intro t _
    have h := linear_deriv (f0 := f0) (f1 := f1) (T := T) t
    simp only [frequency, if_true]
    exact h
  · refine ⟨_, fun t => by simp [chirpPhase]; rfl, by simp, ?_⟩
    intro t _
    have h := quadratic_deriv (f0 := f0) (f1 := f1) (T := T) t
    simpa [frequency] using h
  · by_cases hne : f0 = f1
    · subst hne
      refine ⟨fun t => 2 * π * f0 * t, ?_, by simp, ?_⟩
      · intro t
        simp [chirpPhase, not_le.2 (mul_pos h0 h0)]
      · intro t _
        simpa [frequency, div_self h0.ne'] using hconst t
    · refine ⟨fun t => 2 * π * (T / log (f1 / f0)) * f0 * ((f1 / f0) ^ (t / T) - 1), ?_, by simp, ?_⟩
      · intro t
        simp [chirpPhase, not_le.2 (mul_pos h0 h1), hne]
      · intro t _
        simpa [frequency] using logarithmic_deriv hT.ne' h0 h1 hne t
  · by_cases hne : f0 = f1
    · subst hne
      refine ⟨fun t => 2 * π * f0 * t, ?_, by simp, ?_⟩
      · intro t
        simp [chirpPhase, h0.ne']
      · intro t _
        have e : f0 * f0 * T / ((f0 - f0) * t + f0 * T) = f0 := by
          rw [sub_self, zero_mul, zero_add]
          field_simp
        simp only [frequency, String.reduceEq, if_false]
        rw [e]
        exact hconst t
    · refine ⟨fun t => 2 * π * (-(-f1 * T / (f0 - f1)) * f0) * log |1 - t / (-f1 * T / (f0 - f1))|,
        ?_, by simp, ?_⟩
      · intro t
        simp only [chirpPhase, List.mem_cons, List.not_mem_nil, String.reduceEq, or_self, if_false, or_false,
          true_or, if_true, h0.ne', h1.ne', hne]
      · intro t ht
        have h := hyperbolic_deriv hT h0 h1 hne (hden t ht)
        simp only [frequency, String.reduceEq, if_false]
        exact h

/-- C89. The documented frequency is `f0` at the first sample, `f1` at the last, and increases in between if
`f0 < f1`. -/
theorem C89_sweep_frequency {method : String} (hm : method ∈ methods) {f0 f1 T : ℝ} (h0 : 0 < f0)
    (h1 : f0 < f1) (hT : 0 < T) : frequency method f0 f1 T 0 = f0 ∧ frequency method f0 f1 T T = f1 ∧
      StrictMonoOn (frequency method f0 f1 T) (Set.Icc 0 T) := by
  have h1' : 0 < f1 := h0.trans h1
  have hd : 0 < f1 - f0 := by linarith
  simp only [methods, List.mem_cons, List.not_mem_nil, or_false] at hm
  rcases hm with rfl | rfl | rfl | rfl
  · refine ⟨by simp [frequency], by simp [frequency, hT.ne'], ?_⟩
    intro a _ b _ hab
    simp only [frequency, if_true]
    gcongr
  · refine ⟨by simp [frequency], by simp [frequency, hT.ne'], ?_⟩
    intro a ha b _ hab
    simp only [frequency, String.reduceEq, if_false, if_true]
    have := ha.1
    gcongr
  · refine ⟨by simp [frequency], ?_, ?_⟩
    · simp only [frequency, String.reduceEq, if_false, if_true]
      rw [div_self hT.ne', rpow_one]
      field_simp
    · intro a _ b _ hab
      simp only [frequency, String.reduceEq, if_false, if_true]
      have hr : 1 < f1 / f0 := by rw [lt_div_iff₀ h0]; linarith
      have : a / T < b / T := by gcongr
      exact mul_lt_mul_of_pos_left (Real.rpow_lt_rpow_of_exponent_lt hr this) h0
  · refine ⟨?_, ?_, ?_⟩
    · simp only [frequency, String.reduceEq, if_false]
      rw [mul_zero, zero_add]
      field_simp
    · simp only [frequency, String.reduceEq, if_false]
      rw [show (f0 - f1) * T + f1 * T = f0 * T by ring]
      field_simp
    · intro a ha b hb hab
      simp only [frequency, String.reduceEq, if_false]
      have hb' : 0 < (f0 - f1) * b + f1 * T := by nlinarith [hb.1, hb.2, mul_pos h0 hT]
      apply div_lt_div_of_pos_left (by positivity) hb'
      nlinarith

/-! ### The signals -/

theorem mapM_ok {α β ε : Type} {f : α → Except ε β} {g : α → β} {l : List α} (h : ∀ a ∈ l, f a = .ok (g a)) :
    l.mapM f = .ok (l.map g) := by
  induction l with
  | nil => rfl
  | cons a l ih =>
    rw [List.mapM_cons, h a (by simp), ih (fun b hb => h b (by simp [hb]))]
    rfl

/-- The values of `signalgenerator` when the samples of the waveform are known. -/
theorem signal_eq {p : Par ℝ} (hp : p.OK) (hc : 1 ≤ p.ncycles) (q : WPar) (rnd : ℕ → ℕ → ℝ)
    (noise : ℕ → Bool → ℕ → ℝ) (deb fin : ℕ → ℝ) {v : ℕ → ℕ → ℝ}
    (hv : ∀ c (i : ℕ), (i : ℤ) < p.non → wave p q (rnd c) i = .ok (v c i)) :
    signal p q rnd noise deb fin = .ok ((List.range p.ndeb.toNat).map deb ++
      (List.range p.non.toNat).map (onSample p v noise (p.ncycles.toNat - 1)) ++
      (List.range p.noff.toNat).map (fun i => noise (p.ncycles.toNat - 1) true i + p.offset) ++
      (List.range p.nend.toNat).map fin) := by
  have hws : ((List.range p.ncycles.toNat).mapM fun c =>
      (List.range p.non.toNat).mapM (wave p q (rnd c))) =
      .ok ((List.range p.ncycles.toNat).map fun c => (List.range p.non.toNat).map (v c)) := by
    apply mapM_ok
    intro c _
    apply mapM_ok
    intro i hi
    have := List.mem_range.1 hi
    exact hv c i (by omega)
  unfold signal
  rw [hws]
  simp only [bind, Except.bind]
  rw [C55_content hp hc]
  simp only
  congr 3
  congr 1
  apply List.map_congr_left
  intro i hi
  have hi := List.mem_range.1 hi
  unfold onSample
  beta_reduce
  have e : ((List.range p.ncycles.toNat).map fun c => (List.range p.non.toNat).map (v c)).getD
      (p.ncycles.toNat - 1) [] = (List.range p.non.toNat).map (v (p.ncycles.toNat - 1)) := by
    rw [List.getD_eq_getElem _ _ (by rw [List.length_map, List.length_range]; omega), List.getElem_map,
      List.getElem_range]
  rw [e, List.getD_eq_getElem _ _ (by simpa using hi), List.getElem_map, List.getElem_range]

/-- The values documented for each kind of signal: sample `i` is at time `i / fs`. -/
noncomputable def documented (p : Par ℝ) (q : WPar) (rnd : ℕ → ℝ) (i : ℕ) : ℝ :=
  if p.which = "zero" then 0
  else if p.which = "sin" then
    q.A * sin (2 * π * q.f0 * (i / p.fs)) + q.A1 * sin (2 * π * q.f1.getD 0 * (i / p.fs))
  else if p.which = "cos" then q.A * cos (2 * π * q.f0 * (i / p.fs))
  else if p.which = "noise" then rnd i
  else q.A

/-- C89. All the kinds of signals but the sweep: `ndeb` samples of background noise, the waveform of the last
cycle with the ramp and the envelope, plus noise and offset, the inactive part of the cycle, and `nend`
samples of noise. The second frequency has no effect on the cosine, and the step is a constant. -/
theorem C89_values {p : Par ℝ} (hp : p.OK) (hc : 1 ≤ p.ncycles) (hw : p.which ≠ "sweep") (q : WPar)
    (rnd : ℕ → ℕ → ℝ) (noise : ℕ → Bool → ℕ → ℝ) (deb fin : ℕ → ℝ) :
    signal p q rnd noise deb fin = .ok ((List.range p.ndeb.toNat).map deb ++
      (List.range p.non.toNat).map (fun i : ℕ => ramp p (i + (p.ncycles.toNat - 1 : ℕ) * p.nsig) * env p i *
        documented p q (rnd (p.ncycles.toNat - 1)) i + noise (p.ncycles.toNat - 1) false i + p.offset) ++
      (List.range p.noff.toNat).map (fun i => noise (p.ncycles.toNat - 1) true i + p.offset) ++
      (List.range p.nend.toNat).map fin) := by
  rw [signal_eq hp hc q rnd noise deb fin (v := fun c => documented p q (rnd c))]
  · rfl
  · intro c i _
    have hk := hp.kind
    simp only [names, List.mem_cons, List.not_mem_nil, or_false] at hk
    have ea : ∀ a : ℝ, 2 * π * a * i / p.fs = 2 * π * a * (i / p.fs) := fun a => by ring
    unfold wave documented sine cosine
    rcases hk with h | h | h | h | h | h | h
    · simp [h]
    · simp [h]
    · cases hq : q.f1 <;> simp [h, ea]
    · simp [h, ea]
    · simp [h]
    · simp [h]
    · exact absurd h hw

/-- C89. The default phase of a sweep makes it a sine: with at least two samples in a cycle, sample `i` is
`A sin(phase(i / fs))`, where the phase is that of C89_sweep_phase for the duration between the first and
the last sample. -/
theorem C89_sweep {p : Par ℝ} (hp : p.OK) (hfs : 0 < p.fs) (hc : 1 ≤ p.ncycles) (hw : p.which = "sweep")
    (hn : 2 ≤ p.non) {q : WPar} {f1 : ℝ} (hq : q.f1 = some f1) (hphi : q.phi = -90) (h0 : 0 < q.f0) (h1 : 0 < f1)
    (hm : q.method ∈ methods) (rnd : ℕ → ℕ → ℝ) (noise : ℕ → Bool → ℕ → ℝ) (deb fin : ℕ → ℝ) :
    ∃ ph : ℝ → ℝ, ph 0 = 0 ∧
      (∀ t ∈ Set.Icc 0 (((p.non - 1 : ℤ) : ℝ) / p.fs),
        HasDerivAt ph (2 * π * frequency q.method q.f0 f1 (((p.non - 1 : ℤ) : ℝ) / p.fs) t) t) ∧
      signal p q rnd noise deb fin = .ok ((List.range p.ndeb.toNat).map deb ++
        (List.range p.non.toNat).map (fun i : ℕ => ramp p (i + (p.ncycles.toNat - 1 : ℕ) * p.nsig) * env p i *
          (q.A * sin (ph (i / p.fs))) + noise (p.ncycles.toNat - 1) false i + p.offset) ++
        (List.range p.noff.toNat).map (fun i => noise (p.ncycles.toNat - 1) true i + p.offset) ++
        (List.range p.nend.toNat).map fin) := by
  have hn' : (0 : ℝ) < ((p.non - 1 : ℤ) : ℝ) := by exact_mod_cast (by omega : 0 < p.non - 1)
  obtain ⟨ph, hph, hz, hd⟩ := C89_sweep_phase hm h0 h1 (T := ((p.non - 1 : ℤ) : ℝ) / p.fs) (by positivity)
  refine ⟨ph, hz, hd, ?_⟩
  rw [signal_eq hp hc q rnd noise deb fin (v := fun _ i => q.A * sin (ph (i / p.fs)))]
  · rfl
  · intro c i _
    have hT : ((p.non : ℝ) - 1) / p.fs = ((p.non - 1 : ℤ) : ℝ) / p.fs := by push_cast; rfl
    have ht : (i : ℝ) * (((p.non - 1 : ℤ) : ℝ) / p.fs) / ((p.non : ℝ) - 1) = i / p.fs := by
      push_cast at hn' ⊢
      field_simp
    unfold wave
    simp only [hw, hq]
    rw [if_neg (by omega)]
    unfold sweep
    simp only [hT, ht, hph]
    rw [hphi, show ph (i / p.fs) + -90 * π / 180 = ph (i / p.fs) - π / 2 by ring, cos_sub_pi_div_two]

/-- C89. A sweep of one sample fails. -/
theorem C89_short_sweep {p : Par ℝ} (hc : 1 ≤ p.ncycles) (hw : p.which = "sweep") (hn : p.non = 1) (q : WPar)
    (rnd : ℕ → ℕ → ℝ) (noise : ℕ → Bool → ℕ → ℝ) (deb fin : ℕ → ℝ) :
    ∃ e, signal p q rnd noise deb fin = .error e := by
  obtain ⟨n, hn'⟩ : ∃ n, p.ncycles.toNat = n + 1 := ⟨p.ncycles.toNat - 1, by omega⟩
  have : ∃ e, wave p q (rnd 0) 0 = .error e := by
    unfold wave
    simp only [hw, hn]
    cases q.f1
    · exact ⟨_, rfl⟩
    · exact ⟨_, rfl⟩
  obtain ⟨e, he⟩ := this
  refine ⟨e, ?_⟩
  unfold signal
  rw [hn', hn, List.range_succ_eq_map, List.mapM_cons]
  simp [he, bind, Except.bind, List.range_succ]

/-- C89. The amplitude is documented as peak to peak: it is half of that. -/
theorem C89_peak_counterexample :
    signal ⟨"sin", 1, 1, 0, 0, 4, 1, 0, 0, false, 0⟩ ⟨1, 0, 1, some 100, -90, "linear"⟩ (fun _ _ => 0)
      (fun _ _ _ => 0) (fun _ => 0) (fun _ => 0) = .ok [0, 1, 0, -1] := by
  have hns : Par.nsig (K := ℝ) ⟨"sin", 1, 1, 0, 0, 4, 1, 0, 0, false, 0⟩ = 4 := by
    unfold Par.nsig; norm_num [pint]
  have hnon : Par.non (K := ℝ) ⟨"sin", 1, 1, 0, 0, 4, 1, 0, 0, false, 0⟩ = 4 := by
    unfold Par.non; rw [hns]; norm_num [pint]
  have hnd : Par.ndeb (K := ℝ) ⟨"sin", 1, 1, 0, 0, 4, 1, 0, 0, false, 0⟩ = 0 := by
    unfold Par.ndeb; norm_num [pint]
  have hne : Par.nend (K := ℝ) ⟨"sin", 1, 1, 0, 0, 4, 1, 0, 0, false, 0⟩ = 0 := by
    unfold Par.nend; norm_num [pint]
  have hnf : Par.noff (K := ℝ) ⟨"sin", 1, 1, 0, 0, 4, 1, 0, 0, false, 0⟩ = 0 := by
    unfold Par.noff; rw [hns, hnon]; norm_num
  have hna : Par.na (K := ℝ) ⟨"sin", 1, 1, 0, 0, 4, 1, 0, 0, false, 0⟩ = 0 := by
    unfold Par.na; norm_num [pint]
  have hnde : Par.nd (K := ℝ) ⟨"sin", 1, 1, 0, 0, 4, 1, 0, 0, false, 0⟩ = 0 := by
    unfold Par.nd; norm_num [pint]
  rw [C89_values (by
    refine ⟨by decide, ?_, ?_, ?_, ?_, ?_, ?_, fun h => by simp at h⟩ <;> norm_num) (by norm_num) (by decide)]
  rw [hnon, hnd, hne, hnf]
  have h1 : sin (2 * π * 4⁻¹) = 1 := by rw [show 2 * π * 4⁻¹ = π / 2 by ring, sin_pi_div_two]
  have h2 : sin (2 * π * (2 / 4)) = 0 := by rw [show 2 * π * (2 / 4) = π by ring, sin_pi]
  have h3 : sin (2 * π * (3 / 4)) = -1 := by
    rw [show 2 * π * (3 / 4) = π / 2 + π by ring, sin_add_pi, sin_pi_div_two]
  simp [List.range_succ, ramp, env, hna, hnde, documented, h1, h2, h3]

/-- A sweep from 10 Hz to 100 Hz in a second, at 4 samples per second: its first sample is zero. -/
example : ∃ ph : ℝ → ℝ, ph 0 = 0 ∧ HasDerivAt ph (2 * π * 10) 0 ∧ HasDerivAt ph (2 * π * 100) (3 / 4) ∧
    signal ⟨"sweep", 1, 1, 0, 0, 4, 1, 0, 0, false, 0⟩ ⟨2, 0, 10, some 100, -90, "logarithmic"⟩ (fun _ _ => 0)
      (fun _ _ _ => 0) (fun _ => 0) (fun _ => 0) =
      .ok [0, 2 * sin (ph (1 / 4)), 2 * sin (ph (2 / 4)), 2 * sin (ph (3 / 4))] := by
  have hns : Par.nsig (K := ℝ) ⟨"sweep", 1, 1, 0, 0, 4, 1, 0, 0, false, 0⟩ = 4 := by
    unfold Par.nsig; norm_num [pint]
  have hnon : Par.non (K := ℝ) ⟨"sweep", 1, 1, 0, 0, 4, 1, 0, 0, false, 0⟩ = 4 := by
    unfold Par.non; rw [hns]; norm_num [pint]
  have hnd : Par.ndeb (K := ℝ) ⟨"sweep", 1, 1, 0, 0, 4, 1, 0, 0, false, 0⟩ = 0 := by
    unfold Par.ndeb; norm_num [pint]
  have hne : Par.nend (K := ℝ) ⟨"sweep", 1, 1, 0, 0, 4, 1, 0, 0, false, 0⟩ = 0 := by
    unfold Par.nend; norm_num [pint]
  have hnf : Par.noff (K := ℝ) ⟨"sweep", 1, 1, 0, 0, 4, 1, 0, 0, false, 0⟩ = 0 := by
    unfold Par.noff; rw [hns, hnon]; norm_num
  have hna : Par.na (K := ℝ) ⟨"sweep", 1, 1, 0, 0, 4, 1, 0, 0, false, 0⟩ = 0 := by
    unfold Par.na; norm_num [pint]
  have hnde : Par.nd (K := ℝ) ⟨"sweep", 1, 1, 0, 0, 4, 1, 0, 0, false, 0⟩ = 0 := by
    unfold Par.nd; norm_num [pint]
  have hmeth : "logarithmic" ∈ methods := by decide
  obtain ⟨ph, h0, hd, h⟩ := C89_sweep (p := ⟨"sweep", 1, 1, 0, 0, 4, 1, 0, 0, false, 0⟩) (by
      refine ⟨by decide, ?_, ?_, ?_, ?_, ?_, ?_, fun h => by simp at h⟩ <;> norm_num) (by norm_num) (by norm_num) rfl
    (by rw [hnon]; norm_num) (q := ⟨2, 0, 10, some 100, -90, "logarithmic"⟩) (f1 := 100) rfl rfl
    (by norm_num) (by norm_num) hmeth (fun _ _ => 0) (fun _ _ _ => 0) (fun _ => 0) (fun _ => 0)
  rw [hnon] at hd
  have hT : (((4 - 1 : ℤ) : ℝ) / (4 : ℝ)) = 3 / 4 := by norm_num
  simp only [hT] at hd
  obtain ⟨e0, e1, -⟩ := C89_sweep_frequency hmeth (f0 := 10) (f1 := 100) (T := 3 / 4) (by norm_num) (by norm_num)
    (by norm_num)
  refine ⟨ph, h0, ?_, ?_, ?_⟩
  · have := hd 0 ⟨le_rfl, by norm_num⟩
    rwa [e0] at this
  · have := hd (3 / 4) ⟨by norm_num, le_rfl⟩
    rwa [e1] at this
  · rw [h, hnon, hnd, hne, hnf]
    simp [List.range_succ, ramp, env, hna, hnde, h0]

end Wave
end Signals
end Pyphs
