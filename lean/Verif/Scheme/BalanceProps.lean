/-
Properties C20 (discrete power balance at every step), C21 (passivity over any history).
-/
import Verif.Scheme.MethodLemmas
import Verif.Scheme.GradExamples

namespace Pyphs
namespace Scheme
open Finset Mat Core

/-! ### Values of the variables of a method -/

/-- Values of a list of expressions. -/
def evs (l : List Sc) (e : Env ℝ) : List ℝ := l.map fun f => f e

/-- The dissipated power `core.pd` for the values of the symbols. -/
noncomputable def Meth.pdVal (m : Meth) (e : Env ℝ) : Option ℝ :=
  (m.core e).pd (m.w.map e) (evs m.z e) (evs m.dxH e) (m.u.map e)

/-- The port power `u.y` (h5data.py:1475-1517). -/
noncomputable def Meth.psVal (m : Meth) (e : Env ℝ) : ℝ := ldot (m.u.map e) (m.out e)

theorem evs_getD (l : List Sc) (e : Env ℝ) (i : ℕ) : (evs l e).getD i 0 = vals l e i := by
  by_cases h : i < l.length
  · simp [evs, vals, List.getD_eq_getElem?_getD, h]
  · simp [evs, vals, List.getD_eq_getElem?_getD, h]

theorem map_getD (l : List String) (e : Env ℝ) {i : ℕ} (h : i < l.length) :
    (l.map e).getD i 0 = svals l e i := by
  simp [svals, List.getD_eq_getElem?_getD, h]

/-- The vector `a = (dxH, z, u)`. -/
noncomputable def Meth.aV (m : Meth) (e : Env ℝ) : List ℝ := evs m.dxH e ++ evs m.z e ++ m.u.map e

theorem mv_aV {m : Meth} (h : MethWF m) (e : Env ℝ) (r : ℕ) :
    (m.M e).mv (fun j => (m.aV e).getD j 0) r =
      ∑ j ∈ range m.g.x.length, (m.M e).e r j * vals m.dxH e j +
      ∑ j ∈ range m.w.length, (m.M e).e r (m.g.x.length + j) * vals m.z e j +
      ∑ k ∈ range m.y.length, (m.M e).e r (m.g.x.length + m.w.length + k) * svals m.u e k := by
  have hg : (evs m.dxH e).length = m.g.x.length := by simp [evs, h.gx]
  have hz : (evs m.z e).length = m.w.length := by simp [evs, h.wz]
  unfold mv
  rw [h.Mc, sum_range_add, sum_range_add]
  congr 1
  · congr 1
    · refine sum_congr rfl fun j hj => ?_
      have := mem_range.1 hj
      rw [← evs_getD]
      simp only [Meth.aV, List.getD_eq_getElem?_getD]
      rw [List.getElem?_append_left (by simp; omega), List.getElem?_append_left (by omega)]
    · refine sum_congr rfl fun j hj => ?_
      have := mem_range.1 hj
      rw [← evs_getD]
      simp only [Meth.aV, List.getD_eq_getElem?_getD]
      rw [List.getElem?_append_left (by simp; omega), List.getElem?_append_right (by omega), hg,
        Nat.add_sub_cancel_left]
  · refine sum_congr rfl fun j hj => ?_
    have := mem_range.1 hj
    rw [← map_getD _ _ (by rw [h.uy]; exact this)]
    simp only [Meth.aV, List.getD_eq_getElem?_getD]
    rw [List.getElem?_append_right (by simp; omega)]
    simp only [List.length_append, hg, hz, Nat.add_sub_cancel_left]

theorem out_getD {m : Meth} (h : MethWF m) (e : Env ℝ) {k : ℕ} (hk : k < m.y.length) :
    (m.out e).getD k 0 = (m.M e).mv (fun j => (m.aV e).getD j 0) (m.g.x.length + m.w.length + k) := by
  have hc := h.core e
  have hgm := fun b => getMat_shape (m.core e) hc.Mr hc.Mc hc.xl hc.wl .M .y b
  have hx := xl_le m
  have hdy : (m.core e).deb .y = m.g.x.length + m.w.length := by
    simp only [deb, Meth.core]; have := h.wl; omega
  rw [mv_aV h]
  have hy : (m.core e).y = m.y := rfl
  have hM : (m.core e).M = m.M e := rfl
  simp only [Meth.out, output, hy, List.getD_eq_getElem?_getD, List.getElem?_map,
    List.getElem?_range hk, Option.map_some, Option.getD_some]
  simp only [mv, (hgm _).2, getMat_e, hdy, hM]
  have d1 : (m.core e).dim .x = m.g.x.length := rfl
  have d2 : (m.core e).dim .w = m.w.length := rfl
  have d3 : (m.core e).dim .y = m.y.length := rfl
  have d4 : (m.core e).deb .x = 0 := rfl
  have d5 : (m.core e).deb .w = m.g.x.length := rfl
  simp only [d1, d2, d3, d4, d5, Nat.zero_add]

theorem out_length (m : Meth) (e : Env ℝ) : (m.out e).length = m.y.length := by
  simp [Meth.out, output, Meth.core]

theorem row_all {m : Meth} (e : Env ℝ) (i : ℕ) : m.row .all i e = i := by
  show (if i < m.g.x.length then 0 + i else m.g.x.length + (i - m.g.x.length)) = i
  split_ifs <;> omega

theorem gdot_sum (gs : List Sc) (xs : List String) (e : Env ℝ) (h : gs.length = xs.length) :
    gdot gs xs e = ∑ i ∈ range xs.length, vals gs e i * e (dn (xs.getD i "")) := by
  induction xs generalizing gs with
  | nil => simp [gdot]
  | cons x xs ih =>
    cases gs with
    | nil => simp at h
    | cons g gs =>
      have := ih gs (by simpa using h)
      unfold gdot at this
      rw [List.length_cons, sum_range_succ']
      simp only [gdot, List.zip_cons_cons, List.map_cons, List.sum_cons, this, vals,
        List.getD_cons_succ, List.getD_cons_zero]
      ring

/-! ### C20 -/

/-- **C20**, for any values of the symbols, solution or not: the defect in the discrete power
balance is the power of the residual of the implicit equations. -/
theorem C20_defect (m : Meth) (h : MethWF m) (e : Env ℝ) :
    ∃ p, m.pdVal e = some p ∧ m.fs * gdot m.dxH m.g.x e + p + m.psVal e =
      ∑ i ∈ range m.g.x.length, m.F .all i e * vals m.dxH e i +
      ∑ i ∈ range m.w.length, m.F .all (m.g.x.length + i) e * vals m.z e i := by
  have hc := h.core e
  have hM : (m.core e).M = m.M e := rfl
  set b : ℕ → ℝ := (m.M e).mv fun j => (m.aV e).getD j 0 with hb
  have hvl : (m.v .all).length = m.g.x.length + m.w.length := v_length h e .all
  -- the variables for which the structure equations hold
  set dtx' := (List.range m.g.x.length).map b with hd
  set w' := (List.range m.w.length).map fun i => b (m.g.x.length + i) with hw
  have hlu : (m.u.map e).length = (m.out e).length := by rw [out_length]; simp [h.uy]
  have hs : Solves (m.core e).M (dtx' ++ w' ++ m.out e) (evs m.dxH e ++ evs m.z e ++ m.u.map e) := by
    refine ⟨?_, ?_, ?_⟩
    · simp [hM, h.Mr, hd, hw, out_length, Nat.add_assoc]
    · simp [hM, h.Mc, evs, h.gx, ← h.wz, h.uy, Nat.add_assoc]
    · intro i hi
      rw [hM, h.Mr] at hi
      show _ = b i
      by_cases h1 : i < m.g.x.length
      · rw [List.getD_eq_getElem?_getD, List.getElem?_append_left (by simp [hd]; omega),
          List.getElem?_append_left (by simp [hd]; omega)]
        simp [hd, h1]
      · by_cases h2 : i < m.g.x.length + m.w.length
        · rw [List.getD_eq_getElem?_getD, List.getElem?_append_left (by simp [hd, hw]; omega),
            List.getElem?_append_right (by simp [hd]; omega)]
          have : i - m.g.x.length < m.w.length := by omega
          simp [hd, hw, this, show m.g.x.length + (i - m.g.x.length) = i by omega]
        · rw [List.getD_eq_getElem?_getD, List.getElem?_append_right (by simp [hd, hw]; omega),
            ← List.getD_eq_getElem?_getD]
          simp only [List.length_append, hd, hw, List.length_map, List.length_range]
          rw [out_getD h e (by omega), hb]
          congr 1; omega
  obtain ⟨p', hp', hbal⟩ := C19_balance two_ne_zero (m.core e) hc dtx' w' (m.out e)
    (evs m.dxH e) (evs m.z e) (m.u.map e) (by simp [hd, evs, h.gx]) (by simp [hw, evs, h.wz]) hlu hs
  have hp : m.pdVal e = some (p' - ldot w' (evs m.z e) + ldot (m.w.map e) (evs m.z e)) := by
    unfold Meth.pdVal
    unfold pd at hp' ⊢
    dsimp only at hp' ⊢
    split_ifs at hp' ⊢ with hl
    simp only [Option.some.injEq] at hp' ⊢
    rw [← hp']; unfold ldot; ring
  refine ⟨_, hp, ?_⟩
  have hF : ∀ i < m.g.x.length + m.w.length, m.F .all i e =
      (if i < m.g.x.length then m.fs * e (dn (m.g.x.getD i ""))
        else e (m.w.getD (i - m.g.x.length) "")) - b i := by
    intro i hi
    rw [F_eq_res h e .all (by rw [hvl]; exact hi), row_all, hb, mv_aV h]
    unfold Meth.res; ring
  have e1 : ldot (evs m.dxH e) dtx' = ∑ i ∈ range m.g.x.length, vals m.dxH e i * b i := by
    rw [ldot_eq _ _ (by simp [hd, evs, h.gx])]
    simp only [evs, List.length_map, h.gx]
    refine sum_congr rfl fun i hi => ?_
    have := evs_getD m.dxH e i
    simp only [evs] at this
    rw [this]
    simp [hd, mem_range.1 hi]
  have e2 : ldot w' (evs m.z e) = ∑ i ∈ range m.w.length, b (m.g.x.length + i) * vals m.z e i := by
    rw [ldot_eq _ _ (by simp [hw, evs, h.wz])]
    simp only [hw, List.length_map, List.length_range]
    refine sum_congr rfl fun i hi => ?_
    rw [evs_getD]
    simp [mem_range.1 hi]
  have e3 : ldot (m.w.map e) (evs m.z e) =
      ∑ i ∈ range m.w.length, e (m.w.getD i "") * vals m.z e i := by
    rw [ldot_eq _ _ (by simp [evs, h.wz])]
    simp only [List.length_map]
    refine sum_congr rfl fun i hi => ?_
    rw [evs_getD, map_getD _ _ (mem_range.1 hi)]; rfl
  rw [gdot_sum _ _ _ h.gx]
  have e4 : ∑ i ∈ range m.g.x.length, m.F .all i e * vals m.dxH e i =
      m.fs * ∑ i ∈ range m.g.x.length, vals m.dxH e i * e (dn (m.g.x.getD i "")) -
        ∑ i ∈ range m.g.x.length, vals m.dxH e i * b i := by
    rw [mul_sum, ← sum_sub_distrib]
    refine sum_congr rfl fun i hi => ?_
    have := mem_range.1 hi
    rw [hF i (by omega), if_pos this]; ring
  have e5 : ∑ i ∈ range m.w.length, m.F .all (m.g.x.length + i) e * vals m.z e i =
      ∑ i ∈ range m.w.length, e (m.w.getD i "") * vals m.z e i -
        ∑ i ∈ range m.w.length, b (m.g.x.length + i) * vals m.z e i := by
    rw [← sum_sub_distrib]
    refine sum_congr rfl fun i hi => ?_
    have := mem_range.1 hi
    rw [hF _ (by omega), if_neg (by omega), Nat.add_sub_cancel_left]; ring
  rw [e4, e5, e3, e2]
  rw [e1] at hbal
  unfold Meth.psVal
  linarith

/-- The implicit equations of a step are solved exactly. -/
def Meth.Solved (m : Meth) (e : Env ℝ) : Prop := ∀ i < (m.v .all).length, m.F .all i e = 0

/-- The discrete gradient of the default options, and increments out of the intervals in which
it is expanded. -/
structure Meth.ExactGrad (m : Meth) (tol : ℝ) : Prop where
  pos : 0 < tol
  ok : GroupsOK m.H m.g
  eq : ∃ θ, m.dxH = buildGradient m.H m.g .discret θ tol

/-- The increments of a step are admissible for the discrete gradient. -/
def Meth.StepsOK (m : Meth) (tol : ℝ) (e : Env ℝ) : Prop :=
  (∀ x ∈ m.g.mono, StepOK tol (e (dn x))) ∧
  ((∀ x ∈ m.g.multi, e (dn x) = 0) ∨ tol ^ 2 ≤ (m.g.multi.map fun x => e (dn x) ^ 2).sum)

/-- **C20**: if the implicit equations are solved exactly at a step, the variation of the
energy times the sample rate, the dissipated power and the port power sum to zero. -/
theorem C20_balance (m : Meth) (h : MethWF m) (tol : ℝ) (hg : m.ExactGrad tol) (e : Env ℝ)
    (hs : m.Solved e) (hst : m.StepsOK tol e) :
    ∃ p, m.pdVal e = some p ∧
      (m.H (next e m.g.x) - m.H e) * m.fs + p + m.psVal e = 0 := by
  obtain ⟨p, hp, hb⟩ := C20_defect m h e
  obtain ⟨θ, hθ⟩ := hg.eq
  refine ⟨p, hp, ?_⟩
  have hvl : (m.v .all).length = m.g.x.length + m.w.length := v_length h e .all
  have hex := C20_gradient_exact m.H m.g hg.ok θ tol hg.pos e hst.1 hst.2
  rw [← hθ] at hex
  rw [hex] at hb
  rw [sum_eq_zero (fun i hi => by
      rw [hs i (by rw [hvl]; have := mem_range.1 hi; omega), zero_mul]),
    sum_eq_zero (fun i hi => by
      rw [hs _ (by rw [hvl]; have := mem_range.1 hi; omega), zero_mul])] at hb
  linarith

/-- **C20**: with passive laws and a passive structure the variation of the energy is at most
the power received by the ports. -/
theorem C20_passive (m : Meth) (h : MethWF m) (tol : ℝ) (hg : m.ExactGrad tol) (e : Env ℝ)
    (hs : m.Solved e) (hst : m.StepsOK tol e) (hM : (m.M e).Passive)
    (hz : 0 ≤ ldot (m.w.map e) (evs m.z e)) :
    (m.H (next e m.g.x) - m.H e) * m.fs ≤ - m.psVal e := by
  obtain ⟨p, hp, hb⟩ := C20_balance m h tol hg e hs hst
  have := C19_dissipated_nonneg (m.core e) hM _ _ _ _ p hp hz
  linarith

/-! ### C21 -/

/-- A run: `E n` are the values of the symbols when the implicit equations of step `n` have
been solved. The state of step `n+1` is that of step `n` plus its increment
(_method.py:554-558 `set_update_x`, executed at the beginning of the next step) and the
symbols of `ps` (parameters of the energy) are constant. -/
structure Meth.Run (m : Meth) (ps : List String) (E : ℕ → Env ℝ) : Prop where
  x : ∀ n, ∀ s ∈ m.g.x, E (n + 1) s = E n s + E n (dn s)
  p : ∀ n, ∀ s ∈ ps, E (n + 1) s = E n s

/-- The energy only depends on the states and on the symbols of `ps`. -/
def Meth.EnergyOf (m : Meth) (ps : List String) : Prop :=
  (∀ s ∈ ps, s ∉ m.g.x) ∧ ∀ e e' : Env ℝ, (∀ s ∈ m.g.x ++ ps, e s = e' s) → m.H e = m.H e'

theorem Meth.Run.next {m : Meth} {ps : List String} {E : ℕ → Env ℝ} (hr : m.Run ps E)
    (hH : m.EnergyOf ps) (n : ℕ) : m.H (E (n + 1)) = m.H (Scheme.next (E n) m.g.x) := by
  refine hH.2 _ _ fun s hs => ?_
  rcases List.mem_append.1 hs with h | h
  · rw [hr.x n s h]; simp [Scheme.next, h]
  · rw [hr.p n s h]; simp [Scheme.next, hH.1 s h]

/-- **C21**: along any run, of any length, in which every step is solved exactly, the energy
is the initial energy minus the sum of the dissipated and port powers divided by the sample
rate. -/
theorem C21_energy (m : Meth) (h : MethWF m) (tol : ℝ) (hg : m.ExactGrad tol) (hfs : m.fs ≠ 0)
    (ps : List String) (hH : m.EnergyOf ps) (E : ℕ → Env ℝ) (hr : m.Run ps E) (N : ℕ)
    (hs : ∀ n < N, m.Solved (E n)) (hst : ∀ n < N, m.StepsOK tol (E n)) :
    m.H (E N) = m.H (E 0) -
      (∑ n ∈ range N, ((m.pdVal (E n)).getD 0 + m.psVal (E n))) / m.fs ∧
    ∀ n < N, (m.pdVal (E n)).isSome := by
  induction N with
  | zero => simp
  | succ N ih =>
    obtain ⟨i1, i2⟩ := ih (fun n hn => hs n (by omega)) (fun n hn => hst n (by omega))
    obtain ⟨p, hp, hb⟩ := C20_balance m h tol hg (E N) (hs N (by omega)) (hst N (by omega))
    refine ⟨?_, ?_⟩
    · rw [sum_range_succ, hr.next hH N, hp]
      simp only [Option.getD_some]
      have : m.H (Scheme.next (E N) m.g.x) = m.H (E N) - (p + m.psVal (E N)) / m.fs := by
        field_simp; linarith
      rw [this, i1]; ring
    · intro n hn
      rcases Nat.lt_succ_iff_lt_or_eq.1 hn with h' | h'
      · exact i2 n h'
      · subst h'; simp [hp]

/-- **C21**, passivity: with passive laws and structure, the energy at any later step is at
most the energy at an earlier step plus the energy received from the ports in between. -/
theorem C21_passive (m : Meth) (h : MethWF m) (tol : ℝ) (hg : m.ExactGrad tol) (hfs : 0 < m.fs)
    (ps : List String) (hH : m.EnergyOf ps) (E : ℕ → Env ℝ) (hr : m.Run ps E)
    (hs : ∀ n, m.Solved (E n)) (hst : ∀ n, m.StepsOK tol (E n))
    (hM : ∀ n, (m.M (E n)).Passive) (hz : ∀ n, 0 ≤ ldot (m.w.map (E n)) (evs m.z (E n)))
    (k N : ℕ) : m.H (E (k + N)) ≤ m.H (E k) + (∑ n ∈ range N, - m.psVal (E (k + n))) / m.fs := by
  induction N with
  | zero => simp
  | succ N ih =>
    have hp := C20_passive m h tol hg (E (k + N)) (hs _) (hst _) (hM _) (hz _)
    rw [sum_range_succ, add_div, ← Nat.add_assoc, hr.next hH (k + N)]
    have : m.H (Scheme.next (E (k + N)) m.g.x) - m.H (E (k + N)) ≤ - m.psVal (E (k + N)) / m.fs := by
      rw [le_div_iff₀ hfs]; exact hp
    linarith

/-- **C21**: without inputs the energy of a passive system never increases. -/
theorem C21_no_input (m : Meth) (h : MethWF m) (tol : ℝ) (hg : m.ExactGrad tol) (hfs : 0 < m.fs)
    (ps : List String) (hH : m.EnergyOf ps) (E : ℕ → Env ℝ) (hr : m.Run ps E)
    (hs : ∀ n, m.Solved (E n)) (hst : ∀ n, m.StepsOK tol (E n))
    (hM : ∀ n, (m.M (E n)).Passive) (hz : ∀ n, 0 ≤ ldot (m.w.map (E n)) (evs m.z (E n)))
    (hu : ∀ n, ∀ s ∈ m.u, E n s = 0) : Antitone fun n => m.H (E n) := by
  refine antitone_nat_of_succ_le fun n => ?_
  have := C21_passive m h tol hg hfs ps hH E hr hs hst hM hz n 1
  have h0 : m.psVal (E n) = 0 := by
    unfold Meth.psVal
    have : m.u.map (E n) = List.replicate m.u.length 0 := by
      rw [List.eq_replicate_iff]; simp only [List.length_map, List.mem_map, true_and]
      rintro b ⟨s, hs', rfl⟩; exact hu n s hs'
    rw [this]
    unfold ldot
    have : ∀ (k : ℕ) (l : List ℝ), (List.zipWith (· * ·) (List.replicate k 0) l).sum = 0 := by
      intro k
      induction k with
      | zero => simp
      | succ k ih => intro l; cases l with
        | nil => simp
        | cons a l => simp [List.replicate_succ, ih]
    exact this _ _
  simpa [h0] using this

end Scheme
end Pyphs
