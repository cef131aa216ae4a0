/-
Property C68: the equations of a step of a system with monotone laws have at most one solution.
-/
import Verif.Numeric.NonsingProps
import Mathlib.Analysis.Calculus.Deriv.MeanValue

namespace Pyphs
namespace Numeric
open Scheme Mat Finset

/-- A function that does not depend on the symbols of a list. -/
theorem eq_of_free {α : Type} {f : Env ℝ → α} : ∀ {V : List String} {e e' : Env ℝ},
    (∀ s ∉ V, e s = e' s) → (∀ k ∈ V, ∀ e t, f (Function.update e k t) = f e) → f e = f e'
  | [], e, e', h, _ => by rw [show e = e' from funext fun s => h s (by simp)]
  | k :: V, e, e', h, hf => by
    rw [← hf k (by simp) e (e' k)]
    refine eq_of_free (V := V) (fun s hs => ?_) fun l hl => hf l (by simp [hl])
    by_cases hsk : s = k
    · subst hsk; simp
    · rw [Function.update_of_ne hsk]
      exact h s (by simp [hsk, hs])

/-- Functions with a nonnegative derivative are nondecreasing. -/
theorem mono_of_pdiff {f : Sc} {k : String} (hd : CDiff f k) (h : ∀ e, 0 ≤ pdiff f k e) (e : Env ℝ) :
    Monotone fun t => f (Function.update e k t) := by
  refine monotone_of_deriv_nonneg (hd e) fun t => ?_
  have := h (Function.update e k t)
  rw [pdiff_update] at this
  exact this

theorem row_all (m : Meth) (i : ℕ) (e : Env ℝ) : m.row .all i e = i := by
  have : m.row .all i e = if i < m.g.x.length then 0 + i
    else m.g.x.length + (i - m.g.x.length) := rfl
  rw [this]
  split_ifs <;> omega

theorem solved_res {m : Meth} (hw : MethWF m) (e : Env ℝ) :
    m.Solved e ↔ ∀ r < sz m, m.res r e = 0 := by
  unfold Meth.Solved
  rw [v_all_length]
  refine forall_congr' fun i => imp_congr_right fun hi => ?_
  rw [F_eq_res hw e .all (by rw [v_all_length]; exact hi), row_all]

/-- **C68**: two solutions of the equations of a step that agree on all the other symbols (states, inputs,
parameters) are equal. -/
theorem C68_unique {m : Meth} (hw : MethWF m) (d : DiagSys m) (hfs : 0 < m.fs)
    (inp : ∀ k ∈ m.v .all, k ∉ m.u) {e e' : Env ℝ} (h : ∀ s ∉ m.v .all, e s = e' s)
    (h1 : m.Solved e) (h2 : m.Solved e') : e = e' := by
  rw [solved_res hw] at h1 h2
  have hM : ∀ i j, (m.M e).e i j = (m.M e').e i j := fun i j =>
    eq_of_free (f := fun e => (m.M e).e i j) h fun k hk e t => d.Mfree k hk e t i j
  have hu : ∀ k < m.y.length, svals m.u e k = svals m.u e' k := fun k hk => by
    unfold svals
    refine h _ fun hh => inp _ hh (getD_mem (by rw [hw.uy]; exact hk))
  have hsc : ∀ r, 0 < sc m r := fun r => by
    unfold sc; split_ifs
    · exact hfs
    · exact one_pos
  set a : ℕ → ℝ := fun j => fn m j e - fn m j e' with ha
  set v : ℕ → ℝ := fun j => e (vn m j) - e' (vn m j) with hv
  -- the difference of the equations
  have hdiff : ∀ r < sz m, sc m r * v r = ∑ j ∈ range (sz m), (m.M e).e r j * a j := by
    intro r hr
    have e1 := h1 r hr
    have e2 := h2 r hr
    rw [res_fn] at e1 e2
    have e3 : ∑ k ∈ range m.y.length, (m.M e).e r (m.g.x.length + m.w.length + k) * svals m.u e k =
        ∑ k ∈ range m.y.length, (m.M e').e r (m.g.x.length + m.w.length + k) * svals m.u e' k :=
      sum_congr rfl fun k hk => by rw [hM, hu k (mem_range.1 hk)]
    have e4 : ∑ j ∈ range (sz m), (m.M e').e r j * fn m j e' =
        ∑ j ∈ range (sz m), (m.M e).e r j * fn m j e' := sum_congr rfl fun j _ => by rw [hM]
    simp only [ha, mul_sub, sum_sub_distrib, hv]
    rw [e4] at e2
    linarith
  -- laws as functions of their own unknown
  have hfn : ∀ j < sz m, fn m j e' = fn m j (Function.update e (vn m j) (e' (vn m j))) := by
    intro j hj
    refine (eq_of_free (V := (m.v .all).filter (· ≠ vn m j)) (f := fn m j) (fun s hs => ?_)
      fun k hk e t => ?_).symm
    · by_cases hs' : s = vn m j
      · rw [hs', Function.update_self]
      · rw [Function.update_of_ne hs']
        refine h s fun hh => hs (List.mem_filter.2 ⟨hh, by simpa using hs'⟩)
    · obtain ⟨q1, q2⟩ := List.mem_filter.1 hk
      exact d.own j hj k q1 (by simpa using q2) e t
  have hself : ∀ j, fn m j e = fn m j (Function.update e (vn m j) (e (vn m j))) := fun j => by
    rw [Function.update_eq_self]
  have hmono : ∀ j < sz m, 0 ≤ v j * a j := by
    intro j hj
    have hm := mono_of_pdiff (d.diff j hj) (d.mono j hj) e
    simp only [hv, ha]
    rw [hfn j hj, hself j]
    rcases le_total (e (vn m j)) (e' (vn m j)) with hle | hle
    · have := hm hle
      simp only at this
      exact mul_nonneg_of_nonpos_of_nonpos (by linarith) (by linarith)
    · have := hm hle
      simp only at this
      exact mul_nonneg (by linarith) (by linarith)
  have hzero : ∀ j < sz m, a j = 0 := by
    have hq := d.diss e a
    have hs : ∑ i ∈ range (sz m), a i * ∑ j ∈ range (sz m), (m.M e).e i j * a j =
        ∑ i ∈ range (sz m), sc m i * (v i * a i) := sum_congr rfl fun i hi => by
      rw [← hdiff i (mem_range.1 hi)]; ring
    rw [hs] at hq
    have hn : ∀ i ∈ range (sz m), 0 ≤ sc m i * (v i * a i) := fun i hi =>
      mul_nonneg (hsc i).le (hmono i (mem_range.1 hi))
    intro j hj
    have h0 := (sum_eq_zero_iff_of_nonneg hn).1 (le_antisymm hq (sum_nonneg hn)) j (mem_range.2 hj)
    rcases mul_eq_zero.1 ((mul_eq_zero.1 h0).resolve_left (hsc j).ne') with hv0 | ha0
    · simp only [ha]
      rw [hfn j hj, hself j, show e (vn m j) = e' (vn m j) by simp only [hv] at hv0; linarith]
      exact sub_self _
    · exact ha0
  have hvz : ∀ j < sz m, e (vn m j) = e' (vn m j) := by
    intro j hj
    have h0 := hdiff j hj
    rw [sum_eq_zero fun i hi => by rw [hzero i (mem_range.1 hi), mul_zero]] at h0
    have := (mul_eq_zero.1 h0).resolve_left (hsc j).ne'
    simp only [hv] at this
    linarith
  funext s
  by_cases hs : s ∈ m.v .all
  · obtain ⟨i, hi, rfl⟩ := List.mem_iff_getElem.1 hs
    have e1 := v_all_getD m i
    rw [List.getD_eq_getElem?_getD, List.getElem?_eq_getElem hi, Option.getD_some] at e1
    rw [e1]
    exact hvz i (by rw [← v_all_length]; exact hi)
  · exact h s hs

/-- When an update returns with nothing to iterate, or with a zero residual, the equations hold. -/
theorem solved_of_update {n : Num} (hn : n.WF) (hw : MethWF n.m) (hs : SplitOK n.m)
    {u p : Option (List ℝ)} {st st' : St Nm ℝ} (hl : st.args.length = n.all.length)
    (hu : n.update u p st = some st') (hcv : n.nl = 0 ∨ st'.vals .res_Fnl = some (.s 0)) :
    n.m.Solved (n.E st') := by
  obtain ⟨a1, a2, -⟩ := C59_consistent hn hw hs hl hu
  intro i hi
  rcases Numeric.rows hw (n.E st') hi with ⟨j, hj, e⟩ | ⟨j, hj, e⟩
  · rw [e]; exact a1 j hj
  · have h0 : 0 < n.nl := lt_of_le_of_lt (Nat.zero_le _) hj
    obtain ⟨f, k, -, -, hf, hr, -⟩ := a2 h0
    rw [e, hf j hj]
    rcases hcv with hcv | hcv
    · omega
    · rw [hr] at hcv
      simp only [Option.some.injEq, NV.s.injEq] at hcv
      have := abs_le_norm n f j
      rw [hcv] at this
      exact abs_eq_zero.1 (le_antisymm this (abs_nonneg _))

end Numeric
end Pyphs
