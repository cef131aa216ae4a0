/-
Property C70: a step brings two states closer, in the norm of the energy.
-/
import Verif.Numeric.Unique
import Verif.Record.Power

namespace Pyphs
namespace Numeric
open Scheme Mat Finset

/-- Distances in a step: what the residuals add and what the dissipative laws remove. -/
theorem gap_step {m : Meth} (hw : MethWF m) (d : DiagSys m) (hfs : 0 < m.fs)
    (inp : ∀ k ∈ m.v .all, k ∉ m.u) {e e' : Env ℝ}
    (hM : ∀ i j, (m.M e).e i j = (m.M e').e i j) (hu : ∀ k ∈ m.u, e k = e' k)
    {h : ℕ → ℝ} {τ ρ ρ' : ℝ} (hτ : 1 / 2 ≤ τ) (hh : ∀ i, 0 ≤ h i)
    (hgrad : ∀ i < m.g.x.length, fn m i e - fn m i e' = h i *
      (e (m.g.x.getD i "") - e' (m.g.x.getD i "") + τ * (e (vn m i) - e' (vn m i))))
    (h1 : ∀ r < sz m, |m.res r e| ≤ ρ) (h2 : ∀ r < sz m, |m.res r e'| ≤ ρ') :
    ∑ i ∈ range m.g.x.length, h i * (e (m.g.x.getD i "") + e (vn m i) -
        (e' (m.g.x.getD i "") + e' (vn m i))) ^ 2 ≤
      ∑ i ∈ range m.g.x.length, h i * (e (m.g.x.getD i "") - e' (m.g.x.getD i "")) ^ 2 +
        2 / m.fs * ((ρ + ρ') * ∑ j ∈ range (sz m), |fn m j e - fn m j e'| -
          ∑ j ∈ range m.w.length, (e (vn m (m.g.x.length + j)) - e' (vn m (m.g.x.length + j))) *
            (fn m (m.g.x.length + j) e - fn m (m.g.x.length + j) e')) := by
  set a : ℕ → ℝ := fun j => fn m j e - fn m j e' with ha
  set v : ℕ → ℝ := fun j => e (vn m j) - e' (vn m j) with hv
  set r : ℕ → ℝ := fun j => m.res j e - m.res j e' with hr
  have hdiff : ∀ i < sz m, sc m i * v i = ∑ j ∈ range (sz m), (m.M e).e i j * a j + r i := by
    intro i hi
    simp only [hr]
    rw [res_fn, res_fn]
    have e3 : ∑ k ∈ range m.y.length, (m.M e).e i (m.g.x.length + m.w.length + k) * svals m.u e k =
        ∑ k ∈ range m.y.length, (m.M e').e i (m.g.x.length + m.w.length + k) * svals m.u e' k :=
      sum_congr rfl fun k hk => by
        rw [hM]
        congr 1
        exact hu _ (getD_mem (by rw [hw.uy]; exact mem_range.1 hk))
    have e4 : ∑ j ∈ range (sz m), (m.M e').e i j * fn m j e' =
        ∑ j ∈ range (sz m), (m.M e).e i j * fn m j e' := sum_congr rfl fun j _ => by rw [hM]
    simp only [ha, mul_sub, sum_sub_distrib, hv]
    rw [e4, e3]
    ring
  -- power of the difference
  have hpow : ∑ i ∈ range (sz m), sc m i * (v i * a i) ≤ (ρ + ρ') * ∑ j ∈ range (sz m), |a j| := by
    have hs : ∑ i ∈ range (sz m), sc m i * (v i * a i) =
        ∑ i ∈ range (sz m), a i * ∑ j ∈ range (sz m), (m.M e).e i j * a j +
          ∑ i ∈ range (sz m), a i * r i := by
      rw [← sum_add_distrib]
      refine sum_congr rfl fun i hi => ?_
      have := hdiff i (mem_range.1 hi)
      rw [← mul_add, ← this]; ring
    have hq := d.diss e a
    have hb : ∑ i ∈ range (sz m), a i * r i ≤ (ρ + ρ') * ∑ j ∈ range (sz m), |a j| := by
      rw [mul_sum]
      refine sum_le_sum fun i hi => ?_
      have q1 := h1 i (mem_range.1 hi)
      have q2 := h2 i (mem_range.1 hi)
      have q3 : |r i| ≤ ρ + ρ' := (abs_sub _ _).trans (add_le_add q1 q2)
      calc a i * r i ≤ |a i * r i| := le_abs_self _
        _ = |r i| * |a i| := by rw [abs_mul, mul_comm]
        _ ≤ _ := mul_le_mul_of_nonneg_right q3 (abs_nonneg _)
    rw [hs]; linarith
  have hsplit : ∑ i ∈ range (sz m), sc m i * (v i * a i) =
      ∑ i ∈ range m.g.x.length, m.fs * (v i * a i) +
        ∑ j ∈ range m.w.length, v (m.g.x.length + j) * a (m.g.x.length + j) := by
    unfold sz
    rw [sum_range_add]
    congr 1
    · refine sum_congr rfl fun i hi => ?_
      unfold sc; rw [if_pos (mem_range.1 hi)]
    · refine sum_congr rfl fun i hi => ?_
      unfold sc; rw [if_neg (by omega), one_mul]
  have hx : m.fs * ∑ i ∈ range m.g.x.length, v i * a i ≤ (ρ + ρ') * ∑ j ∈ range (sz m), |a j| -
      ∑ j ∈ range m.w.length, v (m.g.x.length + j) * a (m.g.x.length + j) := by
    rw [mul_sum]; linarith
  have hen : ∑ i ∈ range m.g.x.length, h i * (e (m.g.x.getD i "") + e (vn m i) -
        (e' (m.g.x.getD i "") + e' (vn m i))) ^ 2 ≤
      ∑ i ∈ range m.g.x.length, h i * (e (m.g.x.getD i "") - e' (m.g.x.getD i "")) ^ 2 +
        2 * ∑ i ∈ range m.g.x.length, v i * a i := by
    rw [mul_sum, ← sum_add_distrib]
    refine sum_le_sum fun i hi => ?_
    have hg := hgrad i (mem_range.1 hi)
    show _ ≤ _ + 2 * (v i * (fn m i e - fn m i e'))
    rw [hg]
    have hp : 0 ≤ (2 * τ - 1) * (h i * v i ^ 2) :=
      mul_nonneg (by linarith) (mul_nonneg (hh i) (sq_nonneg _))
    have hvi : v i = e (vn m i) - e' (vn m i) := rfl
    rw [← hvi] at *
    have : e (m.g.x.getD i "") + e (vn m i) - (e' (m.g.x.getD i "") + e' (vn m i)) =
        (e (m.g.x.getD i "") - e' (m.g.x.getD i "")) + v i := by rw [hvi]; ring
    rw [this]
    nlinarith
  refine hen.trans (add_le_add (le_refl _) ?_)
  rw [div_mul_eq_mul_div, mul_div_assoc]
  refine mul_le_mul_of_nonneg_left ?_ zero_le_two
  rw [le_div_iff₀ hfs, mul_comm]
  exact hx

/-- **C70**, one step. Two solutions (up to residuals `ρ`, `ρ'`) of the equations of a step with the same
inputs, from different states: if the gradient is `h (x + τ dx)` with `1/2 ≤ τ` and `0 ≤ h`, the
distance of the states at the end of the step is at most the distance at its beginning, up to the
residuals. -/
theorem C70_step {m : Meth} (hw : MethWF m) (d : DiagSys m) (hfs : 0 < m.fs)
    (inp : ∀ k ∈ m.v .all, k ∉ m.u) {e e' : Env ℝ}
    (hM : ∀ i j, (m.M e).e i j = (m.M e').e i j) (hu : ∀ k ∈ m.u, e k = e' k)
    {h : ℕ → ℝ} {τ ρ ρ' : ℝ} (hτ : 1 / 2 ≤ τ) (hh : ∀ i, 0 ≤ h i)
    (hgrad : ∀ i < m.g.x.length, fn m i e - fn m i e' = h i *
      (e (m.g.x.getD i "") - e' (m.g.x.getD i "") + τ * (e (vn m i) - e' (vn m i))))
    (hz : ∀ j < sz m, m.g.x.length ≤ j → 0 ≤ (e (vn m j) - e' (vn m j)) * (fn m j e - fn m j e'))
    (h1 : ∀ r < sz m, |m.res r e| ≤ ρ) (h2 : ∀ r < sz m, |m.res r e'| ≤ ρ') :
    ∑ i ∈ range m.g.x.length, h i * (e (m.g.x.getD i "") + e (vn m i) -
        (e' (m.g.x.getD i "") + e' (vn m i))) ^ 2 ≤
      ∑ i ∈ range m.g.x.length, h i * (e (m.g.x.getD i "") - e' (m.g.x.getD i "")) ^ 2 +
        2 / m.fs * ((ρ + ρ') * ∑ j ∈ range (sz m), |fn m j e - fn m j e'|) := by
  refine (gap_step hw d hfs inp hM hu hτ hh hgrad h1 h2).trans (add_le_add (le_refl _)
    (mul_le_mul_of_nonneg_left (sub_le_self _ ?_) (by positivity)))
  exact sum_nonneg fun j hj => hz _ (by have := mem_range.1 hj; unfold sz; omega) (by omega)

/-- The residuals of a converged update. -/
theorem res_le_tol {n : Num} (hn : n.WF) (hw : MethWF n.m) (hs : SplitOK n.m)
    {u p : Option (List ℝ)} {st st' : St Nm ℝ} (hl : st.args.length = n.all.length)
    (hu : n.update u p st = some st') (heps : 0 ≤ n.eps) (hc : Record.Converged n st') :
    ∀ r < sz n.m, |n.m.res r (n.E st')| ≤ n.tol := by
  obtain ⟨h1, h2, -⟩ := C59_consistent hn hw hs hl hu
  have hF : ∀ i < (n.m.v .all).length, |n.m.F .all i (n.E st')| ≤ n.tol := by
    intro i hi
    rcases rows hw (n.E st') hi with ⟨j, hj, e⟩ | ⟨j, hj, e⟩
    · rw [e, h1 j hj, abs_zero]
      unfold Num.tol
      split_ifs
      · exact le_refl _
      · exact heps
    · have h0 : 0 < n.nl := lt_of_le_of_lt (Nat.zero_le _) hj
      have ht : n.tol = n.eps := if_neg (by omega)
      rw [ht]
      obtain ⟨f, k, _, _, hf, hr, _, _⟩ := h2 h0
      rw [e, hf j hj]
      refine (abs_le_norm n f j).trans ?_
      rcases hc with hc | ⟨r, hr1, hr2⟩
      · omega
      · rw [hr] at hr1
        simp only [Option.some.injEq, NV.s.injEq] at hr1
        rw [hr1]; exact hr2
  intro r hr
  rw [← v_all_length] at hr
  have := hF r hr
  rwa [F_eq_res hw _ .all hr, row_all] at this

end Numeric
end Pyphs
