/-
Property C74: the equations of a step have exactly one solution.
-/
import Verif.Numeric.Monotone
import Verif.Numeric.Unique

namespace Pyphs
namespace Numeric
open Scheme Mat Finset

/-- **C74**, one step. For a system with a structure that creates no power and laws that are nondecreasing
functions of their own unknown, whatever the values of the other symbols (states, inputs,
parameters), there is exactly one choice of the unknowns that solves the equations of the step. -/
theorem C74_step {m : Meth} (hw : MethWF m) (hs : SplitOK m) (d : DiagSys m) (hfs : 0 < m.fs)
    (inp : ∀ k ∈ m.v .all, k ∉ m.u) (e : Env ℝ) :
    ∃! e' : Env ℝ, (∀ s ∉ m.v .all, e' s = e s) ∧ m.Solved e' := by
  classical
  have hsc : ∀ r, 0 < sc m r := fun r => by
    unfold sc; split_ifs
    · exact hfs
    · exact one_pos
  obtain ⟨v, hv⟩ := solution_exists (n := sz m) (M := fun i j => (m.M e).e i j) (D := fun i => sc m i)
    (f := fun i t => fn m i (Function.update e (vn m i) t))
    (fun a => by
      have := d.diss e fun j => if h : j < sz m then a ⟨j, h⟩ else 0
      rw [← Fin.sum_univ_eq_sum_range fun i => (if h : i < sz m then a ⟨i, h⟩ else 0) *
        ∑ j ∈ range (sz m), (m.M e).e i j * if h : j < sz m then a ⟨j, h⟩ else 0] at this
      refine le_trans (le_of_eq (sum_congr rfl fun i _ => ?_)) this
      rw [← Fin.sum_univ_eq_sum_range fun j => (m.M e).e i j * if h : j < sz m then a ⟨j, h⟩ else 0]
      simp)
    (fun i => hsc i)
    (fun i => continuous_iff_continuousAt.2 fun t => ((d.diff i i.2) e t).continuousAt)
    (fun i => mono_of_pdiff (d.diff i i.2) (d.mono i i.2) e)
    fun i => ∑ k ∈ range m.y.length, (m.M e).e i (m.g.x.length + m.w.length + k) * svals m.u e k
  -- the solution as values of the symbols
  set V : ℕ → ℝ := fun j => if h : j < sz m then v ⟨j, h⟩ else 0 with hV
  set e' : Env ℝ := fun s => if s ∈ m.v .all then V ((m.v .all).idxOf s) else e s with he'
  have hoff : ∀ s ∉ m.v .all, e' s = e s := fun s h => by rw [he']; simp [h]
  have hon : ∀ j (hj : j < sz m), e' (vn m j) = v ⟨j, hj⟩ := fun j hj => by
    rw [he']
    simp only [vn_mem hj, if_true]
    rw [← v_all_getD, idxOf_getD hs.nodup (by rw [v_all_length]; exact hj), hV]
    simp [hj]
  have hfn : ∀ j (hj : j < sz m), fn m j e' = fn m j (Function.update e (vn m j) (v ⟨j, hj⟩)) := by
    intro j hj
    refine eq_of_free (V := (m.v .all).filter (· ≠ vn m j)) (f := fn m j) (fun s hs => ?_)
      fun k hk e t => ?_
    · by_cases hs' : s = vn m j
      · rw [hs', Function.update_self, hon j hj]
      · rw [Function.update_of_ne hs']
        refine hoff s fun hh => hs (List.mem_filter.2 ⟨hh, by simpa using hs'⟩)
    · obtain ⟨q1, q2⟩ := List.mem_filter.1 hk
      exact d.own j hj k q1 (by simpa using q2) e t
  have hM : ∀ i j, (m.M e').e i j = (m.M e).e i j := fun i j =>
    eq_of_free (f := fun e => (m.M e).e i j) hoff fun k hk e t => d.Mfree k hk e t i j
  have hsol : m.Solved e' := by
    rw [solved_res hw]
    intro r hr
    rw [res_fn, hon r hr]
    have e1 := hv ⟨r, hr⟩
    have e2 : ∑ j ∈ range (sz m), (m.M e').e r j * fn m j e' =
        ∑ j : Fin (sz m), (m.M e).e r j * fn m j (Function.update e (vn m j) (v j)) := by
      rw [← Fin.sum_univ_eq_sum_range fun j => (m.M e').e r j * fn m j e']
      exact sum_congr rfl fun j _ => by rw [hM, hfn j j.2]
    have e3 : ∑ k ∈ range m.y.length, (m.M e').e r (m.g.x.length + m.w.length + k) * svals m.u e' k =
        ∑ k ∈ range m.y.length, (m.M e).e r (m.g.x.length + m.w.length + k) * svals m.u e k :=
      sum_congr rfl fun k hk => by
        rw [hM]
        congr 1
        exact hoff _ fun hh => inp _ hh (getD_mem (by rw [hw.uy]; exact mem_range.1 hk))
    rw [e2, e3, e1]
    ring
  refine ⟨e', ⟨hoff, hsol⟩, fun e'' ⟨q1, q2⟩ => ?_⟩
  exact C68_unique hw d hfs inp (fun s h => (q1 s h).trans (hoff s h).symm) q2 hsol

end Numeric
end Pyphs
