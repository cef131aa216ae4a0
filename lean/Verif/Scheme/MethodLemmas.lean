import Verif.Scheme.Method
import Verif.Core.PowerProps

namespace Pyphs
namespace Scheme
open Finset Mat Core

/-- Well-formedness of a method: consistent sizes, distinct names. -/
structure MethWF (m : Meth) : Prop where
  Mr : ∀ e, (m.M e).r = m.g.x.length + m.w.length + m.y.length
  Mc : ∀ e, (m.M e).c = m.g.x.length + m.w.length + m.y.length
  uy : m.u.length = m.y.length
  wz : m.w.length = m.z.length
  gx : m.dxH.length = m.g.x.length
  wl : m.wl ≤ m.w.length
  nodup : (m.g.x ++ m.w ++ m.y).Nodup

theorem MethWF.core {m : Meth} (h : MethWF m) (e : Env ℝ) : WF (m.core e) where
  Mr := by simp [Meth.core, tot, h.Mr]
  Mc := by simp [Meth.core, tot, h.Mc]
  uy := h.uy
  cucy := rfl
  wz := h.wz
  dxH := by
    intro d hd
    simp only [Meth.core, Option.some.injEq] at hd
    subst hd; exact h.gx
  xl := by simp [Meth.core, Groups.x]
  wl := h.wl
  nodup := by simpa [Meth.core, labels] using h.nodup

theorem xl_le (m : Meth) : m.g.xl.length ≤ m.g.x.length := by simp [Groups.x]

/-- Row of the full structure for component `i` of a suffix. -/
noncomputable def Meth.row (m : Meth) (s : Sfx) (i : ℕ) (e : Env ℝ) : ℕ :=
  if i < (m.core e).dim s.x then (m.core e).deb s.x + i
  else (m.core e).deb s.w + (i - (m.core e).dim s.x)

/-- Residual of row `r` of the full discrete structure equations. -/
noncomputable def Meth.res (m : Meth) (r : ℕ) (e : Env ℝ) : ℝ :=
  (if r < m.g.x.length then m.fs * e (dn (m.g.x.getD r "")) else e (m.w.getD (r - m.g.x.length) ""))
  - (∑ j ∈ range m.g.x.length, (m.M e).e r j * vals m.dxH e j +
     ∑ j ∈ range m.w.length, (m.M e).e r (m.g.x.length + j) * vals m.z e j)
  - ∑ k ∈ range m.y.length, (m.M e).e r (m.g.x.length + m.w.length + k) * svals m.u e k

theorem mv_vcat (A B : Mat ℝ) (h : A.c = B.c) (v : ℕ → ℝ) (i : ℕ) :
    (A.vcat B).mv v i = if i < A.r then A.mv v i else B.mv v (i - A.r) := by
  unfold mv vcat
  split_ifs with hi
  · simp [hi]
  · simp [hi, h]

theorem mv_hcat (A B : Mat ℝ) (v : ℕ → ℝ) (i : ℕ) :
    (A.hcat B).mv v i = A.mv v i + B.mv (fun j => v (A.c + j)) i := by
  unfold mv hcat
  rw [sum_range_add]
  congr 1
  · exact sum_congr rfl fun j hj => by simp [mem_range.1 hj]
  · exact sum_congr rfl fun j _ => by simp

theorem mv_diag (A B : Mat ℝ) (v : ℕ → ℝ) (i : ℕ) :
    (Mat.diag A B).mv v i = if i < A.r then A.mv v i
      else B.mv (fun j => v (A.c + j)) (i - A.r) := by
  unfold mv Mat.diag
  rw [sum_range_add]
  split_ifs with hi
  · rw [show (∑ x ∈ range B.c, (if i < A.r then if A.c + x < A.c then A.e i (A.c + x) else 0
      else if A.c + x < A.c then 0 else B.e (i - A.r) (A.c + x - A.c)) * v (A.c + x)) = 0 from
      sum_eq_zero fun j _ => by simp [hi], add_zero]
    exact sum_congr rfl fun j hj => by simp [hi, mem_range.1 hj]
  · rw [show (∑ x ∈ range A.c, (if i < A.r then if x < A.c then A.e i x else 0
      else if x < A.c then 0 else B.e (i - A.r) (x - A.c)) * v x) = 0 from
      sum_eq_zero fun j hj => by simp [hi, mem_range.1 hj], zero_add]
    exact sum_congr rfl fun j hj => by simp [hi]

theorem Mvv_mv {m : Meth} (h : MethWF m) (e : Env ℝ) (s t : Sfx) (φ : ℕ → ℝ) (i : ℕ) :
    (m.Mvv s t e).mv φ i =
      ∑ j ∈ range ((m.core e).dim t.x), (m.M e).e (m.row s i e) ((m.core e).deb t.x + j) * φ j +
      ∑ j ∈ range ((m.core e).dim t.w), (m.M e).e (m.row s i e) ((m.core e).deb t.w + j) *
        φ ((m.core e).dim t.x + j) := by
  have hc := h.core e
  have hg := fun a b => getMat_shape (m.core e) hc.Mr hc.Mc hc.xl hc.wl .M a b
  unfold Meth.Mvv
  dsimp only
  rw [mv_vcat _ _ (by simp [hcat, (hg _ _).2])]
  have hr : ((m.core e).getMat .M s.x t.x |>.hcat ((m.core e).getMat .M s.x t.w)).r =
    (m.core e).dim s.x := (hg s.x t.x).1
  rw [hr]
  have hM : (m.core e).M = m.M e := rfl
  unfold Meth.row
  split_ifs with hi
  · rw [mv_hcat]; unfold mv; simp only [(hg _ _).2, getMat_e, hM]
  · rw [mv_hcat]; unfold mv; simp only [(hg _ _).2, getMat_e, hM]

theorem Mvy_mv {m : Meth} (h : MethWF m) (e : Env ℝ) (s : Sfx) (φ : ℕ → ℝ) (i : ℕ) :
    (m.Mvy s e).mv φ i =
      ∑ k ∈ range m.y.length, (m.M e).e (m.row s i e) (m.g.x.length + m.w.length + k) * φ k := by
  have hc := h.core e
  have hg := fun a b => getMat_shape (m.core e) hc.Mr hc.Mc hc.xl hc.wl .M a b
  have hdy : (m.core e).deb .y = m.g.x.length + m.w.length := by
    simp only [deb, Meth.core]; have := xl_le m; have := h.wl; omega
  unfold Meth.Mvy
  dsimp only
  rw [mv_vcat _ _ (by simp [(hg _ _).2]), (hg _ _).1]
  have hM : (m.core e).M = m.M e := rfl
  have hdim : (m.core e).dim .y = m.y.length := rfl
  unfold Meth.row
  split_ifs with hi <;> (unfold mv; simp only [(hg _ _).2, getMat_e, hM, hdy, hdim])

theorem v_length {m : Meth} (h : MethWF m) (e : Env ℝ) (s : Sfx) :
    (m.v s).length = (m.core e).dim s.x + (m.core e).dim s.w := by
  have hx := xl_le m
  have hw := h.wl
  cases s <;>
    simp only [Meth.v, Sfx.pick, Sfx.x, Sfx.w, List.length_append, List.length_map,
      List.length_take, List.length_drop, dim, Meth.core] <;> omega

/-- Offset of a suffix: nonlinear variables come after the linear ones. -/
def Sfx.off (s : Sfx) (n : ℕ) : ℕ := match s with | .nl => n | _ => 0

/-- Elements of a picked list. -/
theorem pick_getD {α : Type} (s : Sfx) (n : ℕ) (l : List α) (d : α) {i : ℕ}
    (hi : i < (s.pick n l).length) :
    (s.pick n l).getD i d = l.getD (s.off n + i) d := by
  cases s with
  | all => simp [Sfx.pick, Sfx.off]
  | l =>
    simp only [Sfx.pick, List.length_take] at hi
    simp only [Sfx.pick, Sfx.off, Nat.zero_add]
    rw [List.getD_eq_getElem?_getD, List.getD_eq_getElem?_getD, List.getElem?_take,
      if_pos (by omega)]
  | nl =>
    simp only [Sfx.pick, Sfx.off, List.getD_eq_getElem?_getD, List.getElem?_drop]

theorem v_val {m : Meth} (h : MethWF m) (e : Env ℝ) (s : Sfx) {i : ℕ} (hi : i < (m.v s).length) :
    (if i < (m.core e).dim s.x then m.fs * svals (m.v s) e i else svals (m.v s) e i) =
    (if m.row s i e < m.g.x.length then m.fs * e (dn (m.g.x.getD (m.row s i e) ""))
      else e (m.w.getD (m.row s i e - m.g.x.length) "")) := by
  have hx := xl_le m
  have hw := h.wl
  rw [v_length h e s] at hi
  have hpx : (s.pick m.g.xl.length m.g.x).length = (m.core e).dim s.x := by
    cases s <;> simp [Sfx.pick, Sfx.x, dim, Meth.core, hx]
  have hpw : (s.pick m.wl m.w).length = (m.core e).dim s.w := by
    cases s <;> simp [Sfx.pick, Sfx.w, dim, Meth.core, hw]
  by_cases h1 : i < (m.core e).dim s.x
  · have e1 : svals (m.v s) e i = e (dn ((s.pick m.g.xl.length m.g.x).getD i "")) := by
      simp only [svals, Meth.v, List.getD_eq_getElem?_getD]
      rw [List.getElem?_append_left (by simp [hpx, h1])]
      simp [List.getElem?_eq_getElem (show i < (s.pick m.g.xl.length m.g.x).length by omega)]
    rw [pick_getD _ _ _ _ (by omega)] at e1
    have e2 : m.row s i e = s.off m.g.xl.length + i := by
      simp only [Meth.row, if_pos h1]; cases s <;> simp [Sfx.x, Sfx.off, deb, Meth.core]
    have e3 : m.row s i e < m.g.x.length := by
      rw [e2]; revert h1; cases s <;> simp [Sfx.x, Sfx.off, dim, Meth.core] <;> omega
    rw [if_pos h1, if_pos e3, e1, e2]
  · have e1 : svals (m.v s) e i = e ((s.pick m.wl m.w).getD (i - (m.core e).dim s.x) "") := by
      simp only [svals, Meth.v, List.getD_eq_getElem?_getD]
      rw [List.getElem?_append_right (by simp [hpx]; omega)]
      simp [hpx]
    rw [pick_getD _ _ _ _ (by omega)] at e1
    have e2 : m.row s i e = m.g.x.length +
        (s.off m.wl + (i - (m.core e).dim s.x)) := by
      simp only [Meth.row, if_neg h1]
      cases s <;> simp only [Sfx.x, Sfx.w, Sfx.off, deb, Meth.core] <;> omega
    rw [if_neg h1, if_neg (by omega), e1, e2, Nat.add_sub_cancel_left]

theorem I_mv {m : Meth} (h : MethWF m) (e : Env ℝ) (s : Sfx) (φ : ℕ → ℝ) {i : ℕ} (hi : i < (m.v s).length) :
    (m.I s e).mv φ i = if i < (m.core e).dim s.x then m.fs * φ i else φ i := by
  rw [v_length h e s] at hi
  unfold Meth.I
  dsimp only
  rw [mv_diag]
  have hr : (smul m.fs (eye ((m.core e).dim s.x))).r = (m.core e).dim s.x := rfl
  have hcc : (smul m.fs (eye ((m.core e).dim s.x))).c = (m.core e).dim s.x := rfl
  rw [hr, hcc]
  split_ifs with h1
  · rw [mv_smul_mat, mv_eye _ _ _ h1]
  · rw [mv_eye _ _ _ (by omega)]; congr 1; omega

/-- Values of `f` for a suffix. -/
theorem f_vals {m : Meth} (h : MethWF m) (e : Env ℝ) (s : Sfx) :
    (∀ j < (m.core e).dim s.x, vals (m.f s) e j =
      vals m.dxH e (s.off m.g.xl.length + j)) ∧
    (∀ j < (m.core e).dim s.w, vals (m.f s) e ((m.core e).dim s.x + j) =
      vals m.z e (s.off m.wl + j)) := by
  have hx := xl_le m
  have hw := h.wl
  have hpx : (s.pick m.g.xl.length m.dxH).length = (m.core e).dim s.x := by
    cases s <;> simp [Sfx.pick, Sfx.x, dim, Meth.core, h.gx, hx]
  have hpw : (s.pick m.wl m.z).length = (m.core e).dim s.w := by
    cases s <;> simp [Sfx.pick, Sfx.w, dim, Meth.core, hw, ← h.wz]
  constructor
  · intro j hj
    unfold vals
    rw [← pick_getD _ _ _ _ (by omega)]
    simp only [Meth.f, List.getD_eq_getElem?_getD]
    rw [List.getElem?_append_left (by omega)]
  · intro j hj
    unfold vals
    rw [← pick_getD _ _ _ _ (by omega)]
    simp only [Meth.f, List.getD_eq_getElem?_getD]
    rw [List.getElem?_append_right (by omega), hpx, Nat.add_sub_cancel_left]

/-- Every component of `tempF`, `tempFl`, `tempFnl` is the residual of one row of the full
discrete equations. -/
theorem F_eq_res {m : Meth} (h : MethWF m) (e : Env ℝ) (s : Sfx) {i : ℕ}
    (hi : i < (m.v s).length) : m.F s i e = m.res (m.row s i e) e := by
  have hx := xl_le m
  have hw := h.wl
  have hsplit : ∀ r, (∑ j ∈ range m.g.xl.length, (m.M e).e r j * vals m.dxH e j +
      ∑ j ∈ range m.wl, (m.M e).e r (m.g.x.length + j) * vals m.z e j) +
      (∑ j ∈ range (m.g.x.length - m.g.xl.length), (m.M e).e r (m.g.xl.length + j) *
          vals m.dxH e (m.g.xl.length + j) +
       ∑ j ∈ range (m.w.length - m.wl), (m.M e).e r (m.g.x.length + m.wl + j) *
          vals m.z e (m.wl + j)) =
      ∑ j ∈ range m.g.x.length, (m.M e).e r j * vals m.dxH e j +
      ∑ j ∈ range m.w.length, (m.M e).e r (m.g.x.length + j) * vals m.z e j := by
    intro r
    rw [sum_range_split (fun j => (m.M e).e r j * vals m.dxH e j) _ _ hx,
      sum_range_split (fun j => (m.M e).e r (m.g.x.length + j) * vals m.z e j) _ _ hw]
    simp only [Nat.add_assoc]
    ring
  have hl : ∀ s', (m.Mvv s' .l e).mv (vals (m.f .l) e) i =
      ∑ j ∈ range m.g.xl.length, (m.M e).e (m.row s' i e) j * vals m.dxH e j +
      ∑ j ∈ range m.wl, (m.M e).e (m.row s' i e) (m.g.x.length + j) * vals m.z e j := by
    intro s'
    obtain ⟨f1, f2⟩ := f_vals h e .l
    rw [Mvv_mv h]
    congr 1
    · refine sum_congr rfl fun j hj => ?_
      rw [f1 j (mem_range.1 hj)]; simp [Sfx.x, Sfx.off, deb]
    · refine sum_congr rfl fun j hj => ?_
      rw [f2 j (mem_range.1 hj)]
      simp only [Sfx.w, Sfx.off, deb, Meth.core, Nat.zero_add]
      rw [show m.g.xl.length + (m.g.x.length - m.g.xl.length) = m.g.x.length by omega]
  have hnl : ∀ s', (m.Mvv s' .nl e).mv (vals (m.f .nl) e) i =
      ∑ j ∈ range (m.g.x.length - m.g.xl.length), (m.M e).e (m.row s' i e) (m.g.xl.length + j) *
          vals m.dxH e (m.g.xl.length + j) +
       ∑ j ∈ range (m.w.length - m.wl), (m.M e).e (m.row s' i e) (m.g.x.length + m.wl + j) *
          vals m.z e (m.wl + j) := by
    intro s'
    obtain ⟨f1, f2⟩ := f_vals h e .nl
    rw [Mvv_mv h]
    congr 1
    · refine sum_congr rfl fun j hj => ?_
      rw [f1 j (mem_range.1 hj)]; simp [Sfx.x, Sfx.off, deb, Meth.core]
    · refine sum_congr rfl fun j hj => ?_
      rw [f2 j (mem_range.1 hj)]
      simp only [Sfx.w, Sfx.off, deb, Meth.core]
      rw [show m.g.xl.length + (m.g.x.length - m.g.xl.length) = m.g.x.length by omega]
  have hall : (m.Mvv .all .all e).mv (vals (m.f .all) e) i =
      ∑ j ∈ range m.g.x.length, (m.M e).e (m.row .all i e) j * vals m.dxH e j +
      ∑ j ∈ range m.w.length, (m.M e).e (m.row .all i e) (m.g.x.length + j) * vals m.z e j := by
    obtain ⟨f1, f2⟩ := f_vals h e .all
    rw [Mvv_mv h]
    congr 1
    · refine sum_congr rfl fun j hj => ?_
      rw [f1 j (mem_range.1 hj)]; simp [Sfx.x, Sfx.off, deb]
    · refine sum_congr rfl fun j hj => ?_
      rw [f2 j (mem_range.1 hj)]; simp [Sfx.w, Sfx.off, deb, Meth.core]
  unfold Meth.res
  rw [← v_val h e s hi, ← I_mv h e s (svals (m.v s) e) hi, ← Mvy_mv h]
  cases s with
  | all => simp only [Meth.F, hall]
  | l => simp only [Meth.F]; rw [hl, hnl, ← hsplit]; ring
  | nl => simp only [Meth.F]; rw [hl, hnl, ← hsplit]; ring

end Scheme
end Pyphs
