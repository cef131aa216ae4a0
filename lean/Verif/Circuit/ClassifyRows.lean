/-
The implicit equations of a method, read by the name of the variable.
-/
import Verif.Circuit.Classify

namespace Pyphs
namespace Circuit
open Scheme Core Graph Finset

/-- The equation of the variable `l`, with the gradient `d`: terms are read by name. -/
noncomputable def rowRes (c : Core ℝ) (fs : ℝ) (d : List Sc) (l : String) : Sc := fun e =>
  (if l ∈ c.x then fs * e (dn l) else e l)
  - ((c.x.zip d).map fun p => coef c l p.1 * p.2 e).sum
  - ((c.w.zip c.z).map fun p => coef c l p.1 * p.2 e).sum
  - ((c.y.zip c.u).map fun p => coef c l p.1 * e p.2).sum

theorem range_sum_zip {α : Type} (a : List String) (b : List α) (d : α) (h : a.length = b.length)
    (f : String → α → ℝ) :
    ∑ j ∈ range a.length, f (a.getD j "") (b.getD j d) = ((a.zip b).map fun p => f p.1 p.2).sum := by
  induction a generalizing b with
  | nil => simp
  | cons x a ih =>
    cases b with
    | nil => simp at h
    | cons z b =>
      rw [List.length_cons, Finset.sum_range_succ']
      simp only [List.getD_cons_succ, List.getD_cons_zero, List.zip_cons_cons, List.map_cons,
        List.sum_cons]
      rw [ih b (by simpa using h)]
      ring

theorem idxOf_getD {l : List String} (h : l.Nodup) {i : ℕ} (hi : i < l.length) :
    l.idxOf (l.getD i "") = i := by
  rw [List.getD_eq_getElem?_getD, List.getElem?_eq_getElem hi]
  exact h.idxOf_getElem i hi

theorem labels_getD_x {c : Core ℝ} {j : ℕ} (hj : j < c.x.length) :
    c.labels.getD j "" = c.x.getD j "" := by
  unfold labels
  rw [List.append_assoc, List.append_assoc, getD_append_left' _ _ hj]

theorem labels_getD_w {c : Core ℝ} {j : ℕ} (hj : j < c.w.length) :
    c.labels.getD (c.x.length + j) "" = c.w.getD j "" := by
  unfold labels
  rw [List.append_assoc, List.append_assoc, getD_append_right' _ _ (by omega),
    getD_append_left' _ _ (by omega), Nat.add_sub_cancel_left]

theorem labels_getD_y {c : Core ℝ} {j : ℕ} (hj : j < c.y.length) :
    c.labels.getD (c.x.length + c.w.length + j) "" = c.y.getD j "" := by
  unfold labels
  rw [List.append_assoc, getD_append_right' _ _ (by simp),
    getD_append_left' _ _ (by simp; omega)]
  congr 1; simp

theorem labels_length (c : Core ℝ) :
    c.labels.length = c.x.length + c.w.length + c.y.length + c.cy.length := by
  simp [labels]; omega

theorem coef_getD {c : Core ℝ} (h : c.labels.Nodup) {i j : ℕ} (hi : i < c.labels.length)
    (hj : j < c.labels.length) :
    coef c (c.labels.getD i "") (c.labels.getD j "") = c.M.e i j := by
  unfold coef
  rw [idxOf_getD h hi, idxOf_getD h hj]

theorem res_eq {c : Core ℝ} (h : WF c) {d : List Sc} (hd : c.dxH = some d) (o : Config) (n : ℕ)
    {r : ℕ} (hr : r < c.x.length + c.w.length) (e : Env ℝ) :
    (asMeth o n c).res r e = rowRes c o.fs d (c.labels.getD r "") e := by
  have hl := labels_length c
  have hdl := h.dxH d hd
  have hgx : (asMeth o n c).g.x = c.x := groups_x n
  have hdx : (asMeth o n c).dxH = d := by
    show c.dxH.getD [] = d
    rw [hd]; rfl
  unfold Meth.res rowRes
  rw [hgx, hdx]
  show (if r < c.x.length then o.fs * e (dn (c.x.getD r "")) else e (c.w.getD (r - c.x.length) ""))
    - (∑ j ∈ range c.x.length, c.M.e r j * vals d e j +
      ∑ j ∈ range c.w.length, c.M.e r (c.x.length + j) * vals c.z e j)
    - ∑ k ∈ range c.y.length, c.M.e r (c.x.length + c.w.length + k) * svals c.u e k = _
  have h1 : ∑ j ∈ range c.x.length, c.M.e r j * vals d e j =
      ((c.x.zip d).map fun p => coef c (c.labels.getD r "") p.1 * p.2 e).sum := by
    rw [← range_sum_zip c.x d (fun _ => 0) hdl.symm
      (fun p f => coef c (c.labels.getD r "") p * f e)]
    refine sum_congr rfl fun j hj => ?_
    have hj' := mem_range.1 hj
    rw [← labels_getD_x hj', coef_getD h.nodup (by omega) (by omega)]
    rfl
  have h2 : ∑ j ∈ range c.w.length, c.M.e r (c.x.length + j) * vals c.z e j =
      ((c.w.zip c.z).map fun p => coef c (c.labels.getD r "") p.1 * p.2 e).sum := by
    rw [← range_sum_zip c.w c.z (fun _ => 0) h.wz
      (fun p f => coef c (c.labels.getD r "") p * f e)]
    refine sum_congr rfl fun j hj => ?_
    have hj' := mem_range.1 hj
    rw [← labels_getD_w hj', coef_getD h.nodup (by omega) (by omega)]
    rfl
  have h3 : ∑ k ∈ range c.y.length, c.M.e r (c.x.length + c.w.length + k) * svals c.u e k =
      ((c.y.zip c.u).map fun p => coef c (c.labels.getD r "") p.1 * e p.2).sum := by
    rw [← range_sum_zip c.y c.u "" h.uy.symm
      (fun p f => coef c (c.labels.getD r "") p * e f)]
    refine sum_congr rfl fun j hj => ?_
    have hj' := mem_range.1 hj
    rw [← labels_getD_y hj', coef_getD h.nodup (by omega) (by omega)]
    rfl
  have h0 : (if r < c.x.length then o.fs * e (dn (c.x.getD r ""))
      else e (c.w.getD (r - c.x.length) "")) =
      if c.labels.getD r "" ∈ c.x then o.fs * e (dn (c.labels.getD r ""))
      else e (c.labels.getD r "") := by
    by_cases hx : r < c.x.length
    · have hm : c.labels.getD r "" ∈ c.x := by rw [labels_getD_x hx]; exact getD_mem' _ hx
      rw [if_pos hx, if_pos hm, labels_getD_x hx]
    · obtain ⟨j, rfl⟩ : ∃ j, r = c.x.length + j := ⟨r - c.x.length, by omega⟩
      have hj : j < c.w.length := by omega
      have hm : c.labels.getD (c.x.length + j) "" ∉ c.x := by
        rw [labels_getD_w hj]
        have := h.nodup
        unfold labels at this
        rw [List.append_assoc, List.append_assoc] at this
        intro hh
        exact (List.nodup_append.1 this).2.2 _ hh _
          (List.mem_append_left _ (getD_mem' _ hj)) rfl
      rw [if_neg hx, if_neg hm, labels_getD_w hj]
      congr 2
      omega
  rw [h0, h1, h2, h3]
  ring

theorem ite_lt {p : Prop} [Decidable p] {a b k : ℕ} (h : p → a < k) (h' : ¬ p → b < k) :
    (if p then a else b) < k := by
  split_ifs with hp
  · exact h hp
  · exact h' hp

/-- Every implicit equation of a method is the equation of a variable. -/
theorem F_row {c c0 : Core ℝ} (h : Kept c0 c) {d : List Sc} (hd : c.dxH = some d) (o : Config)
    (n : ℕ) (a : Sfx) {i : ℕ} (hi : i < ((asMeth o n c).v a).length) :
    ∃ l ∈ c.x ++ c.w, (asMeth o n c).F a i = rowRes c o.fs d l := by
  have hm := asMeth_wf h o n hd
  have hgx : (asMeth o n c).g.x = c.x := groups_x n
  set e0 : Env ℝ := fun _ => 0
  set r := (asMeth o n c).row a i e0 with hr
  have hrow : ∀ e, (asMeth o n c).row a i e = r := fun e => rfl
  have hrl : r < c.x.length + c.w.length := by
    have h1 := v_length hm e0 a
    rw [h1] at hi
    have h2 := xl_le (asMeth o n c)
    have h3 := hm.wl
    have h3' : c.wl ≤ c.w.length := h3
    rw [hgx] at h2
    rw [hr]
    refine ite_lt (fun hh => ?_) (fun hh => ?_) <;>
      (cases a <;> simp only [Sfx.x, Sfx.w, dim, deb, Meth.core, hgx] at hi hh ⊢ <;>
        simp only [asMeth] at hi h2 hh ⊢ <;> omega)
  refine ⟨c.labels.getD r "", ?_, ?_⟩
  · unfold labels
    rw [List.append_assoc, getD_append_left' _ _ (by simp; exact hrl)]
    exact getD_mem' _ (by simp; exact hrl)
  · funext e
    rw [F_eq_res hm e a hi, hrow, res_eq h.wf hd o n hrl]

/-- Conversely, the equation of every variable is an implicit equation. -/
theorem row_F {c c0 : Core ℝ} (h : Kept c0 c) {d : List Sc} (hd : c.dxH = some d) (o : Config)
    (n : ℕ) {l : String} (hl : l ∈ c.x ++ c.w) :
    ∃ i < c.x.length + c.w.length, (asMeth o n c).F .all i = rowRes c o.fs d l := by
  have hm := asMeth_wf h o n hd
  obtain ⟨i, hi, rfl⟩ := List.mem_iff_getElem.1 hl
  have hi' : i < c.x.length + c.w.length := by simpa using hi
  have hgx : (asMeth o n c).g.x = c.x := groups_x n
  refine ⟨i, hi', ?_⟩
  have hv : i < ((asMeth o n c).v .all).length := by
    simp only [Meth.v, Sfx.pick, hgx, List.length_append, List.length_map]
    exact hi'
  funext e
  rw [F_eq_res hm e .all hv, row_all, res_eq h.wf hd o n hi']
  congr 1
  unfold labels
  rw [List.append_assoc, getD_append_left' _ _ hi, List.getD_eq_getElem?_getD,
    List.getElem?_eq_getElem hi]
  rfl

theorem mem_labels_w {c : Core ℝ} {p : String × Sc} (h : p ∈ c.w.zip c.z) : p.1 ∈ c.labels := by
  have := (List.of_mem_zip h).1
  simp [labels, this]

/-- The equations of two cores of the same system differ by their gradients. -/
theorem rowRes_same {c c' : Core ℝ} (h : SameSystem c c') (fs : ℝ) (d d' : List Sc) {l : String}
    (hl : l ∈ c.x ++ c.w) (e : Env ℝ) :
    rowRes c' fs d' l e + ((c'.x.zip d').map fun p => coef c' l p.1 * p.2 e).sum =
      rowRes c fs d l e + ((c.x.zip d).map fun p => coef c l p.1 * p.2 e).sum := by
  have hll : l ∈ c.labels := by
    unfold labels; rw [List.append_assoc]; exact List.mem_append_left _ hl
  have e1 : ((c'.w.zip c'.z).map fun p => coef c' l p.1 * p.2 e).sum =
      ((c.w.zip c.z).map fun p => coef c l p.1 * p.2 e).sum := by
    rw [(h.laws.map _).sum_eq]
    congr 1
    exact List.map_congr_left fun p hp => by rw [h.coef l hll _ (mem_labels_w hp)]
  have e2 : ((c'.y.zip c'.u).map fun p => coef c' l p.1 * e p.2).sum =
      ((c.y.zip c.u).map fun p => coef c l p.1 * e p.2).sum := by
    rw [(h.ports.map _).sum_eq]
    congr 1
    refine List.map_congr_left fun p hp => ?_
    have : p.1 ∈ c.labels := by
      have := (List.of_mem_zip hp).1
      simp [labels, this]
    rw [h.coef l hll _ this]
  unfold rowRes
  rw [e1, e2]
  simp only [h.x.mem_iff]
  ring

end Circuit
end Pyphs
