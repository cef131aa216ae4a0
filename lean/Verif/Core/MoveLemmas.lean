import Verif.Core.Spec
import Verif.Tools.Lemmas
import Verif.Mat.Lemmas

namespace Pyphs
namespace Core
open Finset

theorem reorder_some {α : Type} {new : List ℕ} {l : List α} (h : ∀ k ∈ new, k < l.length) :
    ∃ l', reorder new l = some l' ∧ l'.length = new.length ∧
      ∀ k : ℕ, l'[k]? = (new[k]?).bind (fun i : ℕ => l[i]?) := by
  induction new with
  | nil => exact ⟨[], by simp [reorder], rfl, by simp⟩
  | cons a new ih =>
    obtain ⟨l', h1, h2, h3⟩ := ih fun k hk => h k (List.mem_cons_of_mem _ hk)
    have ha : a < l.length := h a (by simp)
    refine ⟨l[a] :: l', ?_, by simp [h2], ?_⟩
    · unfold reorder at h1 ⊢
      rw [List.mapM_cons, h1]
      simp [List.getElem?_eq_getElem ha]
    · intro k
      cases k with
      | zero => simp [List.getElem?_eq_getElem ha]
      | succ k => simpa using h3 k

theorem reorder_length {α : Type} {new : List ℕ} {l l' : List α} (h : reorder new l = some l') :
    l'.length = new.length := by
  induction new generalizing l' with
  | nil => simp [reorder] at h; simp [← h]
  | cons a new ih =>
    unfold reorder at h ih
    rw [List.mapM_cons] at h
    cases ha : l[a]? with
    | none => simp [ha] at h
    | some b =>
      cases hm : new.mapM (fun k => l[k]?) with
      | none => simp [ha, hm] at h
      | some m => simp [ha, hm] at h; simp [← h, ih hm]

/-- `l'` is `l` with entry `i` moved to position `f`, entry-wise. -/
def MovedBy {α : Type} (i f : ℕ) (l l' : List α) : Prop :=
  l'.length = l.length ∧ ∀ k < l.length, l'[k]? = l[mrIdx i f k]?

theorem reorder_myrange {α : Type} {n i f : ℕ} {l : List α} (hn : l.length = n) (hi : i < n)
    (hf : f < n) :
    ∃ new l', myrange n i f = some new ∧ reorder new l = some l' ∧ MovedBy i f l l' := by
  have hm := myrange_eq_map n i f hi
  rw [show min f (n - 1) = f by omega] at hm
  obtain ⟨l', h1, h2, h3⟩ := reorder_some (l := l) (new := (List.range n).map (mrIdx i f)) (by
    intro k hk
    simp only [List.mem_map, List.mem_range] at hk
    obtain ⟨a, ha, rfl⟩ := hk
    rw [hn]; exact mrIdx_lt hi hf ha)
  refine ⟨_, l', hm, h1, by simp [h2, hn], fun k hk => ?_⟩
  rw [h3 k]
  have : k < n := hn ▸ hk
  simp [this]

theorem MovedBy.perm {α : Type} {i f : ℕ} {l l' : List α} (h : MovedBy i f l l')
    (hi : i < l.length) (hf : f < l.length) : l'.Perm l := by
  obtain ⟨hlen, he⟩ := h
  have e1 : l'.map some = (List.range l.length).map (fun k => l[mrIdx i f k]?) := by
    apply List.ext_getElem?
    intro k
    by_cases hk : k < l.length
    · have := he k hk
      simp only [List.getElem?_map, List.getElem?_range hk, Option.map_some, ← this]
      rw [List.getElem?_eq_getElem (hlen ▸ hk)]; simp
    · simp only [List.getElem?_map]
      rw [List.getElem?_eq_none (by omega), List.getElem?_eq_none (by simpa using hk)]; simp
  have e2 : l.map some = (List.range l.length).map (fun k => l[k]?) := by
    apply List.ext_getElem?
    intro k
    by_cases hk : k < l.length
    · simp [hk]
    · simp [hk]
  have hp : (l'.map some).Perm (l.map some) := by
    rw [e1, e2]
    have := (perm_range_of_inj (mrIdx_injective i f) fun k hk => mrIdx_lt hi hf hk).map
      (fun k => l[k]?) (l₁ := (List.range l.length).map (mrIdx i f)) (l₂ := List.range l.length)
    rwa [List.map_map] at this
  have := hp.filterMap id
  simpa [List.filterMap_map] using this

theorem MovedBy.zip {α β : Type} {i f : ℕ} {l l' : List α} {m m' : List β}
    (h : MovedBy i f l l') (h' : MovedBy i f m m') (hlm : l.length = m.length)
    (hi : i < l.length) (hf : f < l.length) :
    MovedBy i f (l.zip m) (l'.zip m') := by
  refine ⟨by simp [h.1, h'.1], fun k hk => ?_⟩
  have hk1 : k < l.length := by simp at hk; omega
  have hk2 : k < m.length := by omega
  have e1 := h.2 k hk1
  have e2 := h'.2 k hk2
  have hi1 := mrIdx_lt hi hf hk1
  have hi2 : mrIdx i f k < m.length := by omega
  have hk1' : k < l'.length := by rw [h.1]; exact hk1
  have hk2' : k < m'.length := by rw [h'.1]; exact hk2
  rw [List.getElem?_eq_getElem hk1', List.getElem?_eq_getElem hi1, Option.some_inj] at e1
  rw [List.getElem?_eq_getElem hk2', List.getElem?_eq_getElem hi2, Option.some_inj] at e2
  rw [List.getElem?_eq_getElem (by simp; omega), List.getElem?_eq_getElem (by simp; omega)]
  simp [e1, e2]

theorem mrIdx_shift (a i f k : ℕ) : mrIdx (a + i) (a + f) (a + k) = a + mrIdx i f k := by
  unfold mrIdx
  split_ifs <;> omega

theorem mrIdx_outside {i f a b k : ℕ} (hi : a ≤ i) (hi' : i < b) (hf : a ≤ f) (hf' : f < b)
    (hk : k < a ∨ b ≤ k) : mrIdx i f k = k := by
  unfold mrIdx
  split_ifs <;> omega

theorem MovedBy.append {α : Type} {i f : ℕ} {A B B' C : List α} (h : MovedBy i f B B')
    (hi : i < B.length) (hf : f < B.length) :
    MovedBy (A.length + i) (A.length + f) (A ++ B ++ C) (A ++ B' ++ C) := by
  refine ⟨by simp [h.1], fun k hk => ?_⟩
  by_cases h1 : k < A.length
  · rw [mrIdx_outside (a := A.length) (b := A.length + B.length) (by omega) (by omega) (by omega)
      (by omega) (Or.inl h1)]
    rw [List.append_assoc, List.append_assoc, List.getElem?_append_left h1,
      List.getElem?_append_left h1]
  · by_cases h2 : k < A.length + B.length
    · obtain ⟨k', rfl⟩ := Nat.exists_eq_add_of_le (not_lt.1 h1)
      have hk' : k' < B.length := by omega
      have e : ∀ (X Y : List α) (j : ℕ), (A ++ X ++ Y)[A.length + j]? = (X ++ Y)[j]? := by
        intro X Y j
        rw [List.append_assoc, List.getElem?_append_right (by omega), Nat.add_sub_cancel_left]
      rw [mrIdx_shift, e, e, List.getElem?_append_left (by rw [h.1]; exact hk'),
        List.getElem?_append_left (mrIdx_lt hi hf hk'), h.2 k' hk']
    · rw [mrIdx_outside (a := A.length) (b := A.length + B.length) (by omega) (by omega)
        (by omega) (by omega) (Or.inr (by omega))]
      rw [List.getElem?_append_right (by simp [h.1]; omega),
        List.getElem?_append_right (by simp; omega)]
      simp [h.1]

theorem MovedBy.getD {i f : ℕ} {l l' : List String} (h : MovedBy i f l l') {k : ℕ}
    (hk : k < l.length) : l'.getD k "" = l.getD (mrIdx i f k) "" := by
  rw [List.getD_eq_getElem?_getD, List.getD_eq_getElem?_getD, h.2 k hk]

theorem MovedBy.position {α : Type} {i f : ℕ} {l l' : List α} (h : MovedBy i f l l')
    (hi : i < l.length) (hf : f < l.length) :
    l'[f]? = l[i]? ∧ l'.eraseIdx f = l.eraseIdx i := by
  constructor
  · rw [h.2 f hf]; simp [mrIdx]
  · apply List.ext_getElem?
    intro k
    rw [List.getElem?_eraseIdx, List.getElem?_eraseIdx]
    by_cases hk : k + 1 < l.length
    · split_ifs with h1 h2 h2
      · rw [h.2 k (by omega)]; congr 1; unfold mrIdx; split_ifs <;> omega
      · rw [h.2 k (by omega)]; congr 1; unfold mrIdx; split_ifs <;> omega
      · rw [h.2 (k+1) (by omega)]; congr 1; unfold mrIdx; split_ifs <;> omega
      · rw [h.2 (k+1) (by omega)]; congr 1; unfold mrIdx; split_ifs <;> omega
    · have hl := h.1
      split_ifs with h1 h2 h2
      · omega
      · omega
      · rw [List.getElem?_eq_none (by omega)]
        symm
        rw [List.getElem?_eq_none (by omega)]
      · rw [List.getElem?_eq_none (by omega)]
        symm
        rw [List.getElem?_eq_none (by omega)]

variable {K : Type} [Field K] [DecidableEq K]

theorem sum_mrIdx {n i f : ℕ} (hi : i < n) (hf : f < n) (g : ℕ → K) :
    ∑ j ∈ range n, g (mrIdx i f j) = ∑ j ∈ range n, g j :=
  Finset.sum_nbij' (mrIdx i f) (mrIdx f i)
    (fun a ha => Finset.mem_range.2 (mrIdx_lt hi hf (Finset.mem_range.1 ha)))
    (fun a ha => Finset.mem_range.2 (mrIdx_lt hf hi (Finset.mem_range.1 ha)))
    (fun a _ => mrIdx_inv i f a) (fun a _ => mrIdx_inv f i a) (fun _ _ => rfl)

/-- `M'` is `M` with row and column `i` moved to `f`. -/
def MatMoved (n i f : ℕ) (M M' : Mat K) : Prop :=
  M'.r = n ∧ M'.c = n ∧ ∀ a < n, ∀ b < n, M'.e a b = M.e (mrIdx i f a) (mrIdx i f b)

theorem moveSquare_spec {M : Mat K} {n i f : ℕ} (hr : M.r = n) (hc : M.c = n) (hi : i < n)
    (hf : f < n) : ∃ M', moveSquare M i f = some M' ∧ MatMoved n i f M M' := by
  have hm := myrange_eq_map n i f hi
  rw [show min f (n - 1) = f by omega] at hm
  have hall : ∀ k ∈ (List.range n).map (mrIdx i f), k < n := by
    intro k hk
    simp only [List.mem_map, List.mem_range] at hk
    obtain ⟨a, ha, rfl⟩ := hk
    exact mrIdx_lt hi hf ha
  refine ⟨_, by
    unfold moveSquare
    rw [hr, hm]
    simp only [Option.bind_eq_bind, Option.bind_some, Mat.select]
    rw [if_pos ⟨by rw [hr]; exact hall, by rw [hc]; exact hall⟩], by simp, by simp, ?_⟩
  intro a ha b hb
  simp [List.getD_eq_getElem?_getD, ha, hb]

theorem moveCoreM_spec {c : Core K} {n i f : ℕ} (hr : c.M.r = n) (hc : c.M.c = n) (hi : i < n)
    (hf : f < n) : ∃ M', c.moveCoreM i f = some { c with M := M' } ∧ MatMoved n i f c.M M' := by
  unfold moveCoreM
  split_ifs with hz
  · refine ⟨c.M, rfl, hr, hc, fun a ha b hb => ?_⟩
    rw [hz a (hr ▸ ha) b (hc ▸ hb),
      hz _ (hr ▸ mrIdx_lt hi hf ha) _ (hc ▸ mrIdx_lt hi hf hb)]
  · obtain ⟨M', h1, h2⟩ := moveSquare_spec hr hc hi hf
    exact ⟨M', by rw [h1]; rfl, h2⟩

theorem structEq_moved {n i f : ℕ} {l l' : List String} {M M' : Mat K} (hn : l.length = n)
    (hl : MovedBy i f l l') (hM : MatMoved n i f M M') (hi : i < n) (hf : f < n) (β α : Env K) :
    StructEq l' M' β α ↔ StructEq l M β α := by
  have hn' : l'.length = n := hl.1.trans hn
  have key : ∀ a < n, (β (l'.getD a "") = ∑ j ∈ range n, M'.e a j * α (l'.getD j "")) ↔
      (β (l.getD (mrIdx i f a) "") = ∑ j ∈ range n, M.e (mrIdx i f a) j * α (l.getD j "")) := by
    intro a ha
    rw [hl.getD (hn ▸ ha)]
    rw [← sum_mrIdx hi hf (fun j => M.e (mrIdx i f a) j * α (l.getD j ""))]
    rw [Finset.sum_congr rfl fun j hj => by
      rw [hM.2.2 a ha j (Finset.mem_range.1 hj), hl.getD (hn ▸ (Finset.mem_range.1 hj))]]
  unfold StructEq
  rw [hn, hn']
  constructor
  · intro h a ha
    have := (key (mrIdx f i a) (mrIdx_lt hf hi ha)).1 (h _ (mrIdx_lt hf hi ha))
    rwa [mrIdx_inv] at this
  · intro h a ha
    exact (key a ha).2 (h _ (mrIdx_lt hi hf ha))

theorem labels_length (c : Core K) : c.labels.length = c.tot := by
  simp [labels, tot]; omega

end Core
end Pyphs
