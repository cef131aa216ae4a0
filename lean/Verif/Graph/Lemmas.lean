/-
The analysis on segmented lists of columns.
-/
import Verif.Graph.Model
import Verif.Core.MoveLemmas
import Mathlib.Logic.Relation
import Mathlib.Tactic.Ring

namespace Pyphs
namespace Graph
open Core (reorder MovedBy)

/-- An edge with its columns of the two matrices. -/
structure Col (K : Type) where
  edge : Edge K
  g : List ℤ
  l : List ℕ

variable {K : Type}

/-- The state of the analysis: `A`, `B`, `C` are the effort-controlled, indeterminate and
flux-controlled columns in the order of the lists. -/
structure Rep (st : St K) (A B C : List (Col K)) : Prop where
  edges : st.edges = (A ++ B ++ C).map (·.edge)
  G : st.G = (A ++ B ++ C).map (·.g)
  L : st.L = (A ++ B ++ C).map (·.l)
  ec : st.ec = List.range A.length
  ic : st.ic = List.range' A.length B.length
  fc : st.fc = List.range' (A.length + B.length) C.length

theorem reorder_map {α β : Type} (f : α → β) (new : List ℕ) (l : List α) :
    reorder new (l.map f) = (reorder new l).map (List.map f) := by
  unfold reorder
  induction new with
  | nil => simp
  | cons a new ih =>
    rw [List.mapM_cons, List.mapM_cons, ih]
    simp only [List.getElem?_map]
    cases l[a]? with
    | none => simp
    | some v => cases new.mapM (fun k => l[k]?) <;> simp

theorem eq_of_position {α : Type} {l' P Q : List α} {c : α} {f : ℕ}
    (h1 : l'[f]? = some c) (h2 : l'.eraseIdx f = P ++ Q) (hf : f = 0) : l' = c :: (P ++ Q) := by
  subst hf
  cases l' with
  | nil => simp at h1
  | cons a l =>
    simp only [List.getElem?_cons_zero, Option.some.injEq] at h1
    simp only [List.eraseIdx_zero, List.tail_cons] at h2
    rw [h1, h2]

theorem move_front {α : Type} (P Q : List α) (c : α) :
    ∃ new, myrange (P ++ c :: Q).length P.length 0 = some new ∧
      reorder new (P ++ c :: Q) = some (c :: (P ++ Q)) := by
  obtain ⟨new, l', h1, h2, h3⟩ := Core.reorder_myrange (l := P ++ c :: Q) (n := (P ++ c :: Q).length)
    (i := P.length) (f := 0) rfl (by simp) (by simp)
  refine ⟨new, h1, ?_⟩
  obtain ⟨p1, p2⟩ := h3.position (by simp) (by simp)
  rw [h2]
  congr 1
  refine eq_of_position (f := 0) ?_ ?_ rfl
  · rw [p1]; simp
  · rw [p2]; simp [List.eraseIdx_append_of_length_le]

theorem move_back {α : Type} (P Q : List α) (c : α) :
    ∃ new, myrange (P ++ c :: Q).length P.length ((P ++ c :: Q).length - 1) = some new ∧
      reorder new (P ++ c :: Q) = some (P ++ Q ++ [c]) := by
  have hpos : 0 < (P ++ c :: Q).length := by simp
  obtain ⟨new, l', h1, h2, h3⟩ := Core.reorder_myrange (l := P ++ c :: Q) (n := (P ++ c :: Q).length)
    (i := P.length) (f := (P ++ c :: Q).length - 1) rfl (by simp) (by omega)
  refine ⟨new, h1, ?_⟩
  obtain ⟨p1, p2⟩ := h3.position (by simp) (by omega)
  rw [h2]
  congr 1
  have e : (P ++ c :: Q).eraseIdx P.length = P ++ Q := by
    simp [List.eraseIdx_append_of_length_le]
  rw [e] at p2
  have hl : l'.length = (P ++ c :: Q).length := h3.1
  have hlt : (P ++ c :: Q).length - 1 < l'.length := by omega
  have hc : l'[(P ++ c :: Q).length - 1]'hlt = c := by
    rw [List.getElem?_eq_getElem hlt] at p1
    have : (P ++ c :: Q)[P.length]? = some c := by simp
    rw [this] at p1
    exact Option.some.inj p1
  have hsplit : l' = l'.take ((P ++ c :: Q).length - 1) ++ [c] := by
    conv_lhs => rw [← List.take_append_drop ((P ++ c :: Q).length - 1) l']
    congr 1
    rw [List.drop_eq_getElem_cons hlt, hc, List.drop_eq_nil_of_le (by omega)]
  have herase : l'.eraseIdx ((P ++ c :: Q).length - 1) = l'.take ((P ++ c :: Q).length - 1) := by
    rw [List.eraseIdx_eq_take_drop_succ, List.drop_eq_nil_of_le (by omega), List.append_nil]
  rw [herase] at p2
  rw [hsplit, p2]

theorem length_eq {st : St K} {A B C : List (Col K)} (h : Rep st A B C) :
    st.edges.length = A.length + B.length + C.length := by
  rw [h.edges]; simp; omega

/-- Zero column. -/
def zeros (c : List ℕ) : List ℕ := c.map fun _ => 0

theorem moveEdge_front {st : St K} {A P Q C : List (Col K)} {c : Col K}
    (h : Rep st A (P ++ c :: Q) C) :
    moveEdge st (A.length + P.length) 0 = .ok { st with
      edges := (c :: (A ++ (P ++ Q) ++ C)).map (·.edge)
      G := (c :: (A ++ (P ++ Q) ++ C)).map (·.g)
      L := (c :: (A ++ (P ++ Q) ++ C)).map (·.l) } := by
  obtain ⟨new, h1, h2⟩ := move_front (A ++ P) (Q ++ C) c
  have e : A ++ (P ++ c :: Q) ++ C = A ++ P ++ c :: (Q ++ C) := by simp
  have e' : c :: (A ++ (P ++ Q) ++ C) = c :: (A ++ P ++ (Q ++ C)) := by simp
  have hl : st.edges.length = (A ++ P ++ c :: (Q ++ C)).length := by rw [h.edges, e]; simp
  rw [show (A ++ P).length = A.length + P.length from List.length_append] at h1
  unfold moveEdge
  rw [hl, h1]
  simp only [h.edges, h.G, h.L, e, e', reorder_map, h2, Option.map_some]

theorem moveEdge_back {st : St K} {A P Q C : List (Col K)} {c : Col K}
    (h : Rep st A (P ++ c :: Q) C) :
    moveEdge st (A.length + P.length) (st.edges.length - 1) = .ok { st with
      edges := (A ++ (P ++ Q) ++ (C ++ [c])).map (·.edge)
      G := (A ++ (P ++ Q) ++ (C ++ [c])).map (·.g)
      L := (A ++ (P ++ Q) ++ (C ++ [c])).map (·.l) } := by
  obtain ⟨new, h1, h2⟩ := move_back (A ++ P) (Q ++ C) c
  have e : A ++ (P ++ c :: Q) ++ C = A ++ P ++ c :: (Q ++ C) := by simp
  have e' : A ++ (P ++ Q) ++ (C ++ [c]) = A ++ P ++ (Q ++ C) ++ [c] := by simp
  have hl : st.edges.length = (A ++ P ++ c :: (Q ++ C)).length := by rw [h.edges, e]; simp
  rw [show (A ++ P).length = A.length + P.length from List.length_append] at h1
  unfold moveEdge
  rw [hl, h1]
  simp only [h.edges, h.G, h.L, e, e', reorder_map, h2, Option.map_some]

theorem range_take (n k : ℕ) (h : k ≤ n) : (List.range n).take k = List.range k := by
  rw [List.take_range, Nat.min_eq_left h]

theorem range_drop (n k : ℕ) : (List.range n).drop k = List.range' k (n - k) := by
  rw [List.range_eq_range', List.drop_range']; simp

theorem range_slice (n a b : ℕ) (h : b ≤ n) : slice (List.range n) a b = List.range' a (b - a) := by
  unfold slice
  rw [range_take n b h, range_drop]

theorem rep_moveEc {st : St K} {A P Q C : List (Col K)} {c : Col K}
    (h : Rep st A (P ++ c :: Q) C) :
    ∃ st', moveEc st (A.length + P.length) = .ok st' ∧
      Rep st' ({ c with l := zeros c.l } :: A) (P ++ Q) C ∧
      st'.icn = st.icn ∧ st'.nodes = st.nodes := by
  unfold moveEc
  rw [moveEdge_front h]
  refine ⟨_, rfl, ⟨?_, ?_, ?_, ?_, ?_, ?_⟩, rfl, rfl⟩
  · simp
  · simp
  · simp only [List.map_cons, zeroCol, List.modify_zero_cons, List.cons_append]
    rfl
  · simp only [h.ec, List.length_range]
    rw [range_take _ _ (by simp)]
    simp
  · simp only [h.ec, h.fc, List.length_range, List.length_range', List.length_map]
    split
    · rw [range_slice _ _ _ (by omega)]
      simp only [List.length_cons, List.length_append]
      congr 1
      omega
    · rename_i h0
      have h0 : C.length = 0 := by omega
      rw [range_drop]
      simp only [List.length_cons, List.length_append, h0]
      congr 1
      omega
  · simp only [h.fc, List.length_range', List.length_map]
    split
    · rename_i h0
      rw [range_drop]
      simp only [List.length_cons, List.length_append]
      congr 1 <;> omega
    · rename_i h0
      have h0 : C.length = 0 := by omega
      rw [h0]; rfl

theorem rep_moveFc {st : St K} {A P Q C : List (Col K)} {c : Col K}
    (h : Rep st A (P ++ c :: Q) C) :
    ∃ st', moveFc st (A.length + P.length) = .ok st' ∧
      Rep st' A (P ++ Q) (C ++ [c]) ∧ st'.icn = st.icn ∧ st'.nodes = st.nodes := by
  unfold moveFc
  rw [moveEdge_back h]
  refine ⟨_, rfl, ⟨rfl, rfl, rfl, ?_, ?_, ?_⟩, rfl, rfl⟩
  · simp only [h.ec, List.length_range]
    rw [range_take _ _ (by simp)]
  · simp only [h.ec, h.fc, List.length_range, List.length_range', List.length_map]
    rw [range_slice _ _ _ (by omega)]
    simp only [List.length_cons, List.length_append, List.length_nil]
    congr 1
    omega
  · simp only [h.fc, List.length_range', List.length_map]
    rw [range_drop]
    simp only [List.length_cons, List.length_append, List.length_nil]
    congr 1 <;> omega

/-- Position of an indeterminate edge. -/
theorem mem_ic {st : St K} {A B C : List (Col K)} (h : Rep st A B C) {e : ℕ} (he : e ∈ st.ic) :
    ∃ P c Q, B = P ++ c :: Q ∧ e = A.length + P.length := by
  rw [h.ic, List.mem_range'_1] at he
  have hlt : e - A.length < B.length := by omega
  refine ⟨B.take (e - A.length), B[e - A.length], B.drop (e - A.length + 1), ?_, ?_⟩
  · rw [List.getElem_cons_drop, List.take_append_drop]
  · rw [List.length_take]; omega

theorem mem_fc {st : St K} {A B C : List (Col K)} (h : Rep st A B C) {e : ℕ} (he : e ∈ st.fc) :
    ∃ P c Q, C = P ++ c :: Q ∧ e = A.length + B.length + P.length := by
  rw [h.fc, List.mem_range'_1] at he
  have hlt : e - (A.length + B.length) < C.length := by omega
  refine ⟨C.take (e - (A.length + B.length)), C[e - (A.length + B.length)],
    C.drop (e - (A.length + B.length) + 1), ?_, ?_⟩
  · rw [List.getElem_cons_drop, List.take_append_drop]
  · rw [List.length_take]; omega

end Graph
end Pyphs
