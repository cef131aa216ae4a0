/-
Initialisation, iteration, unlocking.
-/
import Verif.Graph.Inv

namespace Pyphs
namespace Graph
open Core (reorder)

variable {K : Type}

/-! ### Renumbering of the nodes -/

theorem set_idxOf_perm {l : List ℕ} {o n : ℕ} (h : o ∈ l) :
    (l.set (l.idxOf o) n).Perm (n :: l.erase o) := by
  have hlt := List.idxOf_lt_length_of_mem h
  have e1 : l.set (l.idxOf o) n = l.take (l.idxOf o) ++ n :: l.drop (l.idxOf o + 1) :=
    List.set_eq_take_append_cons_drop .. |>.trans (by simp [hlt])
  have e2 : l.erase o = l.take (l.idxOf o) ++ l.drop (l.idxOf o + 1) := by
    rw [List.erase_eq_eraseIdx_of_idxOf (w := rfl), List.eraseIdx_eq_take_drop_succ]
  rw [e1, e2]
  exact List.perm_middle

theorem renumber_perm : ∀ (olds news icn done : List ℕ), olds.length = news.length →
    olds.Nodup → (∀ o ∈ olds, o ∈ icn) →
    (∀ o ∈ olds, o ∉ done) →
    ∃ r, renumber icn (olds.zip news) = .ok r ∧ (r ++ olds).Perm (icn ++ news) := by
  intro olds
  induction olds with
  | nil =>
    intro news icn done hl _ _ _
    have : news = [] := List.length_eq_zero_iff.1 hl.symm
    subst this
    exact ⟨icn, rfl, by simp⟩
  | cons o olds ih =>
    intro news icn done hl hn hm hd
    cases news with
    | nil => simp at hl
    | cons n news =>
      have ho : o ∈ icn := hm o (List.mem_cons_self ..)
      have hp := set_idxOf_perm (n := n) ho
      have hm' : ∀ x ∈ olds, x ∈ icn.set (icn.idxOf o) n := by
        intro x hx
        rw [hp.mem_iff]
        refine List.mem_cons_of_mem _ ((List.mem_erase_of_ne ?_).2 (hm x (List.mem_cons_of_mem _ hx)))
        rintro rfl
        exact (List.nodup_cons.1 hn).1 hx
      obtain ⟨r, h1, h2⟩ := ih news (icn.set (icn.idxOf o) n) done (by simpa using hl)
        (List.nodup_cons.1 hn).2 hm' (fun x hx => hd x (List.mem_cons_of_mem _ hx))
      refine ⟨r, ?_, ?_⟩
      · rw [List.zip_cons_cons, renumber, if_pos ho, h1]
      · have h3 : (r ++ o :: olds).Perm (o :: (r ++ olds)) := List.perm_middle
        refine h3.trans ((h2.cons o).trans ?_)
        have h4 : (icn.set (icn.idxOf o) n ++ news).Perm (n :: icn.erase o ++ news) :=
          hp.append_right _
        refine (h4.cons o).trans ?_
        have h5 : (o :: icn.erase o).Perm icn := (List.perm_cons_erase ho).symm
        have h6 : (icn ++ n :: news).Perm (n :: (icn ++ news)) := List.perm_middle
        refine List.Perm.trans ?_ h6.symm
        rw [List.cons_append]
        refine (List.Perm.swap n o _).trans (List.Perm.cons n ?_)
        rw [← List.cons_append]
        exact h5.append_right _

/-! ### Initial state -/

/-- Columns of the initial state. -/
def startCol (nodes : List String) (d : Edge K) : Col K :=
  ⟨d, incidence nodes d, ((incidence nodes d).map Int.natAbs).set 0 0⟩

/-- The nodes, the reference first. -/
def refFirst (nodes : List String) : List String := datum :: nodes.erase datum

theorem split_datum {nodes : List String} (h : datum ∈ nodes) :
    ∃ P Q, nodes = P ++ datum :: Q ∧ nodes.idxOf datum = P.length ∧
      refFirst nodes = datum :: (P ++ Q) := by
  have hlt := List.idxOf_lt_length_of_mem h
  refine ⟨nodes.take (nodes.idxOf datum), nodes.drop (nodes.idxOf datum + 1), ?_, ?_, ?_⟩
  · conv_lhs => rw [← List.take_append_drop (nodes.idxOf datum) nodes]
    congr 1
    rw [List.drop_eq_getElem_cons hlt, List.getElem_idxOf]
  · simp; omega
  · rw [refFirst, List.erase_eq_eraseIdx_of_idxOf (w := rfl), List.eraseIdx_eq_take_drop_succ]

theorem mapM_reorder {α β : Type} (new : List ℕ) (cols : List α) (f g : α → List β)
    (h : ∀ c ∈ cols, reorder new (f c) = some (g c)) :
    (cols.map f).mapM (reorder new) = some (cols.map g) := by
  induction cols with
  | nil => rfl
  | cons c cols ih =>
    rw [List.map_cons, List.mapM_cons, h c (List.mem_cons_self ..),
      ih fun x hx => h x (List.mem_cons_of_mem _ hx)]
    rfl

theorem start_rep (nodes : List String) (edges : List (Edge K)) (h : datum ∈ nodes) :
    ∃ st I, start nodes edges = .ok st ∧ I.Perm (List.range' 1 (nodes.length - 1)) ∧
      RepS (refFirst nodes) st ⟨[], edges.map (startCol (refFirst nodes)), [], I⟩ := by
  obtain ⟨P, Q, hPQ, hidx, href⟩ := split_datum h
  obtain ⟨new, h1, h2⟩ := move_front P Q datum
  have hperm : new.Perm (List.range nodes.length) := by
    have := myrange_perm h1 (by simp)
    rw [← hPQ] at this
    exact this
  have hlen : new.length = nodes.length := by simpa using hperm.length_eq
  obtain ⟨r, hr1, hr2⟩ := renumber_perm (List.range nodes.length) new (List.range nodes.length) []
    (by simp [hlen]) List.nodup_range (fun _ h => h) (fun _ _ h => by simp at h)
  have hrp : r.Perm (List.range nodes.length) := by
    have : (r ++ List.range nodes.length).Perm (List.range nodes.length ++ List.range nodes.length) :=
      hr2.trans (hperm.append_left _)
    exact (List.perm_append_right_iff _).1 this
  have hpos : 0 < nodes.length := List.length_pos_of_mem h
  have h0 : 0 ∈ r := by rw [hrp.mem_iff]; simpa using hpos
  have hre : reorder new nodes = some (refFirst nodes) := by rw [href, hPQ]; exact h2
  have hG : (edges.map (incidence nodes)).mapM (reorder new) =
      some (edges.map (incidence (refFirst nodes))) := by
    apply mapM_reorder
    intro d _
    unfold incidence
    rw [reorder_map, hre]; rfl
  have hL : ((edges.map (incidence nodes)).map fun c => c.map Int.natAbs).mapM (reorder new) =
      some (edges.map fun d => (incidence (refFirst nodes) d).map Int.natAbs) := by
    rw [List.map_map]
    apply mapM_reorder
    intro d _
    unfold incidence
    simp only [Function.comp]
    rw [reorder_map, reorder_map, hre]; rfl
  have hmr : myrange nodes.length (nodes.idxOf datum) 0 = some new := by
    rw [hidx, ← h1, ← hPQ]
  refine ⟨⟨refFirst nodes, edges, edges.map (incidence (refFirst nodes)),
    zeroRow (edges.map fun d => (incidence (refFirst nodes) d).map Int.natAbs) 0, [],
    List.range edges.length, [], r.erase 0⟩, r.erase 0, ?_, ?_, ?_⟩
  rotate_left
  · have : (r.erase 0).Perm ((List.range nodes.length).erase 0) := hrp.erase 0
    refine this.trans ?_
    obtain ⟨m, hm⟩ : ∃ m, nodes.length = m + 1 := ⟨nodes.length - 1, by omega⟩
    rw [hm, List.range_succ_eq_map, List.erase_cons_head]
    simp only [Nat.add_sub_cancel]
    rw [List.range'_eq_map_range]
    simp [Nat.add_comm]
  rotate_left
  · unfold start
    simp only [h, if_true, moveNode, hmr, hre, hG, hL, hr1, bind, Except.bind]
    have e1 : indexOf datum (refFirst nodes) = .ok 0 := by
      unfold indexOf refFirst; simp
    have e2 : indexOf 0 r = .ok (r.idxOf 0) := by unfold indexOf; simp [h0]
    simp only [e1, e2]
  · refine ⟨⟨?_, ?_, ?_, ?_, ?_, ?_⟩, rfl, rfl⟩
    · simp [startCol, Function.comp_def]
    · simp [startCol, Function.comp_def]
    · simp [startCol, Function.comp_def, zeroRow]
    · simp
    · simp [List.range_eq_range']
    · simp

/-- Node `n` is not the reference. -/
def Free (nodes : List String) (n : ℕ) : Prop := 0 < n ∧ n < nodes.length

theorem incidence_le (nodes : List String) (d : Edge K) (n : ℕ) :
    ((incidence nodes d).map Int.natAbs).getD n 0 ≤ 1 := by
  unfold incidence
  simp only [List.getD_eq_getElem?_getD, List.getElem?_map]
  cases nodes[n]? with
  | none => simp
  | some v =>
    simp only [Option.map_some, Option.getD_some]
    split <;> [simp; split <;> [simp; split <;> simp]]

variable [Inv K]

theorem start_invar {nodes : List String} {edges : List (Edge K)} {I : List ℕ}
    (hl : (edges.map (·.label)).Nodup) (hI : I.Perm (List.range' 1 (nodes.length - 1)))
    (hd : datum ∈ nodes) :
    Invar (refFirst nodes) edges (Free nodes)
      (⟨[], edges.map (startCol (refFirst nodes)), [], I⟩ : Seg K) := by
  have hlen : (refFirst nodes).length = nodes.length := by
    rw [refFirst, List.length_cons, List.length_erase_of_mem hd]
    have := List.length_pos_of_mem hd
    omega
  have hat : ∀ (d : Edge K) n, (startCol (refFirst nodes) d).at n =
      if n = 0 then 0 else ((incidence (refFirst nodes) d).map Int.natAbs).getD n 0 := by
    intro d n
    unfold Col.at startCol
    simp only
    rw [getD_set]
    by_cases hn : n = 0
    · subst hn
      by_cases h2 : 0 < ((incidence (refFirst nodes) d).map Int.natAbs).length
      · rw [if_pos ⟨rfl, h2⟩, if_pos rfl]
      · rw [List.length_pos_iff, not_not] at h2
        simp [h2]
    · simp [hn]
  have hall : ∀ c ∈ (⟨[], edges.map (startCol (refFirst nodes)), [], I⟩ : Seg K).all,
      ∃ d, c = startCol (refFirst nodes) d := by
    intro c hc
    simp only [Seg.all, List.nil_append, List.append_nil, List.mem_map] at hc
    obtain ⟨d, _, rfl⟩ := hc
    exact ⟨d, rfl⟩
  have hmemI : ∀ n, n ∈ I ↔ Free nodes n := by
    intro n
    rw [hI.mem_iff, List.mem_range'_1, Free]
    omega
  refine ⟨⟨[], rfl, ?_⟩, ?_, ⟨?_, ?_, ?_, ?_, ?_, ?_, ?_⟩, ?_⟩
  · simp [startCol, Function.comp_def]
  · intro c hc
    obtain ⟨d, rfl⟩ := hall c hc
    rfl
  · intro c hc n
    obtain ⟨d, rfl⟩ := hall c hc
    rw [hat]
    split
    · omega
    · exact incidence_le _ _ _
  · intro c hc n h1
    obtain ⟨d, rfl⟩ := hall c hc
    have hlt := lt_of_at h1
    rw [hat] at h1
    split at h1
    · omega
    · refine ⟨by omega, ?_⟩
      simp only [startCol, incidence, List.length_set, List.length_map, hlen] at hlt
      exact hlt
  · intro c hc n h1
    obtain ⟨d, rfl⟩ := hall c hc
    rw [hat] at h1
    split at h1
    · omega
    · intro h0
      change (incidence (refFirst nodes) d).getD n 0 = 0 at h0
      simp only [List.getD_eq_getElem?_getD, List.getElem?_map] at h0 h1
      cases hx : (incidence (refFirst nodes) d)[n]? with
      | none => rw [hx] at h1; simp at h1
      | some v => rw [hx] at h0 h1; simp at h0 h1; omega
  · exact hI.nodup_iff.2 List.nodup_range'
  · intro n hn
    exact (hmemI n).1 hn
  · intro c hc; simp at hc
  · intro n hf hn
    exact absurd ((hmemI n).2 hf) hn
  · simpa [Seg.labels, Seg.all, startCol, Function.comp_def] using hl

/-! ### The initial loop -/

/-- `Good`: an edge that may impose a node is in the list of a flux-controlled edge, or the node
is indeterminate. -/
theorem Good.indet {free : ℕ → Prop} {s : Seg K} (hs : Good free s) {c : Col K}
    (hc : c ∈ s.B) {n : ℕ} (h1 : c.at n = 1) : n ∈ s.I := by
  by_contra hn
  obtain ⟨P, c', Q, e1, e2, e3⟩ := hs.det n (hs.ref c (by simp [Seg.all, hc]) n h1) hn
  have := e3 c (by simp [hc])
  omega

theorem initLoop_out {nodes : List String} {nodes0 : List String} {edges : List (Edge K)}
    {free : ℕ → Prop} : ∀ (k i : ℕ) (st : St K) (s : Seg K),
    RepS nodes st s → Invar nodes0 edges free s → s.B.length - i < k →
    Out nodes s (fun _ => True) (initLoop k i st) := by
  intro k
  induction k with
  | zero => intro i st s h hn hk; omega
  | succ k ih =>
    intro i st s h hn hk
    unfold initLoop
    cases hi : st.ic[i]? with
    | none => exact ⟨s, .refl, h, trivial⟩
    | some e =>
      obtain ⟨hlt, he⟩ := List.getElem?_eq_some_iff.1 hi
      have hlt' : i < s.B.length := by simpa [h.1.ic] using hlt
      have hmem : e ∈ st.ic := he ▸ List.getElem_mem hlt
      have hrange : s.A.length ≤ e ∧ e < s.A.length + s.B.length := by
        rw [h.1.ic, List.mem_range'_1] at hmem; exact hmem
      have hall : e < s.all.length := by simp [Seg.all]; omega
      have hedge : st.edges[e]? = some s.all[e].edge := by
        rw [h.1.edges, List.getElem?_map]
        have : (s.A ++ s.B ++ s.C)[e]? = some s.all[e] := List.getElem?_eq_getElem hall
        rw [this]; rfl
      have hB : s.all[e] ∈ s.B := by
        simp only [Seg.all, List.append_assoc]
        rw [List.getElem_append_right hrange.1, List.getElem_append_left (by omega)]
        exact List.getElem_mem _
      have hcol := h.col hall
      simp only [hedge]
      split
      · refine (setEdge_out h hn.labels hmem (by rw [length_eq h.1]; omega)).bind ?_
        intro st' t' hr' ht' hl'
        exact ih i st' t' ht' (hn.reach hr'.any) (by omega)
      · unfold colSum
        rw [hcol]
        split
        · rename_i h1
          have hm := one_mem_of_sum _ h1
          have hg := getD_idxOf hm
          have hI : s.all[e].l.idxOf 1 ∈ s.I := hn.good.indet hB hg
          simp only [h.2.1, hI, if_true]
          refine (setNodeDc_ic h hn.labels hI (List.getElem?_eq_getElem hall) hrange.1 (by omega)
            hg).bind ?_
          intro st' t' hr' ht' hl'
          exact ih i st' t' ht' (hn.reach hr'.any) (by omega)
        · refine (setEdge_out h hn.labels hmem (by rw [length_eq h.1]; omega)).bind ?_
          intro st' t' hr' ht' hl'
          exact ih i st' t' ht' (hn.reach hr'.any) (by omega)
      · exact ih (i + 1) st s h hn (by omega)

/-! ### Iteration -/

/-- Number of undecided edges and nodes. -/
def Seg.todo (s : Seg K) : ℕ := s.B.length + s.I.length

theorem Step.todo {s t : Seg K} (h : Step s t) : t.todo < s.todo := by
  cases h with
  | ec => simp [Seg.todo]
  | fc => simp [Seg.todo]
  | dcB A P c Q C I n hI h1 =>
    have := List.length_erase_of_mem hI
    have := List.length_pos_of_mem hI
    simp [Seg.todo]; omega
  | dcC A B P c Q I n hI h1 =>
    have := List.length_erase_of_mem hI
    have := List.length_pos_of_mem hI
    simp [Seg.todo]; omega

theorem Reach.todo {s t : Seg K} (h : Reach s t) : s = t ∨ t.todo < s.todo := by
  induction h with
  | refl => exact Or.inl rfl
  | tail _ h ih =>
    right
    rcases ih with rfl | ih
    · exact h.todo
    · exact h.todo.trans ih

omit [Inv K] in
theorem RepS.unique {nodes : List String} {st st' : St K} {s : Seg K} (h : RepS nodes st s)
    (h' : RepS nodes st' s) : st = st' := by
  obtain ⟨⟨a1, a2, a3, a4, a5, a6⟩, a7, a8⟩ := h
  obtain ⟨⟨b1, b2, b3, b4, b5, b6⟩, b7, b8⟩ := h'
  cases st; cases st'
  simp_all

omit [Inv K] in
theorem RepS.todo {nodes : List String} {st : St K} {s : Seg K} (h : RepS nodes st s) :
    st.ic.length + st.icn.length = s.todo := by
  rw [h.1.ic, h.2.1]; simp [Seg.todo]

theorem isequal_self (A : List (List ℕ)) : isequal A A = true := by
  unfold isequal
  rw [List.all_eq_true]
  intro b hb
  rw [List.zipWith_self] at hb
  obtain ⟨a, _, rfl⟩ := List.mem_map.1 hb
  simp [List.zipWith_self]

/-- `iteration` ends; when nothing was left to decide by its moves, the state is unchanged and a
fixed point of a turn of the loop. -/
def OutIter (nodes : List String) (s : Seg K) (idle : Prop) :
    Except Err (St K × List (List ℕ)) → Prop
  | .ok (st, temp) => isequal temp st.L = true ∧ ∃ t, Reach s t ∧ RepS nodes st t ∧
      (t = s → idle)
  | .error x => x = .assertion ∨ x = .value ∨ x = .undefinedPotential

theorem iterationLoop_out {nodes : List String} : ∀ (k : ℕ) (temp : List (List ℕ)) (st : St K)
    (s : Seg K), RepS nodes st s → s.labels.Nodup →
    (s.todo + 2 ≤ k ∨ (isequal temp st.L = true ∧ 1 ≤ k)) →
    OutIter nodes s (isequal temp st.L = true ∨ pass st = .ok st) (iterationLoop k temp st) := by
  intro k
  induction k with
  | zero => intro temp st s h hn hk; omega
  | succ k ih =>
    intro temp st s h hn hk
    unfold iterationLoop
    split
    · rename_i heq
      exact ⟨heq, s, .refl, h, fun _ => Or.inl heq⟩
    · rename_i heq
      have hk' : s.todo + 2 ≤ k + 1 := by
        rcases hk with hk | hk
        · exact hk
        · exact absurd hk.1 heq
      have hp := pass_out h hn
      cases hpass : pass st with
      | error x => rw [hpass] at hp; exact hp
      | ok st' =>
        rw [hpass] at hp
        obtain ⟨t, hr, ht, -⟩ := hp
        have : OutIter nodes t (isequal st.L st'.L = true ∨ pass st' = .ok st')
            (iterationLoop k st.L st') := by
          refine ih st.L st' t ht (hr.labels.nodup_iff.2 hn) ?_
          rcases hr.todo with rfl | hlt
          · right
            rw [← h.unique ht]
            exact ⟨isequal_self _, by omega⟩
          · left; omega
        show OutIter nodes s _ (iterationLoop k st.L st')
        cases hres : iterationLoop k st.L st' with
        | error x => rw [hres] at this; exact this
        | ok p =>
          rw [hres] at this
          obtain ⟨h1, u, h2, h3, h4⟩ := this
          refine ⟨h1, u, hr.trans h2, h3, ?_⟩
          rintro rfl
          right
          have : t = u := by
            rcases h2.todo with e | e
            · exact e
            · rcases hr.todo with e' | e'
              · exact e'.symm
              · omega
          subst this
          rw [h.unique ht]

theorem iteration_out {nodes : List String} {k : ℕ} {st : St K} {s : Seg K} (h : RepS nodes st s)
    (hn : s.labels.Nodup) (hk : s.todo + 2 ≤ k) :
    OutIter nodes s (isequal (st.L.map fun c => c.map fun _ => 1) st.L = true ∨ pass st = .ok st)
      (iteration k st) :=
  iterationLoop_out k _ st s h hn (Or.inl hk)

end Graph
end Pyphs
