/-
The elementary moves of the analysis, and the fact that every function of the analysis performs a
sequence of them.
-/
import Verif.Graph.Lemmas

namespace Pyphs
namespace Graph

variable {K : Type}

/-- The three segments of columns and the indeterminate nodes. -/
structure Seg (K : Type) where
  A : List (Col K)
  B : List (Col K)
  C : List (Col K)
  I : List ℕ

def Seg.all (s : Seg K) : List (Col K) := s.A ++ s.B ++ s.C

/-- `st` is the state described by the segments. -/
def RepS (nodes : List String) (st : St K) (s : Seg K) : Prop :=
  Rep st s.A s.B s.C ∧ st.icn = s.I ∧ st.nodes = nodes

/-- Row `n` of a column set to zero. -/
def zr (n : ℕ) (c : Col K) : Col K := { c with l := c.l.set n 0 }

/-- Column with a single one in row `n`. -/
def single (n : ℕ) (c : Col K) : Col K := { c with l := ((zeros c.l).set n 0).set n 1 }

/-- Sum of row `n`. -/
def rowSum (n : ℕ) (l : List (Col K)) : ℕ := (l.map fun c => c.l.getD n 0).sum

variable [Inv K]

/-- Edge data of an edge that becomes effort-controlled. -/
def ecEdge (d : Edge K) : Edge K :=
  if d.type = .connector ∧ d.ctype = .gyrator then { d with alpha := d.alpha.map (·⁻¹) } else d

/-- Column that becomes effort-controlled. -/
def ecCol (c : Col K) : Col K := { c with edge := ecEdge c.edge, l := zeros c.l }

/-- The elementary moves. -/
inductive Step : Seg K → Seg K → Prop
  | ec (A P c Q C I) : Step ⟨A, P ++ c :: Q, C, I⟩ ⟨ecCol c :: A, P ++ Q, C, I⟩
  | fc (A P c Q C I) : Step ⟨A, P ++ c :: Q, C, I⟩ ⟨A, P ++ Q, C ++ [c], I⟩
  | dcB (A P c Q C I n) : n ∈ I → c.l.getD n 0 = 1 → Step ⟨A, P ++ c :: Q, C, I⟩
      ⟨A.map (zr n), P.map (zr n) ++ Q.map (zr n), C.map (zr n) ++ [single n c], I.erase n⟩
  | dcC (A B P c Q I n) : n ∈ I → c.l.getD n 0 = 1 → Step ⟨A, B, P ++ c :: Q, I⟩
      ⟨A.map (zr n), B.map (zr n), P.map (zr n) ++ single n c :: Q.map (zr n), I.erase n⟩

/-- The moves of `unlock`. -/
inductive Unl : Seg K → Seg K → Prop
  | unB (A P c Q C I n) : 1 < rowSum n (P ++ c :: Q ++ C) → Unl ⟨A, P ++ c :: Q, C, I⟩
      ⟨A, P ++ zr n c :: Q, C, I⟩
  | unC (A B P c Q I n) : 1 < rowSum n (B ++ (P ++ c :: Q)) → Unl ⟨A, B, P ++ c :: Q, I⟩
      ⟨A, B, P ++ zr n c :: Q, I⟩

/-- Sequences of moves. -/
abbrev Reach : Seg K → Seg K → Prop := Relation.ReflTransGen Step

/-- Labels of the edges, in order. -/
def Seg.labels (s : Seg K) : List String := s.all.map (·.edge.label)

theorem label_ecEdge (d : Edge K) : (ecEdge d).label = d.label := by
  unfold ecEdge; split <;> rfl

theorem Step.labels {s t : Seg K} (h : Step s t) : t.labels.Perm s.labels := by
  cases h with
  | ec A P c Q C I =>
    simp only [Seg.labels, Seg.all, List.map_append, List.map_cons, ecCol, label_ecEdge]
    rw [List.cons_append, List.cons_append, ← List.append_assoc, ← List.append_assoc (A.map _),
      List.append_assoc (A.map _ ++ P.map _) (c.edge.label :: _), List.cons_append,
      List.append_assoc (A.map _ ++ P.map _)]
    exact List.perm_middle.symm
  | fc A P c Q C I =>
    simp only [Seg.labels, Seg.all, List.map_append, List.map_cons, List.map_nil]
    simp only [List.append_assoc, List.cons_append]
    refine List.Perm.append_left _ (List.Perm.append_left _ ?_)
    rw [← List.append_assoc]
    exact (List.perm_append_comm).trans (by simp)
  | dcB A P c Q C I n h1 h2 =>
    simp only [Seg.labels, Seg.all, List.map_append, List.map_cons, List.map_nil, List.map_map]
    simp only [List.append_assoc, List.cons_append]
    refine List.Perm.append_left _ (List.Perm.append_left _ ?_)
    rw [← List.append_assoc]
    exact (List.perm_append_comm).trans (by simp [single, Function.comp_def, zr])
  | dcC A B P c Q I n h1 h2 =>
    simp [Seg.labels, Seg.all, zr, single, Function.comp_def]

omit [Inv K] in
theorem Unl.labels {s t : Seg K} (h : Unl s t) : t.labels.Perm s.labels := by
  cases h with
  | unB A P c Q C I n h => simp [Seg.labels, Seg.all, zr]
  | unC A B P c Q I n h => simp [Seg.labels, Seg.all, zr]

theorem Reach.labels {s t : Seg K} (h : Reach s t) : t.labels.Perm s.labels := by
  induction h with
  | refl => exact List.Perm.refl _
  | tail _ h ih => exact h.labels.trans ih

theorem Rep.labels {st : St K} {A B C : List (Col K)} (h : Rep st A B C) :
    st.edges.map (·.label) = (A ++ B ++ C).map (·.edge.label) := by
  rw [h.edges, List.map_map]; rfl

theorem idxOf_of_nodup {α : Type} [DecidableEq α] {P Q : List α} {a : α}
    (h : (P ++ a :: Q).Nodup) : (P ++ a :: Q).idxOf a = P.length := by
  have ha : a ∉ P := fun hm => by
    have := (List.nodup_append.1 h).2.2 a hm a (List.mem_cons_self ..)
    exact this rfl
  rw [List.idxOf_append_of_notMem ha]
  simp

theorem indexOf_ok {α : Type} [DecidableEq α] {l : List α} {v : α} {i : ℕ}
    (h : indexOf v l = .ok i) : l[i]? = some v ∧ i < l.length := by
  unfold indexOf at h
  split at h
  · rename_i hm
    have e : l.idxOf v = i := by simpa using h
    have hlt := List.idxOf_lt_length_of_mem hm
    subst e
    exact ⟨by rw [List.getElem?_eq_getElem hlt, List.getElem_idxOf], hlt⟩
  · exact absurd h (by simp)

/-- The outcome of a function of the analysis started in segments `s`. -/
def Out (nodes : List String) (s : Seg K) (Q : Seg K → Prop) : Except Err (St K) → Prop
  | .ok st => ∃ t, Reach s t ∧ RepS nodes st t ∧ Q t
  | .error x => x = .assertion ∨ x = .value ∨ x = .undefinedPotential

theorem Out.mono {nodes : List String} {s : Seg K} {Q Q' : Seg K → Prop} {r : Except Err (St K)}
    (h : Out nodes s Q r) (hq : ∀ t, Reach s t → Q t → Q' t) : Out nodes s Q' r := by
  cases r with
  | error x => exact h
  | ok st => obtain ⟨t, h1, h2, h3⟩ := h; exact ⟨t, h1, h2, hq t h1 h3⟩

theorem Out.trans {nodes : List String} {s t : Seg K} {Q : Seg K → Prop} {r : Except Err (St K)}
    (h : Out nodes t Q r) (hs : Reach s t) : Out nodes s Q r := by
  cases r with
  | error x => exact h
  | ok st => obtain ⟨u, h1, h2, h3⟩ := h; exact ⟨u, hs.trans h1, h2, h3⟩

theorem Out.bind {nodes : List String} {s : Seg K} {Q Q' : Seg K → Prop}
    {r : Except Err (St K)} {f : St K → Except Err (St K)} (h : Out nodes s Q r)
    (hf : ∀ st t, Reach s t → RepS nodes st t → Q t → Out nodes t Q' (f st)) :
    Out nodes s Q' (r >>= f) := by
  cases r with
  | error x => exact h
  | ok st =>
    obtain ⟨t, h1, h2, h3⟩ := h
    exact (hf st t h1 h2 h3).trans h1

theorem rep_modify {st : St K} {A B C : List (Col K)} (h : Rep st A B C) (i : ℕ)
    (f : Edge K → Edge K) {A' B' C' : List (Col K)}
    (hl : (A ++ B ++ C).modify i (fun c => { c with edge := f c.edge }) = A' ++ B' ++ C')
    (ha : A'.length = A.length) (hb : B'.length = B.length) (hc : C'.length = C.length) :
    Rep { st with edges := st.edges.modify i f } A' B' C' := by
  refine ⟨?_, ?_, ?_, ?_, ?_, ?_⟩
  · rw [← hl, h.edges]
    apply List.ext_getElem? 
    intro k
    simp only [List.getElem?_modify, List.getElem?_map]
    cases (A ++ B ++ C)[k]? with
    | none => simp
    | some v => by_cases hk : i = k <;> simp [hk]
  · rw [← hl, h.G]
    apply List.ext_getElem? 
    intro k
    simp only [List.getElem?_modify, List.getElem?_map]
    cases (A ++ B ++ C)[k]? with
    | none => simp
    | some v => by_cases hk : i = k <;> simp [hk]
  · rw [← hl, h.L]
    apply List.ext_getElem? 
    intro k
    simp only [List.getElem?_modify, List.getElem?_map]
    cases (A ++ B ++ C)[k]? with
    | none => simp
    | some v => by_cases hk : i = k <;> simp [hk]
  · rw [ha]; exact h.ec
  · rw [ha, hb]; exact h.ic
  · rw [ha, hb, hc]; exact h.fc

/-- The move of an edge, `mv true` to the effort-controlled and `mv false` to the flux-controlled
ones. -/
def mv (isE : Bool) (A P : List (Col K)) (c : Col K) (Q C : List (Col K)) (I : List ℕ) : Seg K :=
  if isE then ⟨ecCol c :: A, P ++ Q, C, I⟩ else ⟨A, P ++ Q, C ++ [c], I⟩

theorem mv_step (isE : Bool) (A P : List (Col K)) (c : Col K) (Q C : List (Col K)) (I : List ℕ) :
    Step ⟨A, P ++ c :: Q, C, I⟩ (mv isE A P c Q C I) := by
  unfold mv
  split
  · exact .ec ..
  · exact .fc ..

/-- Edge moved by `setEdge`, then the linked edge. -/
theorem setEdge_mv {nodes : List String} : ∀ (k : ℕ) (isE : Bool) (st : St K)
    (A P : List (Col K)) (c : Col K) (Q C : List (Col K)) (I : List ℕ),
    RepS nodes st ⟨A, P ++ c :: Q, C, I⟩ → (⟨A, P ++ c :: Q, C, I⟩ : Seg K).labels.Nodup →
    (P ++ c :: Q).length ≤ k →
    Out nodes (mv isE A P c Q C I) (fun t => t.B.length ≤ (P ++ Q).length)
      (setEdge k isE st (A.length + P.length)) := by
  intro k
  induction k with
  | zero =>
    intro isE st A P c Q C I h hn hk
    simp at hk
  | succ k ih =>
    intro isE st A P c Q C I h hn hk
    obtain ⟨hr, hI, hnodes⟩ := h
    simp only at hr hI
    have hget : st.edges[A.length + P.length]? = some c.edge := by
      rw [hr.edges]; simp
    -- the state after the move, its segments, and the rest of the function
    have key : ∀ (st1 : St K) (t : Seg K) (newE : ℕ) (d : Edge K), RepS nodes st1 t →
        t.labels.Nodup → t.B.length = (P ++ Q).length →
        Out nodes t (fun t => t.B.length ≤ (P ++ Q).length)
          (do
            let linkE ← indexOf (some d.label) (st1.edges.map (·.link))
            let target := if d.ctype = .gyrator then isE else !isE
            if linkE ∈ (if target then st1.fc else st1.ec) then .error .assertion
            else if linkE ∈ st1.ic then setEdge k target st1 linkE
            else .ok st1) := by
      intro st1 t newE d h1 hn1 hl1
      cases hlink : indexOf (some d.label) (st1.edges.map (·.link)) with
      | error x =>
        unfold indexOf at hlink
        split at hlink
        · exact absurd hlink (by simp)
        · have : x = .value := by simpa using hlink.symm
          exact Or.inr (Or.inl this)
      | ok linkE =>
        show Out nodes _ _ (if linkE ∈ (if (if d.ctype = .gyrator then isE else !isE) then st1.fc
          else st1.ec) then .error .assertion
            else if linkE ∈ st1.ic then setEdge k (if d.ctype = .gyrator then isE else !isE) st1 linkE
            else .ok st1)
        generalize (if d.ctype = .gyrator then isE else !isE) = tg
        generalize (if tg = true then st1.fc else st1.ec) = ls
        by_cases h1' : linkE ∈ ls
        · rw [if_pos h1']
          exact Or.inl rfl
        · rw [if_neg h1']
          split
          · rename_i hin
            obtain ⟨P1, c1, Q1, hB1, hpos1⟩ := mem_ic h1.1 hin
            obtain ⟨A1, B1, C1, I1⟩ := t
            simp only at hB1 hpos1 hl1 ⊢
            subst hB1
            rw [hpos1]
            refine ((ih tg st1 A1 P1 c1 Q1 C1 I1 h1 hn1 ?_).mono ?_).trans
              (.single (mv_step tg A1 P1 c1 Q1 C1 I1))
            · rw [hl1]; simp at hk ⊢; omega
            · intro u _ hu
              simp at hu hl1 ⊢; omega
          · exact ⟨t, .refl, h1, hl1.le⟩
    have hn1 := (mv_step isE A P c Q C I).labels.nodup_iff.2 hn
    unfold setEdge
    rw [hget]
    cases isE with
    | true =>
      obtain ⟨st1, e1, r1, i1, n1⟩ := rep_moveEc hr
      have hlab : st1.edges.map (·.label) = c.edge.label :: (A ++ (P ++ Q) ++ C).map (·.edge.label) := by
        rw [r1.labels]; simp
      have hnew : indexOf c.edge.label (st1.edges.map (·.label)) = .ok 0 := by
        unfold indexOf; rw [hlab]; simp
      have hget1 : st1.edges[0]? = some c.edge := by rw [r1.edges]; simp
      simp only [if_true, e1, bind, Except.bind, hnew, hget1]
      split
      · rename_i hconn
        have rr : RepS nodes (if c.edge.ctype = .gyrator then inverseAlpha st1 0 else st1)
            ⟨ecCol c :: A, P ++ Q, C, I⟩ := by
          split
          · rename_i hg
            refine ⟨rep_modify r1 0 _ ?_ rfl rfl rfl, i1.trans hI, n1.trans hnodes⟩
            simp [ecCol, ecEdge, hconn, hg]
          · rename_i hg
            refine ⟨?_, i1.trans hI, n1.trans hnodes⟩
            have : ecCol c = { c with l := zeros c.l } := by simp [ecCol, ecEdge, hg]
            rw [this]; exact r1
        have := key _ _ 0 c.edge rr hn1 rfl
        have hlinks : (if c.edge.ctype = .gyrator then inverseAlpha st1 0 else st1).edges.map (·.link)
            = st1.edges.map (·.link) := by
          split
          · unfold inverseAlpha
            apply List.ext_getElem? 
            intro j
            simp only [List.getElem?_modify, List.getElem?_map]
            cases st1.edges[j]? with
            | none => simp
            | some v => by_cases hk : 0 = j <;> simp [hk]
          · rfl
        rw [hlinks] at this
        simpa [bind, Except.bind, mv] using this
      · rename_i hconn
        refine ⟨⟨ecCol c :: A, P ++ Q, C, I⟩, .refl, ⟨?_, i1.trans hI, n1.trans hnodes⟩, ?_⟩
        · have : ecCol c = { c with l := zeros c.l } := by simp [ecCol, ecEdge, hconn]
          rw [this]; exact r1
        · simp
    | false =>
      obtain ⟨st1, e1, r1, i1, n1⟩ := rep_moveFc hr
      have hlab : st1.edges.map (·.label) = (A ++ (P ++ Q) ++ C).map (·.edge.label) ++
          c.edge.label :: [] := by
        rw [r1.labels]; simp
      have hnd : ((A ++ (P ++ Q) ++ C).map (·.edge.label) ++ c.edge.label :: []).Nodup := by
        have := hn1
        simpa [Seg.labels, Seg.all, mv] using this
      have hnew : indexOf c.edge.label (st1.edges.map (·.label)) =
          .ok (A ++ (P ++ Q) ++ C).length := by
        unfold indexOf; rw [hlab, idxOf_of_nodup hnd]; simp
      have hget1 : st1.edges[(A ++ (P ++ Q) ++ C).length]? = some c.edge := by
        rw [r1.edges]
        have : A ++ (P ++ Q) ++ (C ++ [c]) = (A ++ (P ++ Q) ++ C) ++ [c] := by simp
        rw [this]; simp
      have rr : RepS nodes st1 ⟨A, P ++ Q, C ++ [c], I⟩ := ⟨r1, i1.trans hI, n1.trans hnodes⟩
      simp only [Bool.false_eq_true, if_false, e1, bind, Except.bind, hnew, hget1]
      split
      · have := key _ _ 0 c.edge rr hn1 rfl
        simpa [bind, Except.bind, mv] using this
      · refine ⟨_, .refl, rr, ?_⟩
        simp [mv]

theorem setEdge_out {nodes : List String} {k : ℕ} {isE : Bool} {st : St K} {s : Seg K} {e : ℕ}
    (h : RepS nodes st s) (hn : s.labels.Nodup) (he : e ∈ st.ic) (hk : s.B.length ≤ k) :
    Out nodes s (fun t => t.B.length < s.B.length) (setEdge k isE st e) := by
  obtain ⟨P, c, Q, hB, hpos⟩ := mem_ic h.1 he
  obtain ⟨A, B, C, I⟩ := s
  simp only at hB hpos hk ⊢
  subst hB
  rw [hpos]
  refine ((setEdge_mv k isE st A P c Q C I h hn hk).mono ?_).trans (.single (mv_step isE A P c Q C I))
  intro t _ ht
  simp at ht ⊢; omega

/-! ### Matrices of the segments -/

omit [Inv K] in
theorem Rep.getD {st : St K} {A B C : List (Col K)} (h : Rep st A B C) {e : ℕ} {c : Col K}
    (hc : (A ++ B ++ C)[e]? = some c) : st.L.getD e [] = c.l := by
  rw [h.L, List.getD_eq_getElem?_getD, List.getElem?_map, hc]; rfl

omit [Inv K] in
theorem dc_matrix (P Q : List (Col K)) (c : Col K) (n : ℕ) :
    setEntry (zeroRow (zeroCol ((P ++ c :: Q).map (·.l)) P.length) n) n P.length 1 =
      (P.map (zr n) ++ single n c :: Q.map (zr n)).map (·.l) := by
  unfold setEntry zeroRow zeroCol
  apply List.ext_getElem?
  intro k
  simp only [List.getElem?_modify, List.getElem?_map]
  rcases Nat.lt_trichotomy k P.length with hk | hk | hk
  · rw [List.getElem?_append_left hk, List.getElem?_append_left (by simpa using hk)]
    cases hP : P[k]? with
    | none => simp [hP]
    | some v => simp [zr, Nat.ne_of_gt hk, hP]
  · subst hk
    simp [single, zeros]
  · rw [List.getElem?_append_right (by omega), List.getElem?_append_right (by simp; omega)]
    obtain ⟨j, rfl⟩ : ∃ j, k = P.length + (j + 1) := ⟨k - P.length - 1, by omega⟩
    have e1 : P.length + (j + 1) - P.length = j + 1 := by omega
    simp only [List.length_map, e1, List.getElem?_cons_succ, List.getElem?_map]
    cases Q[j]? with
    | none => simp
    | some v => simp [zr]

omit [Inv K] in
theorem getElem?_split {α : Type} {l : List α} {e : ℕ} {c : α} (h : l[e]? = some c) :
    ∃ P Q, l = P ++ c :: Q ∧ P.length = e := by
  obtain ⟨hlt, hc⟩ := List.getElem?_eq_some_iff.1 h
  refine ⟨l.take e, l.drop (e + 1), ?_, by simp; omega⟩
  rw [← hc, List.getElem_cons_drop, List.take_append_drop]

/-- `setNodeDc` on an indeterminate edge. -/
theorem setNodeDc_ic {nodes : List String} {st : St K} {s : Seg K} {n e : ℕ} {c : Col K}
    (h : RepS nodes st s) (hn : s.labels.Nodup) (hI : n ∈ s.I)
    (hc : s.all[e]? = some c) (hA : s.A.length ≤ e) (hB : e - s.A.length < s.B.length)
    (h1 : c.l.getD n 0 = 1) :
    Out nodes s (fun t => t.B.length < s.B.length) (setNodeDc st n e) := by
  obtain ⟨hr, hicn, hnodes⟩ := h
  obtain ⟨A, B, C, I⟩ := s
  simp only [Seg.all] at *
  rw [List.append_assoc, List.getElem?_append_right hA] at hc
  rw [List.getElem?_append_left hB] at hc
  obtain ⟨P, Q, rfl, hP⟩ := getElem?_split hc
  have hpos : e = A.length + P.length := by omega
  have hin : e ∈ st.ic := by rw [hr.ic, List.mem_range'_1]; simp; omega
  have hmat : setEntry (zeroRow (zeroCol st.L e) n) n e 1 =
      (A.map (zr n) ++ (P.map (zr n) ++ single n c :: Q.map (zr n)) ++ C.map (zr n)).map (·.l) := by
    have e1 : A ++ (P ++ c :: Q) ++ C = (A ++ P) ++ c :: (Q ++ C) := by simp
    have := dc_matrix (A ++ P) (Q ++ C) c n
    rw [hr.L, e1, hpos, ← List.length_append, this]
    simp
  have hrep : RepS nodes { st with
      L := setEntry (zeroRow (zeroCol st.L e) n) n e 1
      icn := I.erase n } ⟨A.map (zr n), P.map (zr n) ++ single n c :: Q.map (zr n),
      C.map (zr n), I.erase n⟩ := by
    refine ⟨⟨?_, ?_, hmat, ?_, ?_, ?_⟩, rfl, hnodes⟩
    · rw [hr.edges]; simp [zr, single, Function.comp_def]
    · rw [hr.G]; simp [zr, single, Function.comp_def]
    · rw [hr.ec]; simp
    · rw [hr.ic]; simp
    · rw [hr.fc]; simp
  have hstep : Step ⟨A, P ++ c :: Q, C, I⟩ (mv false (A.map (zr n)) (P.map (zr n)) (single n c)
      (Q.map (zr n)) (C.map (zr n)) (I.erase n)) := .dcB _ _ _ _ _ _ _ hI h1
  have hlab : (⟨A.map (zr n), P.map (zr n) ++ single n c :: Q.map (zr n),
      C.map (zr n), I.erase n⟩ : Seg K).labels = (⟨A, P ++ c :: Q, C, I⟩ : Seg K).labels := by
    simp [Seg.labels, Seg.all, zr, single, Function.comp_def]
  have hlen := length_eq hr
  have := setEdge_mv (nodes := nodes) (st.edges.length + 1) false _ _ _ _ _ _ _ hrep
    (by rw [hlab]; exact hn) (by rw [hlen]; simp; omega)
  unfold setNodeDc
  simp only [hicn, hI, if_true, hin]
  rw [List.length_map, List.length_map, ← hpos] at this
  refine (this.mono ?_).trans (.single hstep)
  intro t _ ht
  simp at ht ⊢; omega

/-- `setNodeDc` on a flux-controlled edge. -/
theorem setNodeDc_fc {nodes : List String} {st : St K} {s : Seg K} {n e : ℕ} {c : Col K}
    (h : RepS nodes st s) (hI : n ∈ s.I)
    (hc : s.all[e]? = some c) (hB : s.A.length + s.B.length ≤ e)
    (h1 : c.l.getD n 0 = 1) :
    Out nodes s (fun t => t.A.length = s.A.length ∧ t.B.length = s.B.length ∧
      t.C.length = s.C.length) (setNodeDc st n e) := by
  obtain ⟨hr, hicn, hnodes⟩ := h
  obtain ⟨A, B, C, I⟩ := s
  simp only [Seg.all] at *
  rw [List.append_assoc, List.getElem?_append_right (by omega)] at hc
  rw [List.getElem?_append_right (by omega)] at hc
  obtain ⟨P, Q, rfl, hP⟩ := getElem?_split hc
  have hpos : e = A.length + B.length + P.length := by omega
  have hin : e ∉ st.ic := by rw [hr.ic, List.mem_range'_1]; omega
  have hmat : setEntry (zeroRow (zeroCol st.L e) n) n e 1 =
      (A.map (zr n) ++ B.map (zr n) ++ (P.map (zr n) ++ single n c :: Q.map (zr n))).map (·.l) := by
    have e1 : A ++ B ++ (P ++ c :: Q) = (A ++ B ++ P) ++ c :: Q := by simp
    have := dc_matrix (A ++ B ++ P) Q c n
    rw [hr.L, e1, hpos, ← List.length_append, ← List.length_append, this]
    simp
  have hstep : Step ⟨A, B, P ++ c :: Q, I⟩ ⟨A.map (zr n), B.map (zr n),
      P.map (zr n) ++ single n c :: Q.map (zr n), I.erase n⟩ := .dcC _ _ _ _ _ _ _ hI h1
  unfold setNodeDc
  simp only [hicn, hI, if_true, hin, if_false]
  refine ⟨_, .single hstep, ⟨⟨?_, ?_, hmat, ?_, ?_, ?_⟩, rfl, hnodes⟩, ?_⟩
  · simp only; rw [hr.edges]; simp [zr, single, Function.comp_def]
  · simp only; rw [hr.G]; simp [zr, single, Function.comp_def]
  · simp only; rw [hr.ec]; simp
  · simp only; rw [hr.ic]; simp
  · simp only; rw [hr.fc]; simp
  · simp

/-! ### Lists of indeterminate nodes -/

theorem Step.nodes_le {s t : Seg K} (h : Step s t) : t.I.length ≤ s.I.length := by
  cases h <;> simp [List.length_erase] <;> split <;> omega

theorem Reach.nodes_le {s t : Seg K} (h : Reach s t) : t.I.length ≤ s.I.length := by
  induction h with
  | refl => exact le_refl _
  | tail _ h ih => exact h.nodes_le.trans ih

theorem one_mem_of_sum : ∀ (l : List ℕ), l.sum = 1 → 1 ∈ l
  | [], h => by simp at h
  | a :: l, h => by
    rw [List.sum_cons] at h
    by_cases ha : a = 1
    · simp [ha]
    · exact List.mem_cons_of_mem _ (one_mem_of_sum l (by omega))

theorem getD_idxOf {l : List ℕ} (h : 1 ∈ l) : l.getD (l.idxOf 1) 0 = 1 := by
  have := List.idxOf_lt_length_of_mem h
  rw [List.getD_eq_getElem?_getD, List.getElem?_eq_getElem this, List.getElem_idxOf]; rfl

omit [Inv K] in
theorem RepS.col {nodes : List String} {st : St K} {s : Seg K} (h : RepS nodes st s) {e : ℕ}
    (he : e < s.all.length) : st.L.getD e [] = s.all[e].l :=
  h.1.getD (List.getElem?_eq_getElem he)

theorem stepFc_out {nodes : List String} {st : St K} {s : Seg K} {e : ℕ} (h : RepS nodes st s)
    (he : s.A.length + s.B.length ≤ e ∧ e < s.all.length) :
    Out nodes s (fun t => t.A.length = s.A.length ∧ t.B.length = s.B.length ∧
      t.C.length = s.C.length) (stepFc st e) := by
  unfold stepFc colSum
  rw [h.col he.2]
  split
  · exact Or.inl rfl
  · split
    · rename_i h1
      have hm := one_mem_of_sum _ h1
      simp only [h.2.1]
      split
      · rename_i hI
        exact setNodeDc_fc h hI (List.getElem?_eq_getElem he.2) he.1 (getD_idxOf hm)
      · exact ⟨s, .refl, h, rfl, rfl, rfl⟩
    · exact ⟨s, .refl, h, rfl, rfl, rfl⟩

theorem iterateFc_out {nodes : List String} {st : St K} {s : Seg K} (h : RepS nodes st s) :
    Out nodes s (fun t => t.B.length = s.B.length) (iterateFc st) := by
  unfold iterateFc
  rw [h.1.fc]
  have : ∀ (l : List ℕ) (st : St K) (t : Seg K), RepS nodes st t →
      (t.A.length = s.A.length ∧ t.B.length = s.B.length ∧ t.C.length = s.C.length) →
      (∀ e ∈ l, s.A.length + s.B.length ≤ e ∧ e < s.all.length) →
      Out nodes t (fun t => t.B.length = s.B.length) (l.foldlM stepFc st) := by
    intro l
    induction l with
    | nil =>
      intro st t ht hl _
      exact ⟨t, .refl, ht, hl.2.1⟩
    | cons e l ih =>
      intro st t ht hl hm
      rw [List.foldlM_cons]
      refine (stepFc_out ht ?_).bind ?_
      · have := hm e (List.mem_cons_self ..)
        simp only [Seg.all, List.length_append] at this ⊢
        omega
      · intro st' t' _ ht' hl'
        exact ih st' t' ht' ⟨hl'.1.trans hl.1, hl'.2.1.trans hl.2.1, hl'.2.2.trans hl.2.2⟩
          fun x hx => hm x (List.mem_cons_of_mem _ hx)
  refine this _ st s h ⟨rfl, rfl, rfl⟩ ?_
  intro e he
  rw [List.mem_range'_1] at he
  simp only [Seg.all, List.length_append]
  exact he

theorem iterateIc_out {nodes : List String} : ∀ (k i : ℕ) (st : St K) (s : Seg K),
    RepS nodes st s → s.labels.Nodup → s.B.length - i < k →
    Out nodes s (fun _ => True) (iterateIc k i st) := by
  intro k
  induction k with
  | zero => intro i st s h hn hk; omega
  | succ k ih =>
    intro i st s h hn hk
    unfold iterateIc
    cases hi : st.ic[i]? with
    | none => exact ⟨s, .refl, h, trivial⟩
    | some e =>
      obtain ⟨hlt, he⟩ := List.getElem?_eq_some_iff.1 hi
      have hlt' : i < s.B.length := by simpa [h.1.ic] using hlt
      have hmem : e ∈ st.ic := he ▸ List.getElem_mem hlt
      simp only
      split
      · refine (setEdge_out h hn hmem ?_).bind ?_
        · rw [length_eq h.1]; omega
        · intro st' t' hr' ht' hl'
          exact ih i st' t' ht' (hr'.labels.nodup_iff.2 hn) (by omega)
      · exact ih (i + 1) st s h hn (by omega)

theorem stepNode_out {nodes : List String} {st : St K} {s : Seg K} {n : ℕ} (h : RepS nodes st s)
    (hn : s.labels.Nodup) : Out nodes s (fun _ => True) (stepNode st n) := by
  unfold stepNode
  split
  · exact Or.inr (Or.inr rfl)
  · split
    · rename_i h1
      have hm := one_mem_of_sum _ h1
      have hlt := List.idxOf_lt_length_of_mem hm
      have hg := getD_idxOf hm
      simp only
      generalize (row st.L n).idxOf 1 = e at *
      have hlt' : e < s.all.length := by
        have := hlt
        rw [row, h.1.L] at this
        simpa [Seg.all] using this
      split
      · exact Or.inl rfl
      · rename_i hec
        have hA : s.A.length ≤ e := by
          rw [h.1.ec, List.mem_range] at hec; omega
        simp only [h.2.1]
        split
        · rename_i hI
          have hentry : (s.all[e]).l.getD n 0 = 1 := by
            rw [← hg, row, h.1.L]
            conv_rhs => rw [List.getD_eq_getElem?_getD]
            have : (s.A ++ s.B ++ s.C)[e]? = some s.all[e] := List.getElem?_eq_getElem hlt'
            simp only [List.getElem?_map, this]
            simp
          by_cases hB : e - s.A.length < s.B.length
          · exact (setNodeDc_ic h hn hI (List.getElem?_eq_getElem hlt') hA hB hentry).mono
              fun _ _ _ => trivial
          · exact (setNodeDc_fc h hI (List.getElem?_eq_getElem hlt') (by omega) hentry).mono
              fun _ _ _ => trivial
        · exact ⟨s, .refl, h, trivial⟩
    · exact ⟨s, .refl, h, trivial⟩

theorem iterateNodes_out {nodes : List String} : ∀ (k i : ℕ) (st : St K) (s : Seg K),
    RepS nodes st s → s.labels.Nodup → s.I.length - i < k →
    Out nodes s (fun _ => True) (iterateNodes k i st) := by
  intro k
  induction k with
  | zero => intro i st s h hn hk; omega
  | succ k ih =>
    intro i st s h hn hk
    unfold iterateNodes
    cases hi : st.icn[i]? with
    | none => exact ⟨s, .refl, h, trivial⟩
    | some n =>
      obtain ⟨hlt, he⟩ := List.getElem?_eq_some_iff.1 hi
      have hlt' : i < s.I.length := by simpa [h.2.1] using hlt
      refine (stepNode_out h hn).bind ?_
      intro st' t' hr' ht' _
      have := hr'.nodes_le
      exact ih (i + 1) st' t' ht' (hr'.labels.nodup_iff.2 hn) (by omega)

theorem pass_out {nodes : List String} {st : St K} {s : Seg K} (h : RepS nodes st s)
    (hn : s.labels.Nodup) : Out nodes s (fun _ => True) (pass st) := by
  unfold pass
  refine (iterateNodes_out _ 0 st s h hn (by rw [h.2.1]; omega)).bind ?_
  intro st1 t1 r1 h1 _
  refine (iterateFc_out h1).bind ?_
  intro st2 t2 r2 h2 _
  refine iterateIc_out _ 0 st2 t2 h2 (r2.labels.nodup_iff.2 (r1.labels.nodup_iff.2 hn)) ?_
  rw [h2.1.ic]; simp

end Graph
end Pyphs
