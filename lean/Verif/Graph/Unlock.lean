/-
Unlocking and the main loop.
-/
import Verif.Graph.Run

namespace Pyphs
namespace Graph

variable {K : Type}

theorem search_lt {stop : ℕ → Bool} {r : List ℕ} {bound : ℕ} : ∀ (k e0 e : ℕ),
    search stop r bound k e0 = some e → e0 ≤ r.length → r.length < e0 + k → e < r.length := by
  intro k
  induction k with
  | zero => intro e0 e h h0 hk; omega
  | succ k ih =>
    intro e0 e h h0 hk
    unfold search at h
    cases hr : r[e0]? with
    | none => rw [hr] at h; simp at h
    | some v =>
      obtain ⟨hlt, -⟩ := List.getElem?_eq_some_iff.1 hr
      rw [hr] at h
      simp only at h
      split at h
      · exact ih (e0 + 1) e h (by omega) (by omega)
      · simp only [Option.some.injEq] at h; omega

/-- What the first pass of `unlock` returns. -/
theorem unlockIc_go {st : St K} {nec : ℕ} : ∀ (ns : List ℕ) (r : Except Err (Option (List (List ℕ)))),
    unlockIc.go st nec ns = r →
    match r with
    | .error x => x = .index
    | .ok none => True
    | .ok (some L) => ∃ n e, L = setEntry st.L n (nec + e) 0 ∧ e < st.ic.length ∧
        1 < (st.ic.map fun e => (st.L.getD e []).getD n 0).sum := by
  intro ns
  induction ns with
  | nil => intro r h; subst h; simp [unlockIc.go]
  | cons n ns ih =>
    intro r h
    unfold unlockIc.go at h
    simp only at h
    split at h
    · rename_i hs
      split at h
      · subst h; rfl
      · rename_i e he
        have hlt := search_lt _ _ _ he (Nat.zero_le _) (by omega)
        split at h
        · subst h
          exact ⟨n, e, rfl, by simpa using hlt, hs⟩
        · exact ih r h
    · exact ih r h

theorem unlockFc_go {st : St K} {nec i0 : ℕ} : ∀ (ns : List ℕ)
    (r : Except Err (Option (List (List ℕ)))),
    unlockFc.go st nec i0 ns = r →
    match r with
    | .error x => x = .index
    | .ok none => True
    | .ok (some L) => ∃ n e, L = setEntry st.L n (nec + e) 0 ∧ e < ((row st.L n).drop i0).length ∧
        1 < ((row st.L n).drop i0).sum := by
  intro ns
  induction ns with
  | nil => intro r h; subst h; simp [unlockFc.go]
  | cons n ns ih =>
    intro r h
    unfold unlockFc.go at h
    simp only at h
    split at h
    · rename_i hs
      split at h
      · subst h; rfl
      · rename_i e he
        have hlt := search_lt _ _ _ he (Nat.zero_le _) (by omega)
        split at h
        · subst h
          exact ⟨n, e, rfl, hlt, hs⟩
        · exact ih r h
    · exact ih r h

/-- One entry set to zero, in the columns. -/
theorem setEntry_split (P Q : List (Col K)) (c : Col K) (n : ℕ) :
    setEntry ((P ++ c :: Q).map (·.l)) n P.length 0 = (P ++ zr n c :: Q).map (·.l) := by
  unfold setEntry
  apply List.ext_getElem?
  intro k
  simp only [List.getElem?_modify, List.getElem?_map]
  rcases Nat.lt_trichotomy k P.length with hk | hk | hk
  · rw [List.getElem?_append_left hk, List.getElem?_append_left hk]
    cases hP : P[k]? with
    | none => simp
    | some v => simp [Nat.ne_of_gt hk]
  · subst hk
    simp [zr]
  · rw [List.getElem?_append_right (by omega), List.getElem?_append_right (by omega)]
    obtain ⟨j, rfl⟩ : ∃ j, k = P.length + (j + 1) := ⟨k - P.length - 1, by omega⟩
    have e1 : P.length + (j + 1) - P.length = j + 1 := by omega
    simp only [e1, List.getElem?_cons_succ]
    cases Q[j]? with
    | none => simp
    | some v => simp

theorem split_at {α : Type} {l : List α} {e : ℕ} (h : e < l.length) :
    ∃ P c Q, l = P ++ c :: Q ∧ P.length = e :=
  ⟨_, l[e], _, (getElem?_split (List.getElem?_eq_getElem h)).choose_spec.choose_spec⟩

/-- Entry `e` of the indeterminate or flux-controlled columns set to zero. -/
theorem setEntry_unl {nodes : List String} {st : St K} {s : Seg K} {n e : ℕ} (h : RepS nodes st s)
    (he : e < s.B.length + s.C.length) (hr : 1 < rowSum n (s.B ++ s.C)) :
    ∃ t, Unl s t ∧ RepS nodes { st with L := setEntry st.L n (s.A.length + e) 0 } t := by
  obtain ⟨A, B, C, I⟩ := s
  obtain ⟨hr', hI, hn⟩ := h
  simp only at *
  by_cases hB : e < B.length
  · obtain ⟨P, c, Q, rfl, rfl⟩ := split_at hB
    refine ⟨_, .unB A P c Q C I n hr, ⟨⟨?_, ?_, ?_, ?_, ?_, ?_⟩, hI, hn⟩⟩
    · simp only; rw [hr'.edges]; simp [zr]
    · simp only; rw [hr'.G]; simp [zr]
    · simp only
      have := setEntry_split (A ++ P) (Q ++ C) c n
      have e1 : A ++ (P ++ c :: Q) ++ C = A ++ P ++ c :: (Q ++ C) := by simp
      rw [hr'.L, e1, ← List.length_append, this]
      simp
    · simp only; rw [hr'.ec]
    · simp only; rw [hr'.ic]; simp
    · simp only; rw [hr'.fc]; simp
  · obtain ⟨P, c, Q, rfl, hP⟩ := split_at (l := C) (e := e - B.length) (by omega)
    refine ⟨_, .unC A B P c Q I n hr, ⟨⟨?_, ?_, ?_, ?_, ?_, ?_⟩, hI, hn⟩⟩
    · simp only; rw [hr'.edges]; simp [zr]
    · simp only; rw [hr'.G]; simp [zr]
    · simp only
      have := setEntry_split (A ++ B ++ P) Q c n
      have e1 : A ++ B ++ (P ++ c :: Q) = A ++ B ++ P ++ c :: Q := by simp
      have e2 : A.length + e = (A ++ B ++ P).length := by simp; omega
      rw [hr'.L, e1, e2, this]
      simp
    · simp only; rw [hr'.ec]
    · simp only; rw [hr'.ic]
    · simp only; rw [hr'.fc]; simp

/-- Outcome of `unlock`. -/
def OutUnl (nodes : List String) (s : Seg K) : Except Err (St K) → Prop
  | .ok st => ∃ t, Unl s t ∧ RepS nodes st t
  | .error x => x = .index ∨ x = .canNotUnlock

theorem map_range'_getD (A B C : List (Col K)) (n : ℕ) :
    ((List.range' A.length B.length).map fun e =>
      (((A ++ B ++ C).map (·.l)).getD e []).getD n 0) = B.map fun c => c.at n := by
  apply List.ext_getElem
  · simp
  · intro k h1 h2
    simp only [List.getElem_map, List.getElem_range', Nat.one_mul]
    have hk : k < B.length := by simpa using h2
    have : (A ++ B ++ C)[A.length + k]? = some B[k] := by
      rw [List.append_assoc, List.getElem?_append_right (by omega), Nat.add_sub_cancel_left,
        List.getElem?_append_left hk, List.getElem?_eq_getElem hk]
    have e : ((A ++ B ++ C).map (·.l)).getD (A.length + k) [] = B[k].l := by
      rw [List.getD_eq_getElem?_getD, List.getElem?_map, this]
      rfl
    rw [e]
    rfl

theorem unlock_out {nodes : List String} {st : St K} {s : Seg K} (h : RepS nodes st s) :
    OutUnl nodes s (unlock st) := by
  have hnec : st.ec.length = s.A.length := by rw [h.1.ec]; simp
  unfold unlock
  have h1 := unlockIc_go (st := st) (nec := st.ec.length) (List.range st.nodes.length) _ rfl
  have e1 : unlockIc st = unlockIc.go st st.ec.length (List.range st.nodes.length) := rfl
  rw [e1]
  cases hu : unlockIc.go st st.ec.length (List.range st.nodes.length) with
  | error x => rw [hu] at h1; exact Or.inl h1
  | ok o =>
    rw [hu] at h1
    cases o with
    | some L =>
      obtain ⟨n, e, rfl, he, hs⟩ := h1
      rw [h.1.ic, h.1.L, map_range'_getD] at hs
      rw [h.1.ic, List.length_range'] at he
      obtain ⟨t, ht1, ht2⟩ := setEntry_unl (n := n) (e := e) h (by omega) (by
        rw [rowSum_append]
        have : rowSum n s.B = (s.B.map fun c => c.at n).sum := rfl
        omega)
      rw [← hnec] at ht2
      exact ⟨t, ht1, ht2⟩
    | none =>
      show OutUnl nodes s (do
        match ← unlockFc st with
        | some L => .ok { st with L := L }
        | none => .error .canNotUnlock)
      unfold unlockFc
      simp only
      cases hic : st.ic with
      | nil => exact Or.inl rfl
      | cons i0 tl =>
        have hi0 : i0 = s.A.length := by
          have := h.1.ic
          rw [hic] at this
          cases hB : s.B with
          | nil => rw [hB] at this; simp at this
          | cons b bs => rw [hB] at this; simp [List.range'_succ] at this; exact this.1
        subst hi0
        have h2 := unlockFc_go (st := st) (nec := st.ec.length) (i0 := s.A.length)
          (List.range st.nodes.length) _ rfl
        simp only
        cases hu2 : unlockFc.go st st.ec.length s.A.length (List.range st.nodes.length) with
        | error x => rw [hu2] at h2; exact Or.inl h2
        | ok o =>
          rw [hu2] at h2
          cases o with
          | none => exact Or.inr rfl
          | some L =>
            obtain ⟨n, e, rfl, he, hs⟩ := h2
            have hrow : (row st.L n).drop s.A.length = (s.B ++ s.C).map fun c => c.at n := by
              rw [row, h.1.L, List.map_map, ← List.map_drop, List.append_assoc, List.drop_left]
              rfl
            rw [hrow] at he hs
            obtain ⟨t, ht1, ht2⟩ := setEntry_unl (n := n) (e := e) h (by simpa using he) hs
            rw [← hnec, hic] at ht2
            exact ⟨t, ht1, ht2⟩

/-! ### Weights -/

/-- Sum of all entries of the columns. -/
def ones (l : List (Col K)) : ℕ := (l.map fun c => c.l.sum).sum

theorem ones_append (l l' : List (Col K)) : ones (l ++ l') = ones l + ones l' := by simp [ones]
theorem ones_cons (c : Col K) (l : List (Col K)) : ones (c :: l) = c.l.sum + ones l := by
  simp [ones]

theorem sum_set (l : List ℕ) : ∀ n, (l.set n 0).sum + l.getD n 0 = l.sum := by
  induction l with
  | nil => intro n; simp
  | cons a l ih =>
    intro n
    cases n with
    | zero => simp; omega
    | succ n =>
      have := ih n
      simp only [List.set_cons_succ, List.sum_cons, List.getD_cons_succ]
      omega

theorem sum_zr (n : ℕ) (c : Col K) : (zr n c).l.sum + c.at n = c.l.sum := sum_set c.l n

theorem ones_zr (n : ℕ) (l : List (Col K)) : ones (l.map (zr n)) ≤ ones l := by
  induction l with
  | nil => simp
  | cons c l ih =>
    rw [List.map_cons, ones_cons, ones_cons]
    have := sum_zr n c
    omega

theorem sum_zeros (l : List ℕ) : (zeros l).sum = 0 := by
  induction l with
  | nil => rfl
  | cons a l ih => simpa [zeros] using ih

theorem sum_set_one (l : List ℕ) : ∀ n, n < l.length → (((zeros l).set n 0).set n 1).sum = 1 := by
  induction l with
  | nil => intro n h; simp at h
  | cons a l ih =>
    intro n h
    cases n with
    | zero =>
      have := sum_zeros l
      simpa [zeros] using this
    | succ n =>
      have := ih n (by simpa using h)
      simpa [zeros] using this

theorem sum_single {n : ℕ} {c : Col K} (h : c.at n = 1) : (single n c).l.sum ≤ c.l.sum := by
  have e : (single n c).l.sum = 1 := sum_set_one c.l n (lt_of_at h)
  have := sum_zr n c
  omega

theorem zr_eq {n : ℕ} {c : Col K} (h : c.at n = 0) : zr n c = c := by
  have : c.l.set n 0 = c.l := by
    apply List.ext_getElem?
    intro k
    rw [List.getElem?_set]
    by_cases hk : n = k
    · subst hk
      by_cases hl : n < c.l.length
      · unfold Col.at at h
        rw [List.getD_eq_getElem?_getD, List.getElem?_eq_getElem hl] at h
        simp at h
        simp [hl, h]
      · simp [hl]
    · simp [hk]
  unfold zr
  rw [this]

/-- Decreases along the analysis. -/
def Seg.weight (s : Seg K) : ℕ := s.todo + ones s.all

theorem Unl.weight {s t : Seg K} (h : Unl s t) : t = s ∨ t.weight < s.weight := by
  cases h with
  | unB A P c Q C I n hr =>
    rcases Nat.eq_zero_or_pos (c.at n) with h0 | h0
    · left; rw [zr_eq h0]
    · right
      have := sum_zr n c
      simp only [Seg.weight, Seg.todo, Seg.all, ones_append, ones_cons, List.length_append,
        List.length_cons]
      omega
  | unC A B P c Q I n hr =>
    rcases Nat.eq_zero_or_pos (c.at n) with h0 | h0
    · left; rw [zr_eq h0]
    · right
      have := sum_zr n c
      simp only [Seg.weight, Seg.todo, Seg.all, ones_append, ones_cons]
      omega

variable [Inv K]

theorem Step.weight {s t : Seg K} (h : Step s t) : t.weight < s.weight := by
  have h' := h.todo
  unfold Seg.weight
  suffices ones t.all ≤ ones s.all by omega
  cases h with
  | ec A P c Q C I =>
    have : (ecCol c).l.sum = 0 := sum_zeros _
    simp only [Seg.all, ones_append, ones_cons]
    omega
  | fc A P c Q C I =>
    simp only [Seg.all, ones_append, ones_cons]
    have : ones ([] : List (Col K)) = 0 := rfl
    omega
  | dcB A P c Q C I n hI h1 =>
    have h2 := sum_single h1
    have a := ones_zr n A
    have b := ones_zr n P
    have c' := ones_zr n Q
    have d := ones_zr n C
    have : ones ([] : List (Col K)) = 0 := rfl
    simp only [Seg.all, ones_append, ones_cons]
    omega
  | dcC A B P c Q I n hI h1 =>
    have h2 := sum_single h1
    have a := ones_zr n A
    have b := ones_zr n P
    have c' := ones_zr n Q
    have d := ones_zr n B
    simp only [Seg.all, ones_append, ones_cons]
    omega

theorem Reach.weight {s t : Seg K} (h : Reach s t) : s = t ∨ t.weight < s.weight := by
  induction h with
  | refl => exact Or.inl rfl
  | tail _ h ih =>
    right
    rcases ih with rfl | ih
    · exact h.weight
    · exact h.weight.trans ih

/-! ### The main loop -/

/-- A turn of `iteration` does nothing. -/
def Idle (st : St K) : Prop :=
  isequal (st.L.map fun c => c.map fun _ => 1) st.L = true ∨ pass st = .ok st

/-- The main loop repeats the same state: something is undecided, the iteration does nothing and
`unlock` writes a zero over a zero. -/
def Stuck (st : St K) : Prop :=
  0 < st.ic.length + st.icn.length ∧ Idle st ∧ unlock st = .ok st

theorem Idle.iterates {st : St K} (h : Idle st) (k : ℕ) :
    iteration k st = .error .fuel ∨ ∃ temp, iteration k st = .ok (st, temp) ∧
      isequal temp st.L = true := by
  unfold iteration
  cases k with
  | zero => left; rfl
  | succ k =>
    unfold iterationLoop
    split
    · rename_i heq
      exact Or.inr ⟨_, rfl, heq⟩
    · rename_i heq
      rcases h with h | h
      · exact absurd h heq
      · rw [h]
        show iterationLoop k st.L st = _ ∨ ∃ temp, iterationLoop k st.L st = _ ∧ _
        cases k with
        | zero => left; rfl
        | succ k =>
          unfold iterationLoop
          rw [if_pos (isequal_self _)]
          exact Or.inr ⟨_, rfl, isequal_self _⟩

theorem Stuck.forever {st : St K} (h : Stuck st) : ∀ k, performLoop k st = .error .fuel := by
  intro k
  induction k with
  | zero => rfl
  | succ k ih =>
    obtain ⟨h1, h2, h3⟩ := h
    unfold performLoop
    rw [if_pos h1]
    rcases h2.iterates k with e | ⟨temp, e, he⟩
    · rw [e]; rfl
    · rw [e]
      simp only [bind, Except.bind, he, Bool.true_and, h1, decide_true, if_true, h3]
      exact ih

theorem iterationLoop_mono : ∀ (k j : ℕ) (temp : List (List ℕ)) (st : St K),
    iterationLoop k temp st = .error .fuel ∨
      iterationLoop (k + j) temp st = iterationLoop k temp st := by
  intro k
  induction k with
  | zero => intro j temp st; left; rfl
  | succ k ih =>
    intro j temp st
    rw [Nat.add_right_comm]
    unfold iterationLoop
    split
    · right; rfl
    · cases hp : pass st with
      | error x => right; rfl
      | ok st' => exact ih j st.L st'

theorem iteration_agree (k k' : ℕ) (st : St K) : iteration k st = .error .fuel ∨
    iteration k' st = .error .fuel ∨ iteration k' st = iteration k st := by
  unfold iteration
  rcases Nat.le_total k k' with h | h
  · obtain ⟨j, rfl⟩ := Nat.exists_eq_add_of_le h
    rcases iterationLoop_mono k j _ st with e | e
    · exact Or.inl e
    · exact Or.inr (Or.inr e)
  · obtain ⟨j, rfl⟩ := Nat.exists_eq_add_of_le h
    rcases iterationLoop_mono k' j _ st with e | e
    · exact Or.inr (Or.inl e)
    · exact Or.inr (Or.inr e.symm)

theorem initLoop_mono : ∀ (k j i : ℕ) (st : St K), initLoop k i st = .error .fuel ∨
    initLoop (k + j) i st = initLoop k i st := by
  intro k
  induction k with
  | zero => intro j i st; left; rfl
  | succ k ih =>
    intro j i st
    rw [Nat.add_right_comm]
    unfold initLoop
    cases st.ic[i]? with
    | none => right; rfl
    | some e =>
      simp only
      cases st.edges[e]? with
      | none => right; rfl
      | some d =>
        simp only
        cases d.ctrl with
        | e =>
          simp only
          cases hp : setEdge (st.edges.length + 1) true st e with
          | error x => right; rfl
          | ok st' => exact ih j i st'
        | f =>
          simp only
          split
          · split
            · cases hp : setNodeDc st ((st.L.getD e []).idxOf 1) e with
              | error x => right; rfl
              | ok st' => exact ih j i st'
            · exact ih j i st
          · cases hp : setEdge (st.edges.length + 1) false st e with
            | error x => right; rfl
            | ok st' => exact ih j i st'
        | unknown => exact ih j (i + 1) st

theorem performLoop_mono : ∀ (k j : ℕ) (st : St K), performLoop k st = .error .fuel ∨
    performLoop (k + j) st = performLoop k st := by
  intro k
  induction k with
  | zero => intro j st; left; rfl
  | succ k ih =>
    intro j st
    rw [Nat.add_right_comm]
    unfold performLoop
    split
    · unfold iteration
      rcases iterationLoop_mono k j (st.L.map fun c => c.map fun _ => 1) st with e | e
      · left; rw [e]; rfl
      · rw [e]
        cases iterationLoop k (st.L.map fun c => c.map fun _ => 1) st with
        | error x => right; rfl
        | ok p =>
          obtain ⟨st1, temp⟩ := p
          simp only [bind, Except.bind]
          split
          · cases unlock st1 with
            | error x => right; rfl
            | ok st2 => exact ih j st2
          · exact ih j st1
    · right; rfl

/-- Outcome of the main loop started in state `st0` with enough turns. -/
def OutPerform (nodes : List String) (s : Seg K) (st0 : St K) (r : Except Err (St K)) : Prop :=
  (∃ st t, r = .ok st ∧ ReachAny s t ∧ RepS nodes st t ∧ t.todo = 0) ∨
  (∃ x, r = .error x ∧ x ≠ .fuel) ∨
  ∃ st t, ReachAny s t ∧ RepS nodes st t ∧ Stuck st ∧ ∀ k, performLoop k st0 = .error .fuel

theorem performLoop_out {nodes : List String} : ∀ (w k : ℕ) (st : St K) (s : Seg K),
    s.weight ≤ w → RepS nodes st s → s.labels.Nodup → w + 3 ≤ k →
    OutPerform nodes s st (performLoop k st) := by
  intro w
  induction w using Nat.strong_induction_on with
  | _ w ih =>
    intro k st s hw h hn hk
    obtain ⟨k, rfl⟩ : ∃ m, k = m + 1 := ⟨k - 1, by omega⟩
    unfold performLoop
    rw [h.todo]
    by_cases hpos : s.todo > 0
    · rw [if_pos hpos]
      have htodo : s.todo ≤ s.weight := by unfold Seg.weight; omega
      have hit := iteration_out (k := k) h hn (by omega)
      cases hi : iteration k st with
      | error x =>
        rw [hi] at hit
        refine Or.inr (Or.inl ⟨x, rfl, ?_⟩)
        rcases hit with rfl | rfl | rfl <;> simp
      | ok p =>
        obtain ⟨st1, temp⟩ := p
        rw [hi] at hit
        obtain ⟨heq, t, hr, ht, hidle⟩ := hit
        simp only [bind, Except.bind, heq, Bool.true_and, ht.todo]
        have hnt := hr.labels.nodup_iff.2 hn
        by_cases hpos' : t.todo > 0
        · simp only [hpos', decide_true, if_true]
          have hu := unlock_out ht
          cases hul : unlock st1 with
          | error x =>
            rw [hul] at hu
            refine Or.inr (Or.inl ⟨x, rfl, ?_⟩)
            rcases hu with rfl | rfl <;> simp
          | ok st2 =>
            rw [hul] at hu
            obtain ⟨u, hu1, hu2⟩ := hu
            have hreach : ReachAny s u := hr.any.tail (.unlock hu1)
            have hnu := hu1.labels.nodup_iff.2 hnt
            -- either the weight has decreased or the state is stuck
            by_cases hdec : u.weight < s.weight
            · rcases ih u.weight (by omega) k st2 u le_rfl hu2 hnu (by omega) with
                ⟨a, b, c1, c2, c3, c4⟩ | hx | ⟨a, b, c1, c2, c3, c4⟩
              · exact Or.inl ⟨a, b, c1, hreach.trans c2, c3, c4⟩
              · exact Or.inr (Or.inl hx)
              · refine Or.inr (Or.inr ⟨a, b, hreach.trans c1, c2, c3, ?_⟩)
                intro k'
                cases k' with
                | zero => rfl
                | succ k' =>
                  unfold performLoop
                  rw [h.todo, if_pos hpos]
                  rcases iteration_agree k k' st with e | e | e
                  · rw [hi] at e; exact absurd e (by simp)
                  · rw [e]; rfl
                  · rw [e, hi]
                    simp only [bind, Except.bind, heq, Bool.true_and, ht.todo, hpos', decide_true,
                      if_true, hul]
                    exact c4 k'
            · have hts : s = t := by
                rcases hr.weight with e | e
                · exact e
                · rcases hu1.weight with e' | e'
                  · rw [e'] at hdec; omega
                  · omega
              subst hts
              have hus : u = s := by
                rcases hu1.weight with e' | e'
                · exact e'
                · omega
              subst hus
              have e1 : st1 = st := ht.unique h
              have e2 : st2 = st := hu2.unique h
              subst e1
              subst e2
              have hstuck : Stuck st2 := ⟨by rw [h.todo]; exact hpos, hidle rfl, hul⟩
              exact Or.inr (Or.inr ⟨st2, u, .refl, h, hstuck, hstuck.forever⟩)
        · simp only [hpos', decide_false, Bool.false_eq_true, if_false]
          -- nothing is left, the loop ends
          refine Or.inl ⟨st1, t, ?_, hr.any, ht, by omega⟩
          obtain ⟨k, rfl⟩ : ∃ m, k = m + 1 := ⟨k - 1, by omega⟩
          unfold performLoop
          rw [ht.todo, if_neg hpos']
    · rw [if_neg hpos]
      exact Or.inl ⟨st, s, rfl, .refl, h, by omega⟩

end Graph
end Pyphs
