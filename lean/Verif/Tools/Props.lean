/-
Properties C01 and C54 (index reordering and list utilities), and the list part of C25.
-/
import Verif.Tools.Lemmas
import Mathlib.Data.List.Sort

namespace Pyphs

/-! ## C01: `myrange` -/

/-- Specification of "range(N) with index `i` at position `j`": a reordering of
`0..N-1` that has `i` at position `j` (or last if `j` is too large), the other indices
keeping their relative order. Independent of how the code builds it. -/
structure IsMovedRange (N i j : ℕ) (l : List ℕ) : Prop where
  perm : l.Perm (List.range N)
  pos : l[min j (N - 1)]? = some i
  others : l.filter (· ≠ i) = (List.range N).filter (· ≠ i)

theorem filter_ne_append_cons (a b : List ℕ) (i : ℕ) (ha : i ∉ a) (hb : i ∉ b) :
    (a ++ i :: b).filter (· ≠ i) = a ++ b := by
  have h1 : a.filter (· ≠ i) = a := List.filter_eq_self.2 fun x hx => by
    have : x ≠ i := fun h => ha (h ▸ hx)
    simpa using this
  have h2 : b.filter (· ≠ i) = b := List.filter_eq_self.2 fun x hx => by
    have : x ≠ i := fun h => hb (h ▸ hx)
    simpa using this
  simp only [List.filter_append, List.filter_cons, h1, h2]
  simp

theorem eq_take_drop_of_pos {l : List ℕ} {k i : ℕ} (h : l[k]? = some i) :
    l = l.take k ++ i :: l.drop (k + 1) := by
  obtain ⟨hk, hi⟩ := List.getElem?_eq_some_iff.1 h
  rw [← hi, List.getElem_cons_drop, List.take_append_drop]

/-- The specification determines the list. -/
theorem IsMovedRange.unique {N i j : ℕ} {l l' : List ℕ} (h : IsMovedRange N i j l)
    (h' : IsMovedRange N i j l') : l = l' := by
  have nd : l.Nodup := h.perm.nodup_iff.2 List.nodup_range
  have nd' : l'.Nodup := h'.perm.nodup_iff.2 List.nodup_range
  have e := eq_take_drop_of_pos h.pos
  have e' := eq_take_drop_of_pos h'.pos
  set k := min j (N - 1)
  have key : ∀ m : List ℕ, m.Nodup → m = m.take k ++ i :: m.drop (k+1) →
      m.filter (· ≠ i) = m.take k ++ m.drop (k+1) := by
    intro m hm hme
    have hm' := hm
    rw [hme] at hm'
    rw [List.nodup_append] at hm'
    obtain ⟨_, h2, h3⟩ := hm'
    conv_lhs => rw [hme]
    apply filter_ne_append_cons
    · intro hi
      exact h3 i hi i (by simp) rfl
    · exact (List.nodup_cons.1 h2).1
  have hf : l.take k ++ l.drop (k+1) = l'.take k ++ l'.drop (k+1) := by
    rw [← key l nd e, ← key l' nd' e', h.others, h'.others]
  have hlen : (l.take k).length = (l'.take k).length := by
    rw [List.length_take, List.length_take, h.perm.length_eq, h'.perm.length_eq]
  obtain ⟨h1, h2⟩ := List.append_inj hf hlen
  rw [e, e', h1, h2]

/-- **C01**. For every `N`, every valid source `i` and every target `j`, `myrange`
returns exactly the list required by the specification. -/
theorem C01_myrange_spec (N i j : ℕ) (hi : i < N) :
    ∃ l, myrange N i j = some l ∧ IsMovedRange N i j l := by
  refine ⟨_, myrange_eq_map N i j hi, ?_, ?_, ?_⟩
  · exact perm_range_of_inj (mrIdx_injective _ _) fun k hk => mrIdx_lt hi (by omega) hk
  · have : min j (N - 1) < N := by omega
    simp [this, mrIdx]
  · -- both sides are strictly increasing lists with the same elements
    have hs : ((List.range N).filter (· ≠ i)).Pairwise (· < ·) :=
      List.Pairwise.filter _ List.pairwise_lt_range
    have hs' : (((List.range N).map (mrIdx i (min j (N - 1)))).filter (· ≠ i)).Pairwise
        (· < ·) := by
      rw [List.filter_map, List.pairwise_map]
      refine List.Pairwise.imp_of_mem ?_ (List.Pairwise.filter _ (List.pairwise_lt_range (n := N)))
      intro a b ha hb hab
      simp only [List.mem_filter, List.mem_range, Function.comp, decide_eq_true_eq] at ha hb
      revert ha hb
      unfold mrIdx
      split_ifs <;> omega
    have hp : (((List.range N).map (mrIdx i (min j (N - 1)))).filter (· ≠ i)).Perm
        ((List.range N).filter (· ≠ i)) :=
      (perm_range_of_inj (mrIdx_injective _ _) fun k hk => mrIdx_lt hi (by omega) hk).filter _
    exact hp.eq_of_pairwise (fun a b _ _ h1 h2 => by omega) hs' hs

/-- **C01**. Whatever `myrange` returns for a valid source is what the specification
determines (exactness: with `IsMovedRange.unique`). -/
theorem C01_myrange_iff (N i j : ℕ) (hi : i < N) (l : List ℕ) :
    myrange N i j = some l ↔ IsMovedRange N i j l := by
  obtain ⟨l', h, hs⟩ := C01_myrange_spec N i j hi
  constructor
  · intro hl; rw [h] at hl; obtain rfl := Option.some.inj hl; exact hs
  · intro hl; rw [hs.unique hl] at h; exact h

/-- **C01**. The only error is an out-of-range source index. -/
theorem C01_myrange_error (N i j : ℕ) : myrange N i j = none ↔ N ≤ i ∧ i ≠ j :=
  myrange_none_iff N i j

/-- **C01**. Moving `i` to `j` and then `j` back to `i` is the identity: reindexing the
first list by the second gives `range(N)`. -/
theorem C01_myrange_roundtrip (N i j : ℕ) (hi : i < N) (hj : j < N) (l l' : List ℕ)
    (h : myrange N i j = some l) (h' : myrange N j i = some l') :
    l'.map (fun k => l[k]?) = (List.range N).map some := by
  rw [myrange_eq_map N i j hi] at h
  rw [myrange_eq_map N j i hj] at h'
  obtain rfl := Option.some.inj h
  obtain rfl := Option.some.inj h'
  rw [List.map_map]
  apply List.map_congr_left
  intro k hk
  have hk' : k < N := by simpa using hk
  have e1 : min j (N - 1) = j := by omega
  have e2 : min i (N - 1) = i := by omega
  have := mrIdx_lt hj hi hk'
  simp [e1, e2, this, mrIdx_inv]

example : myrange 5 1 3 = some [0, 2, 3, 1, 4] := by decide
example : myrange 5 3 1 = some [0, 3, 1, 2, 4] := by decide
example : myrange 5 2 9 = some [0, 1, 3, 4, 2] := by decide
example : myrange 3 3 1 = none := by decide
example : IsMovedRange 5 1 3 [0, 2, 3, 1, 4] := (C01_myrange_iff 5 1 3 (by decide) _).1 (by decide)

/-! ## C54: list utilities -/

theorem decimateLoop_getElem? {α : Type*} (nd : ℕ) (hnd : 0 < nd) (l : List α) :
    ∀ (n k : ℕ), (decimateLoop nd n l)[k]? = l[k * nd + (nd - 1 - (n + nd - 1) % nd)]? := by
  induction l with
  | nil => simp [decimateLoop]
  | cons a l ih =>
    intro n k
    rw [decimateLoop]
    by_cases h : n % nd = 0
    · simp only [h, ↓reduceIte]
      obtain ⟨q, rfl⟩ := Nat.dvd_of_mod_eq_zero h
      have e : (nd * q + nd - 1) % nd = nd - 1 := by
        rw [Nat.add_sub_assoc hnd, Nat.mul_add_mod, Nat.mod_eq_of_lt (by omega)]
      rw [e]
      cases k with
      | zero => simp
      | succ k =>
        rw [List.getElem?_cons_succ, ih]
        have e2 : (nd * q + 1 + nd - 1) % nd = 0 := by
          rw [show nd * q + 1 + nd - 1 = nd * q + nd by omega]; simp
        rw [e2, show (k+1) * nd + (nd - 1 - (nd - 1)) = (k * nd + (nd - 1)) + 1 by
          rw [Nat.add_mul]; omega, List.getElem?_cons_succ]
        simp
    · simp only [h, ↓reduceIte]
      rw [ih]
      have hm : n % nd < nd := Nat.mod_lt _ hnd
      have e1 : (n + nd - 1) % nd = n % nd - 1 := by
        conv_lhs => rw [← Nat.div_add_mod n nd]
        rw [show nd * (n / nd) + n % nd + nd - 1 = nd * (n/nd) + ((n % nd - 1) + nd) by omega,
          Nat.mul_add_mod, Nat.add_mod_right, Nat.mod_eq_of_lt (by omega)]
      have e2 : (n + 1 + nd - 1) % nd = n % nd := by
        rw [show n + 1 + nd - 1 = n + nd by omega]; simp
      rw [e1, e2, show k * nd + (nd - 1 - (n % nd - 1)) = (k * nd + (nd - 1 - n % nd)) + 1 by omega,
        List.getElem?_cons_succ]

/-- **C54**. `decimate(it, nd)` returns exactly the elements number `0, nd, 2*nd, ...`: its
`k`-th element is element `k*nd` of the input, and it stops exactly when those run out. -/
theorem C54_decimate {α : Type*} (it : List α) (nd : ℕ) (hnd : 0 < nd) :
    ∃ l, decimate it nd = some l ∧ ∀ k, l[k]? = it[k * nd]? := by
  refine ⟨decimateLoop nd 0 it, by simp [decimate, hnd], fun k => ?_⟩
  rw [decimateLoop_getElem? nd hnd]
  rw [show (0 + nd - 1) % nd = nd - 1 by rw [Nat.mod_eq_of_lt] <;> omega]
  simp

/-- **C54**. A zero factor is rejected (failed assertion), never a silent result. -/
theorem C54_decimate_error {α : Type*} (it : List α) : decimate it 0 = none := rfl

example : decimate [10, 11, 12, 13, 14, 15, 16] 3 = some [10, 13, 16] := by decide

theorem mem_removeDuplicatesLoop {α : Type*} [DecidableEq α] (lis : List α) :
    ∀ (out : List α) (a : α), a ∈ removeDuplicatesLoop out lis ↔ a ∈ out ∨ a ∈ lis := by
  induction lis with
  | nil => simp [removeDuplicatesLoop]
  | cons b l ih =>
    intro out a
    rw [removeDuplicatesLoop]
    split_ifs with h
    · rw [ih, List.mem_cons]
      constructor
      · rintro (h1 | h1) <;> simp [h1]
      · rintro (h1 | rfl | h1) <;> simp_all
    · rw [ih]; simp [or_assoc]

theorem nodup_removeDuplicatesLoop {α : Type*} [DecidableEq α] (lis : List α) :
    ∀ (out : List α), out.Nodup → (removeDuplicatesLoop out lis).Nodup := by
  induction lis with
  | nil => simp [removeDuplicatesLoop]
  | cons b l ih =>
    intro out h
    rw [removeDuplicatesLoop]
    split_ifs with hb
    · exact ih _ h
    · refine ih _ ?_
      rw [List.nodup_append]
      exact ⟨h, by simp, by intro a ha b' hb'; simp at hb'; subst hb'; exact fun e => hb (e ▸ ha)⟩

/-- First-occurrence order: `a` comes strictly before `b` in `l` at first occurrences. -/
def FirstBefore {α : Type*} [DecidableEq α] (l : List α) (a b : α) : Prop :=
  a ∈ l ∧ b ∈ l ∧ l.idxOf a < l.idxOf b

theorem removeDuplicatesLoop_prefix {α : Type*} [DecidableEq α] (lis : List α) :
    ∀ out : List α, out <+: removeDuplicatesLoop out lis := by
  induction lis with
  | nil => intro out; simp [removeDuplicatesLoop]
  | cons b l ih =>
    intro out
    rw [removeDuplicatesLoop]
    split_ifs with hb
    · exact ih _
    · exact (List.prefix_append out [b]).trans (ih _)

theorem idxOf_prefix {α : Type*} [DecidableEq α] {l l' : List α} (h : l <+: l') {a : α}
    (ha : a ∈ l) : l'.idxOf a = l.idxOf a := by
  obtain ⟨t, rfl⟩ := h
  exact List.idxOf_append_of_mem ha

theorem firstBefore_append_iff {α : Type*} [DecidableEq α] (out l : List α) (a b : α) :
    FirstBefore (removeDuplicatesLoop out l) a b ↔ FirstBefore (out ++ l) a b := by
  induction l generalizing out with
  | nil => simp [removeDuplicatesLoop]
  | cons c l ih =>
    rw [removeDuplicatesLoop]
    split_ifs with hc
    · rw [ih]
      -- dropping a later duplicate does not change first-occurrence order
      unfold FirstBefore
      have hm : ∀ d, d ∈ out ++ l ↔ d ∈ out ++ c :: l := by
        intro d
        simp only [List.mem_append, List.mem_cons]
        constructor
        · rintro (h | h) <;> simp [h]
        · rintro (h | rfl | h) <;> simp_all
      have hi : ∀ d, d ∈ out ++ l → (d ∈ out → (out ++ l).idxOf d = out.idxOf d ∧
          (out ++ c :: l).idxOf d = out.idxOf d) ∧
          (d ∉ out → (out ++ l).idxOf d = out.length + l.idxOf d ∧
            (out ++ c :: l).idxOf d = out.length + l.idxOf d + 1) := by
        intro d _
        refine ⟨fun h => ⟨List.idxOf_append_of_mem h, List.idxOf_append_of_mem h⟩, fun h => ?_⟩
        have hdc : c ≠ d := fun e => h (e ▸ hc)
        rw [List.idxOf_append_of_notMem h, List.idxOf_append_of_notMem h,
          List.idxOf_cons_ne _ hdc]
        exact ⟨rfl, by omega⟩
      rw [← hm a, ← hm b]
      refine and_congr_right fun ha => and_congr_right fun hb => ?_
      by_cases ha' : a ∈ out <;> by_cases hb' : b ∈ out
      · rw [((hi a ha).1 ha').1, ((hi a ha).1 ha').2, ((hi b hb).1 hb').1, ((hi b hb).1 hb').2]
      · have := List.idxOf_lt_length_of_mem ha'
        rw [((hi a ha).1 ha').1, ((hi a ha).1 ha').2, ((hi b hb).2 hb').1, ((hi b hb).2 hb').2]
        omega
      · have := List.idxOf_lt_length_of_mem hb'
        rw [((hi a ha).2 ha').1, ((hi a ha).2 ha').2, ((hi b hb).1 hb').1, ((hi b hb).1 hb').2]
        omega
      · rw [((hi a ha).2 ha').1, ((hi a ha).2 ha').2, ((hi b hb).2 hb').1, ((hi b hb).2 hb').2]
        omega
    · rw [ih]; simp

/-- **C54**. `remove_duplicates(lis)` has no duplicates, the same elements, and the order of
first occurrences of the input. -/
theorem C54_removeDuplicates {α : Type*} [DecidableEq α] (lis : List α) :
    (removeDuplicates lis).Nodup ∧ (∀ a, a ∈ removeDuplicates lis ↔ a ∈ lis) ∧
    (∀ a b, FirstBefore (removeDuplicates lis) a b ↔ FirstBefore lis a b) := by
  refine ⟨nodup_removeDuplicatesLoop lis [] (by simp), fun a => ?_, fun a b => ?_⟩
  · simp [removeDuplicates, mem_removeDuplicatesLoop]
  · simpa [removeDuplicates] using firstBefore_append_iff [] lis a b

example : removeDuplicates ["b", "a", "b", "c", "a"] = ["b", "a", "c"] := by decide

/-- **C54**. `interleave(l1, l2)` alternates the two lists and stops at the shorter one. -/
theorem C54_interleave {α : Type*} (l1 l2 : List α) :
    (interleave l1 l2).length = 2 * min l1.length l2.length ∧
    ∀ k < min l1.length l2.length,
      (interleave l1 l2)[2 * k]? = l1[k]? ∧ (interleave l1 l2)[2 * k + 1]? = l2[k]? := by
  induction l1 generalizing l2 with
  | nil => simp [interleave]
  | cons a l1 ih =>
    cases l2 with
    | nil => simp [interleave]
    | cons b l2 =>
      have e : interleave (a :: l1) (b :: l2) = a :: b :: interleave l1 l2 := by
        simp [interleave]
      obtain ⟨h1, h2⟩ := ih l2
      refine ⟨by rw [e]; simp only [List.length_cons]; omega, fun k hk => ?_⟩
      rw [e]
      cases k with
      | zero => simp
      | succ k =>
        have := h2 k (by simp only [List.length_cons] at hk; omega)
        rw [show 2 * (k + 1) = 2 * k + 1 + 1 by omega]
        simpa using this

example : interleave [1, 2, 3] [10, 20, 30] = [1, 10, 2, 20, 3, 30] := by decide

/-- Specification for `get_strings`: the string `s` occurs somewhere in the nested object. -/
inductive Occurs (s : String) : Nested → Prop
  | here : Occurs s (.str s)
  | inside {l : List Nested} {o : Nested} (hmem : o ∈ l) (h : Occurs s o) : Occurs s (.list l)

mutual
theorem mem_getStrings (remove : List String) (s : String) :
    (o : Nested) → (s ∈ getStrings remove o ↔ s ∉ remove ∧ Occurs s o)
  | .str t => by
    rw [getStrings]
    constructor
    · intro h
      split_ifs at h with ht
      · simp at h
      · simp at h; subst h; exact ⟨ht, .here⟩
    · rintro ⟨h1, h2⟩
      cases h2
      simp [h1]
  | .list l => by
    rw [getStrings, mem_getStringsList remove s l]
    constructor
    · rintro ⟨h1, o, ho, h2⟩; exact ⟨h1, .inside ho h2⟩
    · rintro ⟨h1, h2⟩
      cases h2 with
      | inside hm h => exact ⟨h1, _, hm, h⟩
theorem mem_getStringsList (remove : List String) (s : String) :
    (l : List Nested) → (s ∈ getStringsList remove l ↔ s ∉ remove ∧ ∃ o ∈ l, Occurs s o)
  | [] => by simp [getStringsList]
  | o :: l => by
    rw [getStringsList, List.mem_append, mem_getStrings remove s o, mem_getStringsList remove s l]
    simp only [List.mem_cons, exists_eq_or_imp]
    tauto
end

/-- **C54**. `get_strings(obj, remove)` returns exactly the strings occurring in the object
at any depth, except the removed ones. -/
theorem C54_getStrings (remove : List String) (s : String) (o : Nested) :
    s ∈ getStrings remove o ↔ s ∉ remove ∧ Occurs s o := mem_getStrings remove s o

mutual
theorem getStrings_filter (remove : List String) :
    (o : Nested) → getStrings remove o = (getStrings [] o).filter (· ∉ remove)
  | .str t => by
    rw [getStrings, getStrings]
    by_cases h : t ∈ remove <;> simp [h]
  | .list l => by
    rw [getStrings, getStrings, getStringsList_filter remove l]
theorem getStringsList_filter (remove : List String) :
    (l : List Nested) → getStringsList remove l = (getStringsList [] l).filter (· ∉ remove)
  | [] => by simp [getStringsList]
  | o :: l => by
    rw [getStringsList, getStringsList, List.filter_append, ← getStrings_filter remove o,
      ← getStringsList_filter remove l]
end

theorem getStringsList_eq_flatMap (remove : List String) (l : List Nested) :
    getStringsList remove l = l.flatMap (getStrings remove) := by
  induction l with
  | nil => simp [getStringsList]
  | cons o l ih => simp [getStringsList, ih]

/-- **C54**. Order: the strings of a list are those of its items, in order (removing strings
is a filter, it never reorders). -/
theorem C54_getStrings_order (remove : List String) (l : List Nested) (o : Nested) :
    getStrings remove (.list l) = l.flatMap (getStrings remove) ∧
    getStrings remove o = (getStrings [] o).filter (· ∉ remove) :=
  ⟨by rw [getStrings, getStringsList_eq_flatMap], getStrings_filter remove o⟩

example : getStrings ["exec"] (.list [.str "jkl", .list [.str "exec", .list [.str "o"]], .str "r"])
    = ["jkl", "o", "r"] := by simp [getStrings, getStringsList]

/-! ## C25, list part: `find` -/

theorem findLoop_spec {α : Type*} [DecidableEq α] (symbs all : List α) :
    ∀ n, (findLoop symbs n all).map Prod.fst = all.filter (· ∈ symbs) ∧
      (∀ p ∈ findLoop symbs n all, n ≤ p.2 ∧ all[p.2 - n]? = some p.1) ∧
      ((findLoop symbs n all).map Prod.snd).Pairwise (· < ·) := by
  induction all with
  | nil => simp [findLoop]
  | cons a l ih =>
    intro n
    obtain ⟨h1, h2, h3⟩ := ih (n + 1)
    rw [findLoop]
    split_ifs with h
    · refine ⟨by simp [h, h1], ?_, ?_⟩
      · intro p hp
        rcases List.mem_cons.1 hp with rfl | hp
        · simp
        · obtain ⟨h4, h5⟩ := h2 p hp
          refine ⟨by omega, ?_⟩
          rw [show p.2 - n = (p.2 - (n+1)) + 1 by omega]
          simpa using h5
      · simp only [List.map_cons, List.pairwise_cons]
        refine ⟨fun k hk => ?_, h3⟩
        obtain ⟨p, hp, rfl⟩ := List.mem_map.1 hk
        have := (h2 p hp).1
        omega
    · refine ⟨by simp [h, h1], ?_, h3⟩
      intro p hp
      obtain ⟨h4, h5⟩ := h2 p hp
      refine ⟨by omega, ?_⟩
      rw [show p.2 - n = (p.2 - (n+1)) + 1 by omega]
      simpa using h5

/-- **C25** (ordering). `find(symbs, allsymbs)` returns the members of `symbs` in the order of
`allsymbs`, together with their (increasing) positions. -/
theorem C25_find {α : Type*} [DecidableEq α] (symbs all : List α) :
    (find symbs all).1 = all.filter (· ∈ symbs) ∧
    (find symbs all).2.Pairwise (· < ·) ∧
    (find symbs all).2.map (fun i => all[i]?) = (find symbs all).1.map some := by
  obtain ⟨h1, h2, h3⟩ := findLoop_spec symbs all 0
  refine ⟨h1, h3, ?_⟩
  simp only [find, List.map_map]
  apply List.map_congr_left
  intro p hp
  simpa using (h2 p hp).2

/-- **C25** (values). Reading a vector of values at the indices returned by `find` gives each
argument its own value: `zip args (values at inds)` agrees with the environment that maps
`allsymbs[i]` to `vals[i]`. -/
theorem C25_find_values {α β : Type*} [DecidableEq α] (symbs all : List α) (env : α → β) :
    (find symbs all).2.map (fun i => (all.map env)[i]?) =
      (find symbs all).1.map (fun s => some (env s)) := by
  have h := (C25_find symbs all).2.2
  have := congrArg (List.map (Option.map env)) h
  simpa [List.map_map, Function.comp_def] using this

example : find ["c", "a"] ["a", "b", "c"] = (["a", "c"], [0, 2]) := by decide

end Pyphs
