import Verif.Split.Model
import Mathlib.Data.List.Chain
import Mathlib.Data.List.Nodup
import Mathlib.Data.List.Perm.Subperm

/-! # The chains found by `serial_next` -/

namespace Verif.Split

open Edge

variable {C : Type} {g : List (Edge C)}

theorem Adj.symm {x y : Name} (h : Adj g x y) : Adj g y x := by
  obtain ⟨e, he, h⟩ := h
  exact ⟨e, he, h.symm⟩

/-- No edge joins a node to itself. -/
def LoopFree (g : List (Edge C)) : Prop := ∀ e ∈ g, e.tail ≠ e.head

theorem LoopFree.adj (h : LoopFree g) {x y : Name} (ha : Adj g x y) : x ≠ y := by
  obtain ⟨e, he, ⟨h1, h2⟩ | ⟨h1, h2⟩⟩ := ha
  · rintro rfl
    exact h e he (h1.trans h2.symm)
  · rintro rfl
    exact h e he (h1.trans h2.symm)

theorem loopFree_iff : LoopFree g ↔ ∀ x, ¬ Adj g x x := by
  constructor
  · intro h x hx
    exact h.adj hx rfl
  · intro h e he heq
    exact h e.tail ⟨e, he, Or.inl ⟨rfl, heq.symm⟩⟩

/-- `n` is not the datum and it has exactly two neighbours. -/
def Mid (g : List (Edge C)) (n : Name) : Prop :=
  n ≠ datum ∧ ∃ a b, a ≠ b ∧ ∀ m, Adj g n m ↔ m = a ∨ m = b

theorem mid_iff {v : View C} (hv : v.Lawful) (hl : LoopFree g) (n : Name) :
    (degree v g n = 2 ∧ n ≠ datum) ↔ Mid g n := by
  have hn : n ∉ v.nbrs g n := fun h => hl.adj ((hv.mem_nbrs g n n).1 h) rfl
  have hnd := hv.nbrs_nodup g n
  simp only [degree, hn, if_false, Nat.add_zero]
  constructor
  · rintro ⟨h2, hd⟩
    obtain ⟨a, b, hab⟩ := List.length_eq_two.1 h2
    refine ⟨hd, a, b, ?_, fun m => ?_⟩
    · rw [hab] at hnd
      simpa using hnd
    · rw [← hv.mem_nbrs g n m, hab]
      simp
  · rintro ⟨hd, a, b, hab, hm⟩
    refine ⟨?_, hd⟩
    have hp : (v.nbrs g n).Perm [a, b] := by
      rw [List.perm_ext_iff_of_nodup hnd (by simpa using hab)]
      intro m
      rw [hv.mem_nbrs g n m, hm]
      simp
    simpa using hp.length_eq

/-- Successive nodes are adjacent, and every node but the ends is a `Mid` whose neighbours are those
of the list. -/
structure Path (g : List (Edge C)) (P : List Name) : Prop where
  chain : P.IsChain (Adj g)
  mid : ∀ l1 a y b l2, P = l1 ++ a :: y :: b :: l2 →
    y ≠ datum ∧ a ≠ b ∧ ∀ m, Adj g y m ↔ m = a ∨ m = b

theorem Path.isMid {P : List Name} (h : Path g P) {l1 l2 : List Name} {a y b : Name}
    (hP : P = l1 ++ a :: y :: b :: l2) : Mid g y := by
  obtain ⟨h1, h2, h3⟩ := h.mid l1 a y b l2 hP
  exact ⟨h1, a, b, h2, h3⟩

theorem Path.reverse {P : List Name} (h : Path g P) : Path g P.reverse := by
  constructor
  · rw [List.isChain_reverse]
    exact h.chain.imp fun _ _ => Adj.symm
  · intro l1 a y b l2 hP
    have : P = l2.reverse ++ b :: y :: a :: l1.reverse := by
      have := congrArg List.reverse hP
      simpa using this
    obtain ⟨h1, h2, h3⟩ := h.mid _ _ _ _ _ this
    exact ⟨h1, h2.symm, fun m => (h3 m).trans or_comm⟩

theorem Path.tail {P : List Name} {x : Name} (h : Path g (x :: P)) : Path g P := by
  constructor
  · exact h.chain.tail
  · intro l1 a y b l2 hP
    exact h.mid (x :: l1) a y b l2 (by rw [hP]; rfl)

theorem Path.cons {y a x : Name} {rest : List Name} (h : Path g (y :: a :: rest))
    (hy : y ≠ datum) (hax : a ≠ x) (hn : ∀ m, Adj g y m ↔ m = a ∨ m = x) :
    Path g (x :: y :: a :: rest) := by
  constructor
  · rw [List.isChain_cons_cons]
    exact ⟨((hn x).2 (Or.inr rfl)).symm, h.chain⟩
  · intro l1 a' y' b' l2 hP
    cases l1 with
    | nil =>
      simp only [List.nil_append, List.cons.injEq] at hP
      obtain ⟨rfl, rfl, rfl, rfl⟩ := hP
      exact ⟨hy, hax.symm, fun m => (hn m).trans or_comm⟩
    | cons z l1 =>
      simp only [List.cons_append, List.cons.injEq] at hP
      exact h.mid l1 a' y' b' l2 hP.2

/-- A member of a list is its head, its last element, or has neighbours in the list. -/
theorem mem_split3 {P : List Name} {x : Name} (h : x ∈ P) :
    (∃ l, P = x :: l) ∨ (∃ l, P = l ++ [x]) ∨ ∃ l1 a b l2, P = l1 ++ a :: x :: b :: l2 := by
  obtain ⟨l1, l2, rfl⟩ := List.append_of_mem h
  rcases List.eq_nil_or_concat l1 with rfl | ⟨l1, a, rfl⟩
  · exact Or.inl ⟨l2, rfl⟩
  · cases l2 with
    | nil => exact Or.inr (Or.inl ⟨_, rfl⟩)
    | cons b l2 => exact Or.inr (Or.inr ⟨l1, a, b, l2, by simp⟩)

/-- A neighbour of the head of a path which is not the second node can only be the other end. -/
theorem Path.extend {y a x fin : Name} {rest Q : List Name} (h : Path g (y :: a :: rest))
    (hnd : (y :: a :: rest).Nodup) (hfin : y :: a :: rest = Q ++ [fin]) (hadj : Adj g y x)
    (hxy : x ≠ y) (hxa : x ≠ a) : x ∈ y :: a :: rest → x = fin := by
  intro hx
  rcases mem_split3 hx with ⟨l, hl⟩ | ⟨l, hl⟩ | ⟨l1, c, b, l2, hl⟩
  · simp only [List.cons.injEq] at hl
    exact absurd hl.1.symm hxy
  · rw [hfin] at hl
    have := congrArg List.getLast? hl
    simpa using this.symm
  · exfalso
    rcases ((h.mid l1 c x b l2 hl).2.2 y).1 hadj.symm with rfl | rfl
    · -- `y = c` is the head
      cases l1 with
      | nil =>
        simp only [List.nil_append, List.cons.injEq] at hl
        exact hxa hl.2.1.symm
      | cons z l1 =>
        rw [hl] at hnd
        simp only [List.cons_append, List.cons.injEq] at hl
        obtain ⟨rfl, -⟩ := hl
        simp at hnd
    · rw [hl] at hnd
      cases l1 with
      | nil =>
        simp only [List.nil_append, List.cons.injEq] at hl
        obtain ⟨rfl, -⟩ := hl
        simp at hnd
      | cons z l1 =>
        simp only [List.cons_append, List.cons.injEq] at hl
        obtain ⟨rfl, -⟩ := hl
        simp at hnd

theorem Path.exists_adj {P : List Name} (h : Path g P) (hP : 2 ≤ P.length) {x : Name}
    (hx : x ∈ P) : ∃ m, Adj g x m := by
  have key : ∀ {l : List Name}, Path g (x :: l) → 2 ≤ (x :: l).length → ∃ m, Adj g x m := by
    intro l hl h2
    cases l with
    | nil => simp at h2
    | cons a l => exact ⟨a, (List.isChain_cons_cons.1 hl.chain).1⟩
  rcases mem_split3 hx with ⟨l, rfl⟩ | ⟨l, rfl⟩ | ⟨l1, c, b, l2, hl⟩
  · exact key h hP
  · have hr := h.reverse
    simp only [List.reverse_append, List.reverse_cons, List.reverse_nil, List.nil_append,
      List.singleton_append] at hr
    exact key hr (by simpa using hP)
  · exact ⟨c, ((h.mid l1 c x b l2 hl).2.2 c).2 (Or.inl rfl)⟩

/-- The neighbour by which the walk goes on. -/
theorem mid_nbrs {v : View C} (hv : v.Lawful) {last prev : Name} (hm : Mid g last)
    (ha : Adj g last prev) : ∃ x, (v.nbrs g last).erase prev = [x] ∧ prev ≠ x ∧
      ∀ m, Adj g last m ↔ m = prev ∨ m = x := by
  obtain ⟨-, a, b, hab, hm⟩ := hm
  have hnd := hv.nbrs_nodup g last
  have hp : (v.nbrs g last).Perm [a, b] := by
    rw [List.perm_ext_iff_of_nodup hnd (by simpa using hab)]
    intro m
    rw [hv.mem_nbrs, hm]
    simp
  rcases (hm prev).1 ha with rfl | rfl
  · refine ⟨b, ?_, hab, hm⟩
    have := hp.erase prev
    simp only [List.erase_cons_head] at this
    exact List.perm_singleton.1 this
  · refine ⟨a, ?_, hab.symm, fun m => (hm m).trans or_comm⟩
    have := hp.erase prev
    rw [List.erase_cons_tail (by simpa using hab), List.erase_cons_head] at this
    exact List.perm_singleton.1 this

/-- The walk `r` (reversed) continues the path `B` (reversed), which ends at `fin`. -/
structure Walk (g : List (Edge C)) (fin : Name) (B r : List Name) : Prop where
  path : Path g (r ++ B)
  ends : ∃ Q, r ++ B = Q ++ [fin]
  nodup : (r ++ B).tail.Nodup
  closed : ∀ x l, r = x :: l → x ∈ l ++ B → x = fin

theorem walk_spec {v : View C} (hv : v.Lawful) (hl : LoopFree g) {start fin : Name}
    {B : List Name} (hf : fin = start ∨ ¬ Mid g fin) : ∀ (fuel : ℕ) (last prev : Name)
    (rest : List Name), Walk g fin B (last :: prev :: rest) →
    (v.nodes g).length + 2 ≤ fuel + (rest.length + 1) →
    ∃ last' prev' rest', walk v g start fuel (last :: prev :: rest) =
        some (last' :: prev' :: rest') ∧
      (prev :: rest) <:+ (prev' :: rest') ∧ (last :: prev :: rest) <:+ (last' :: prev' :: rest') ∧
      Walk g fin B (last' :: prev' :: rest') ∧ (¬ Mid g last' ∨ last' = start) := by
  intro fuel
  induction fuel with
  | zero =>
    intro last prev rest hw hlen
    exfalso
    have hnd : (prev :: rest).Nodup := by
      have := hw.nodup
      simp only [List.cons_append, List.tail_cons] at this
      rw [← List.cons_append] at this
      exact this.of_append_left
    have hsub : (prev :: rest) ⊆ v.nodes g := by
      intro x hx
      rw [hv.mem_nodes]
      refine hw.path.exists_adj (by simp) ?_
      simp only [List.cons_append, List.mem_cons, List.mem_append]
      rcases List.mem_cons.1 hx with h | h
      · exact Or.inr (Or.inl h)
      · exact Or.inr (Or.inr (Or.inl h))
    have := (List.subperm_of_subset hnd hsub).length_le
    simp only [List.length_cons] at this
    omega
  | succ fuel ih =>
    intro last prev rest hw hlen
    unfold walk
    by_cases hm : Mid g last
    · rw [if_pos ((mid_iff hv hl last).2 hm)]
      by_cases hs : start = last
      · rw [if_pos hs]
        exact ⟨last, prev, rest, rfl, List.suffix_refl _, List.suffix_refl _, hw, Or.inr hs.symm⟩
      · rw [if_neg hs]
        have hadj : Adj g last prev := by
          have := hw.path.chain
          simp only [List.cons_append] at this
          exact (List.isChain_cons_cons.1 this).1
        obtain ⟨x, hx, hpx, hn⟩ := mid_nbrs hv hm hadj
        rw [hx]
        dsimp only
        have hnl : last ∉ (prev :: rest) ++ B := by
          intro h
          have := hw.closed last (prev :: rest) rfl h
          rcases hf with hf | hf
          · exact hs (hf.symm.trans this.symm)
          · exact hf (this ▸ hm)
        have hnd : (last :: prev :: rest ++ B).Nodup := by
          refine List.nodup_cons.2 ⟨hnl, ?_⟩
          simpa using hw.nodup
        have hlx : Adj g last x := (hn x).2 (Or.inr rfl)
        obtain ⟨Q, hQ⟩ := hw.ends
        have hw' : Walk g fin B (x :: last :: prev :: rest) := by
          refine ⟨?_, ⟨x :: Q, ?_⟩, ?_, ?_⟩
          · exact hw.path.cons hm.1 hpx hn
          · rw [List.cons_append, hQ]
            rfl
          · exact hnd
          · intro x' l hxl hmem
            simp only [List.cons.injEq] at hxl
            obtain ⟨rfl, rfl⟩ := hxl
            exact hw.path.extend hnd hQ hlx (hl.adj hlx).symm (Ne.symm hpx) hmem
        obtain ⟨l', p', r', h1, h2, h3, h4, h5⟩ := ih x last (prev :: rest) hw' (by
          simp only [List.length_cons]
          omega)
        exact ⟨l', p', r', h1, (List.suffix_cons _ _).trans h2, (List.suffix_cons _ _).trans h3,
          h4, h5⟩
    · rw [if_neg (fun h => hm ((mid_iff hv hl last).1 h))]
      exact ⟨last, prev, rest, rfl, List.suffix_refl _, List.suffix_refl _, hw, Or.inl hm⟩

/-- A set of nodes which contains the neighbours of its nodes contains the chains from its nodes. -/
theorem chain_mem {S : Name → Prop} (hS : ∀ y, S y → ∀ m, Adj g y m → S m) :
    ∀ {l : List Name} {a : Name}, (a :: l).IsChain (Adj g) → S a → ∀ x ∈ a :: l, S x := by
  intro l
  induction l with
  | nil =>
    intro a _ ha x hx
    rw [List.mem_singleton.1 hx]
    exact ha
  | cons b l ih =>
    intro a hc ha x hx
    rw [List.isChain_cons_cons] at hc
    rcases List.mem_cons.1 hx with rfl | hx
    · exact ha
    · exact ih hc.2 (hS a ha b hc.1) x hx

/-- A chain between two different ends. -/
structure Good (g : List (Edge C)) (node : Name) (s : List Name) : Prop where
  nodup : s.Nodup
  three : 3 ≤ s.length
  path : Path g s
  closed : ∀ y ∈ s, Mid g y → ∀ m, Adj g y m → m ∈ s
  mem : node ∈ s

/-- A chain from a node to itself. -/
structure Closing (g : List (Edge C)) (A : Name) (s : List Name) : Prop where
  ne_datum : A ≠ datum
  first : s.head? = some A
  last : s.getLast? = some A
  chain : s.IsChain (Adj g)
  two : ∃ b c, b ≠ c ∧ b ∈ s ∧ c ∈ s ∧ Adj g A b ∧ Adj g A c
  closed : ∀ y ∈ s, y ≠ A → Mid g y ∧ ∀ m, Adj g y m → m ∈ s

theorem suffix_last {l r : List Name} {x : Name} (h : l ++ [x] <:+ r) : ∃ Q, r = Q ++ [x] := by
  obtain ⟨t, rfl⟩ := h
  exact ⟨t ++ l, by simp⟩

theorem chain_spec {v : View C} (hv : v.Lawful) (hl : LoopFree g) {node : Name}
    (hm : Mid g node) : ∃ s, chain v g node = some s ∧
      ((∃ A, Closing g A s) ∨ Good g node s) := by
  have h2 := ((mid_iff hv hl node).2 hm).1
  have hn : node ∉ v.nbrs g node := fun h => hl.adj ((hv.mem_nbrs g node node).1 h) rfl
  simp only [degree, hn, if_false, Nat.add_zero] at h2
  obtain ⟨n1, n2, hnb⟩ := List.length_eq_two.1 h2
  have hnb' : ∀ m, Adj g node m ↔ m = n1 ∨ m = n2 := by
    intro m
    rw [← hv.mem_nbrs g node m, hnb]
    simp
  have h12 : n1 ≠ n2 := by
    have := hv.nbrs_nodup g node
    rw [hnb] at this
    simpa using this
  have ha1 : Adj g node n1 := (hnb' n1).2 (Or.inl rfl)
  have ha2 : Adj g node n2 := (hnb' n2).2 (Or.inr rfl)
  -- a walk from `node` on its own
  have hw0 : ∀ n, Adj g node n → Walk g node [] [n, node] := by
    intro n ha
    refine ⟨⟨?_, ?_⟩, ⟨[n], rfl⟩, ?_, ?_⟩
    · simpa using ha.symm
    · intro l1 a y b l2 hP
      have := congrArg List.length hP
      simp at this
      omega
    · simp
    · intro x l hxl hx
      simp only [List.cons.injEq] at hxl
      obtain ⟨rfl, rfl⟩ := hxl
      simpa using hx
  obtain ⟨x, p1, q1, e1, -, hs1, hw1, hst1⟩ :=
    walk_spec hv hl (start := node) (Or.inl rfl) ((v.nodes g).length + 2) n1 node []
      (hw0 n1 ha1) (by simp)
  obtain ⟨y, p2, q2, e2, -, hs2, hw2, hst2⟩ :=
    walk_spec hv hl (start := node) (Or.inl rfl) ((v.nodes g).length + 2) n2 node []
      (hw0 n2 ha2) (by simp)
  have hE : chain v g node = some ((x :: p1 :: q1).dropLast ++
      (if y = datum ∧ x = datum then (y :: p2 :: q2).tail else y :: p2 :: q2).reverse) := by
    unfold chain serialNext
    rw [hnb]
    dsimp only
    rw [e1, e2]
    simp
  have hp1 := hw1.path
  have hp2 := hw2.path
  rw [List.append_nil] at hp1 hp2
  obtain ⟨t, ht⟩ := hs1
  obtain ⟨t2, ht2⟩ := hs2
  by_cases hx : x = node
  · -- the walk comes back to `node`
    subst hx
    have hlast : x :: p1 :: q1 = (t ++ [n1]) ++ [x] := by simp [← ht]
    have hp1n : p1 = n2 := by
      have hadj : Adj g x p1 := (List.isChain_cons_cons.1 hp1.chain).1
      rcases (hnb' p1).1 hadj with h | h
      · exfalso
        cases t with
        | nil =>
          simp only [List.nil_append, List.cons.injEq] at ht
          exact hl.adj ha1 ht.1.symm
        | cons z t =>
          simp only [List.cons_append, List.cons.injEq] at ht
          have hnd := hw1.nodup
          simp only [List.append_nil, List.tail_cons] at hnd
          cases t with
          | nil =>
            simp only [List.nil_append, List.cons.injEq] at ht
            obtain ⟨-, -, rfl⟩ := ht
            exact (hp1.mid [] x p1 x [] rfl).2.1 rfl
          | cons w t =>
            simp only [List.cons_append, List.cons.injEq] at ht
            rw [← ht.2.2, h] at hnd
            simp at hnd
      · exact h
    have hxS : x ∈ p1 :: q1 := by
      have : x :: p1 :: q1 = t ++ [n1] ++ [x] := hlast
      cases t with
      | nil =>
        simp only [List.nil_append, List.cons_append, List.cons.injEq] at this
        exact absurd this.1.symm (hl.adj ha1).symm
      | cons z t =>
        simp only [List.cons_append, List.cons.injEq] at this
        rw [this.2]
        simp
    have hn1S : n1 ∈ p1 :: q1 := by
      cases t with
      | nil =>
        simp only [List.nil_append, List.cons_append, List.cons.injEq] at hlast
        exact absurd hlast.1.symm (hl.adj ha1).symm
      | cons z t =>
        simp only [List.cons_append, List.cons.injEq] at hlast
        rw [hlast.2]
        simp
    have hmids : ∀ z ∈ p1 :: q1, z ≠ x → Mid g z ∧ ∀ m, Adj g z m → m ∈ p1 :: q1 := by
      intro z hz hzx
      rcases mem_split3 (List.mem_cons_of_mem x hz) with ⟨l, h⟩ | ⟨l, h⟩ | ⟨l1, a, b, l2, h⟩
      · simp only [List.cons.injEq] at h
        exact absurd h.1.symm hzx
      · rw [hlast] at h
        have := congrArg List.getLast? h
        simp only [List.getLast?_append, List.getLast?_singleton, Option.some_or,
          Option.some.injEq] at this
        exact absurd this.symm hzx
      · refine ⟨hp1.isMid h, fun m hm' => ?_⟩
        have hmem : m ∈ x :: p1 :: q1 := by
          rw [h]
          rcases ((hp1.mid _ _ _ _ _ h).2.2 m).1 hm' with rfl | rfl <;> simp
        rcases List.mem_cons.1 hmem with rfl | h'
        · exact hxS
        · exact h'
    have hSc : ∀ z, z ∈ p1 :: q1 → ∀ m, Adj g z m → m ∈ p1 :: q1 := by
      intro z hz m hzm
      by_cases hzx : z = x
      · subst hzx
        rcases (hnb' m).1 hzm with rfl | rfl
        · exact hn1S
        · rw [hp1n]
          simp
      · exact (hmids z hz hzx).2 m hzm
    have hr2 : (y :: p2 :: q2).reverse = x :: n2 :: t2.reverse := by
      rw [← ht2]
      simp
    have hc2 : (x :: n2 :: t2.reverse).IsChain (Adj g) := by
      rw [← hr2]
      exact hp2.reverse.chain
    have hin2 : ∀ z ∈ x :: n2 :: t2.reverse, z ∈ p1 :: q1 := chain_mem hSc hc2 hxS
    have hyx : y = x := by
      have hyS : y ∈ p1 :: q1 := hin2 y (by rw [← hr2]; simp)
      rcases hst2 with h | h
      · by_contra hyx
        exact h (hmids y hyS hyx).1
      · exact h
    subst hyx
    have hmd : y ≠ datum := hm.1
    rw [if_neg (fun h => hmd h.1), hr2] at hE
    have hdl : (y :: p1 :: q1).dropLast = t ++ [n1] := by rw [hlast, List.dropLast_concat]
    rw [hdl] at hE
    refine ⟨_, hE, Or.inl ⟨y, hmd, ?_, ?_, ?_, ⟨n1, n2, h12, by simp, by simp, ha1, ha2⟩, ?_⟩⟩
    · cases t with
      | nil =>
        simp only [List.nil_append, List.cons_append, List.cons.injEq] at hlast
        exact absurd hlast.1 (hl.adj ha1)
      | cons z t =>
        simp only [List.cons_append, List.cons.injEq] at hlast
        simp [hlast.1]
    · have : (n2 :: t2.reverse).getLast? = some y := by
        have h := congrArg List.getLast? hr2
        simp only [List.getLast?_reverse, List.head?_cons] at h
        rw [List.getLast?_cons_cons] at h
        exact h.symm
      rw [List.getLast?_append, List.getLast?_cons_cons, this]
      rfl
    · have := List.IsChain.append_overlap (l₁ := t ++ [n1]) (l₂ := [y]) (l₃ := n2 :: t2.reverse)
        (R := Adj g) (by rw [← hlast]; exact hp1.chain) hc2 (by simp)
      simpa using this
    · intro z hz hzy
      have hzS : z ∈ p1 :: q1 := by
        rcases List.mem_append.1 hz with h | h
        · have : z ∈ y :: p1 :: q1 := by
            rw [hlast]
            exact List.mem_append_left _ h
          exact (List.mem_cons.1 this).resolve_left hzy
        · exact hin2 z h
      refine ⟨(hmids z hzS hzy).1, fun m hzm => ?_⟩
      have hmS := (hmids z hzS hzy).2 m hzm
      have : m ∈ t ++ [n1] ++ [y] := by
        rw [← hlast]
        exact List.mem_cons_of_mem _ hmS
      rcases List.mem_append.1 this with h | h
      · exact List.mem_append_left _ h
      · exact List.mem_append_right _ (List.mem_cons.2 (Or.inl (List.mem_singleton.1 h)))
  · -- the walk stops at another node
    have hmx : ¬ Mid g x := hst1.resolve_right hx
    have hxn : x ∉ p1 :: q1 := by
      intro h
      exact hx (hw1.closed x (p1 :: q1) rfl (by rw [List.append_nil]; exact h))
    have hnd1 : (x :: p1 :: q1).Nodup := by
      refine List.nodup_cons.2 ⟨hxn, ?_⟩
      simpa using hw1.nodup
    set B : List Name := n1 :: t.reverse with hB
    have hrev : (x :: p1 :: q1).reverse = node :: B := by
      rw [← ht, hB]
      simp
    have hfin : node :: B = (p1 :: q1).reverse ++ [x] := by
      rw [← hrev, List.reverse_cons]
    have hpB : Path g (node :: B) := hrev ▸ hp1.reverse
    have hndB : (node :: B).Nodup := by
      rw [← hrev]
      exact List.nodup_reverse.2 hnd1
    have hwB : Walk g x B [n2, node] := by
      refine ⟨hpB.cons hm.1 h12 hnb', ⟨n2 :: (p1 :: q1).reverse, ?_⟩, hndB, ?_⟩
      · show n2 :: (node :: B) = _
        rw [hfin]
        rfl
      · intro x' l hxl hx'
        simp only [List.cons.injEq] at hxl
        obtain ⟨rfl, rfl⟩ := hxl
        exact hpB.extend hndB hfin ha2 (hl.adj ha2).symm h12.symm hx'
    obtain ⟨y', p2', q2', e2', hsn, -, hw2', hst2'⟩ :=
      walk_spec hv hl (start := node) (Or.inr hmx) ((v.nodes g).length + 2) n2 node [] hwB
        (by simp)
    rw [e2] at e2'
    obtain ⟨rfl, rfl, rfl⟩ : y = y' ∧ p2 = p2' ∧ q2 = q2' := by simpa using e2'
    have hnode : node ∈ p2 :: q2 := hsn.subset (by simp)
    have hmy : ¬ Mid g y := by
      rcases hst2' with h | h
      · exact h
      · exfalso
        subst h
        exact hx (hw2'.closed y (p2 :: q2) rfl (List.mem_append_left _ hnode)).symm
    have hdl : (x :: p1 :: q1).dropLast = B.reverse := by
      have : x :: p1 :: q1 = B.reverse ++ [node] := by
        rw [← List.reverse_reverse (x :: p1 :: q1), hrev, List.reverse_cons]
      rw [this, List.dropLast_concat]
    obtain ⟨Q, hQ⟩ := hw2'.ends
    have hP := hw2'.path
    have hmids : ∀ z ∈ y :: p2 :: q2 ++ B, z ≠ y → z ≠ x →
        Mid g z ∧ ∀ m, Adj g z m → m ∈ y :: p2 :: q2 ++ B := by
      intro z hz hzy hzx
      rcases mem_split3 hz with ⟨l, h⟩ | ⟨l, h⟩ | ⟨l1, a, b, l2, h⟩
      · simp only [List.cons_append, List.cons.injEq] at h
        exact absurd h.1.symm hzy
      · rw [hQ] at h
        have := congrArg List.getLast? h
        simp only [List.getLast?_append, List.getLast?_singleton, Option.some_or,
          Option.some.injEq] at this
        exact absurd this.symm hzx
      · refine ⟨hP.isMid h, fun m hm' => ?_⟩
        rw [h]
        rcases ((hP.mid _ _ _ _ _ h).2.2 m).1 hm' with rfl | rfl <;> simp
    have hxB : x ∈ B := by
      have : x ∈ node :: B := by
        rw [hfin]
        simp
      exact (List.mem_cons.1 this).resolve_left hx
    rw [hdl] at hE
    by_cases hdd : y = datum ∧ x = datum
    · rw [if_pos hdd, List.tail_cons, ← List.reverse_append] at hE
      refine ⟨_, hE, Or.inr ⟨List.nodup_reverse.2 ?_, ?_, ?_, ?_, ?_⟩⟩
      · simpa using hw2'.nodup
      · -- at least three nodes
        rw [List.length_reverse, List.length_append]
        have hBlen : B.length = t.length + 1 := by simp [hB]
        cases q2 with
        | cons w q2 =>
          simp only [List.length_cons]
          omega
        | nil =>
          simp only [List.length_cons, List.length_nil]
          have : y = n2 := by
            have h := congrArg List.reverse ht2
            simp only [List.reverse_append, List.reverse_cons, List.reverse_nil, List.nil_append,
              List.cons_append, List.cons.injEq] at h
            exact h.2.1.symm
          cases t with
          | nil =>
            exfalso
            have hxn1 : x = n1 := by simpa [hB] using hxB
            exact h12 (by rw [← hxn1, ← this, hdd.1, hdd.2])
          | cons w t =>
            simp only [List.length_cons] at hBlen
            omega
      · exact Path.reverse (Path.tail hP)
      · intro z hz hmz m hzm
        rw [List.mem_reverse] at hz ⊢
        have hzy : z ≠ y := by
          rintro rfl
          exact hmy hmz
        have hzx : z ≠ x := by
          rintro rfl
          exact hmx hmz
        have := (hmids z (List.mem_cons_of_mem _ hz) hzy hzx).2 m hzm
        rcases List.mem_cons.1 this with h | h
        · rw [h, hdd.1, ← hdd.2]
          exact List.mem_append_right _ hxB
        · exact h
      · rw [List.mem_reverse]
        exact List.mem_append_left _ hnode
    · rw [if_neg hdd, ← List.reverse_append] at hE
      by_cases hyx : y = x
      · subst hyx
        refine ⟨_, hE, Or.inl ⟨y, fun h => hdd ⟨h, h⟩, ?_, ?_, ?_, ?_, ?_⟩⟩
        · rw [hQ]
          simp
        · simp
        · exact hP.reverse.chain
        · have hyp : Adj g y p2 := by
            have := hP.chain
            simp only [List.cons_append] at this
            exact (List.isChain_cons_cons.1 this).1
          rcases List.eq_nil_or_concat Q with rfl | ⟨Q1, c, rfl⟩
          · simp at hQ
          · rw [List.concat_eq_append] at hQ
            have hyc : Adj g y c := by
              have := hP.chain
              rw [hQ, List.append_assoc, List.isChain_append] at this
              exact (List.isChain_cons_cons.1 this.2.1).1.symm
            refine ⟨p2, c, ?_, ?_, ?_, hyp, hyc⟩
            · rintro rfl
              have hnd := hw2'.nodup
              cases Q1 with
              | nil =>
                simp only [List.cons_append, List.nil_append, List.cons.injEq] at hQ
                exact hl.adj hyp hQ.1
              | cons w Q1 =>
                cases Q1 with
                | nil =>
                  simp only [List.cons_append, List.nil_append, List.cons.injEq] at hQ
                  exact (hP.mid [] y p2 y [] (by simp [hQ.2.2])).2.1 rfl
                | cons w' Q1 =>
                  rw [hQ] at hnd
                  simp only [List.cons_append, List.cons.injEq] at hQ
                  simp only [List.cons_append, List.tail_cons, ← hQ.2.1] at hnd
                  simp at hnd
            · simp
            · rw [List.mem_reverse, hQ]
              simp
        · intro z hz hzy
          rw [List.mem_reverse] at hz
          refine ⟨(hmids z hz hzy hzy).1, fun m hzm => ?_⟩
          rw [List.mem_reverse]
          exact (hmids z hz hzy hzy).2 m hzm
      · refine ⟨_, hE, Or.inr ⟨List.nodup_reverse.2 ?_, ?_, hP.reverse, ?_, ?_⟩⟩
        · refine List.nodup_cons.2 ⟨fun h => hyx (hw2'.closed y _ rfl h), ?_⟩
          simpa using hw2'.nodup
        · simp only [List.length_reverse, List.length_append, List.length_cons, hB]
          omega
        · intro z hz hmz m hzm
          rw [List.mem_reverse] at hz ⊢
          have hzy : z ≠ y := by
            rintro rfl
            exact hmy hmz
          have hzx : z ≠ x := by
            rintro rfl
            exact hmx hmz
          exact (hmids z hz hzy hzx).2 m hzm
        · rw [List.mem_reverse]
          exact List.mem_append_left _ (List.mem_cons_of_mem _ hnode)

end Verif.Split
