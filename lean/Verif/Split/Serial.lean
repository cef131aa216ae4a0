import Verif.Split.Parallel

/-! # `_split_serial` -/

namespace Verif.Split

open Edge

variable {C : Type}

/-! ## Removal of edges -/

theorem filter_at_of_le_one {u w : Name} : ∀ {l : List (Edge C)},
    (l.filter (at' u w)).length ≤ 1 → l.eraseP (at' u w) = l.filter fun x => !at' u w x := by
  intro l
  induction l with
  | nil => intro _; rfl
  | cons a l ih =>
    intro h
    by_cases ha : at' u w a = true
    · rw [List.eraseP_cons_of_pos ha]
      have h0 : l.filter (at' u w) = [] := by
        rw [List.filter_cons_of_pos ha, List.length_cons] at h
        exact List.length_eq_zero_iff.1 (by omega)
      rw [List.filter_cons_of_neg (by simp [ha])]
      symm
      rw [List.filter_eq_self]
      intro x hx
      by_contra hc
      have : x ∈ l.filter (at' u w) := List.mem_filter.2 ⟨hx, by simpa using hc⟩
      rw [h0] at this
      cases this
    · rw [List.eraseP_cons_of_neg ha, List.filter_cons_of_pos (by simpa using ha)]
      rw [List.filter_cons_of_neg ha] at h
      rw [ih h]

theorem popEdge_eq {u w : Name} {l : List (Edge C)} (h : (l.filter (at' u w)).length ≤ 1) :
    popEdge u w l = l.filter fun x => !at' u w x := by
  unfold popEdge
  rw [filter_at_of_le_one (by rw [List.filter_reverse, List.length_reverse]; exact h),
    List.filter_reverse, List.reverse_reverse]

/-- the edge `x` goes between the same nodes as one of `es` -/
def hit (es : List (Edge C)) (x : Edge C) : Bool := es.any fun e => at' e.tail e.head x

theorem filter_le (p q : Edge C → Bool) (l : List (Edge C)) :
    ((l.filter p).filter q).length ≤ (l.filter q).length := by
  rw [List.filter_comm]
  exact List.length_filter_le _ _

theorem popAll_eq : ∀ (es l : List (Edge C)),
    (∀ e ∈ es, (l.filter (at' e.tail e.head)).length ≤ 1) →
    es.foldl (fun g e => popEdge e.tail e.head g) l = l.filter fun x => !hit es x := by
  intro es
  induction es with
  | nil =>
    intro l _
    simp [hit]
  | cons e es ih =>
    intro l h
    rw [List.foldl_cons, popEdge_eq (h e (by simp)), ih]
    · rw [List.filter_filter]
      refine List.filter_congr fun x _ => ?_
      simp [hit, Bool.and_comm]
    · intro e' he'
      exact (filter_le _ _ _).trans (h e' (by simp [he']))

theorem removeCluster_eq {es l : List (Edge C)} (hne : es ≠ [])
    (h : ∀ e ∈ es, (l.filter (at' e.tail e.head)).length ≤ 1) :
    removeCluster es l = l.filter fun x => !hit es x := by
  unfold removeCluster
  have key : ∀ (k : List (Edge C)), k.foldl
      (fun g _ => es.foldl (fun g e => popEdge e.tail e.head g) g)
      (l.filter fun x => !hit es x) = l.filter fun x => !hit es x := by
    intro k
    induction k with
    | nil => rfl
    | cons a k ih =>
      rw [List.foldl_cons, popAll_eq es _ (fun e he => (filter_le _ _ _).trans (h e he)),
        List.filter_filter]
      simp only [Bool.and_self]
      exact ih
  cases hes : es with
  | nil => exact absurd hes hne
  | cons a k =>
    rw [List.foldl_cons]
    rw [← hes, popAll_eq es l h]
    exact key k

/-- Edges that join a node to itself are not removed with edges that do not. -/
theorem mem_popEdge {u w : Name} {l : List (Edge C)} {x : Edge C} (hx : x ∈ l)
    (h : at' u w x = false) : x ∈ popEdge u w l := by
  unfold popEdge
  rw [List.mem_reverse]
  exact (List.mem_eraseP_of_neg (by simp [h])).2 (List.mem_reverse.2 hx)

theorem mem_removeCluster {es l : List (Edge C)} {x : Edge C} (hx : x ∈ l)
    (h : ∀ e ∈ es, at' e.tail e.head x = false) : x ∈ removeCluster es l := by
  unfold removeCluster
  have h1 : ∀ (k l : List (Edge C)), (∀ e ∈ k, at' e.tail e.head x = false) → x ∈ l →
      x ∈ k.foldl (fun g e => popEdge e.tail e.head g) l := by
    intro k
    induction k with
    | nil => intro l _ hx; exact hx
    | cons a k ih =>
      intro l hk hx
      exact ih _ (fun e he => hk e (by simp [he])) (mem_popEdge hx (hk a (by simp)))
  have h2 : ∀ (k l : List (Edge C)), x ∈ l → x ∈ k.foldl
      (fun g _ => es.foldl (fun g e => popEdge e.tail e.head g) g) l := by
    intro k
    induction k with
    | nil => intro l hx; exact hx
    | cons a k ih =>
      intro l hx
      exact ih _ (h1 es l h hx)
  exact h2 es l hx

/-- Edges which are alone between their nodes, in different places, are removed as a whole. -/
theorem hit_perm : ∀ (E l : List (Edge C)),
    E.Pairwise (fun e e' => at' e.tail e.head e' = false) →
    (∀ e ∈ E, l.filter (at' e.tail e.head) = [e]) → (l.filter (hit E)).Perm E := by
  intro E
  induction E with
  | nil =>
    intro l _ _
    have : l.filter (hit ([] : List (Edge C))) = [] := by simp [hit]
    rw [this]
  | cons e E ih =>
    intro l hp hl
    rw [List.pairwise_cons] at hp
    have h1 : (l.filter (hit (e :: E))).Perm
        (l.filter (at' e.tail e.head) ++ l.filter (hit E)) := by
      have h2 := (List.filter_append_perm (at' e.tail e.head) (l.filter (hit (e :: E)))).symm
      rw [List.filter_filter, List.filter_filter] at h2
      have e1 : l.filter (fun x => at' e.tail e.head x && hit (e :: E) x) =
          l.filter (at' e.tail e.head) := by
        refine List.filter_congr fun x _ => ?_
        cases h : at' e.tail e.head x <;> simp [hit, h]
      have e2 : l.filter (fun x => (!at' e.tail e.head x) && hit (e :: E) x) =
          l.filter (hit E) := by
        refine List.filter_congr fun x _ => ?_
        cases h : at' e.tail e.head x with
        | false => simp [hit, h]
        | true =>
          have : hit E x = false := by
            by_contra hc
            simp only [Bool.not_eq_false, hit, List.any_eq_true] at hc
            obtain ⟨e', he', hx⟩ := hc
            have := hp.1 e' he'
            simp only [at', Bool.and_eq_true, decide_eq_true_eq] at h hx
            simp [at', ← hx.1, ← hx.2, h.1, h.2] at this
          simp [this]
      rw [e1, e2] at h2
      exact h2
    rw [hl e (by simp)] at h1
    exact h1.trans ((ih l hp.2 fun e' he' => hl e' (by simp [he'])).cons e)

/-! ## The edges of a chain -/

/-- One of two successive nodes of a chain is in its middle. -/
theorem Path.pair_mid {g : List (Edge C)} {s l1 l2 : List Name} {a b : Name} (h : Path g s)
    (h3 : 3 ≤ s.length) (hs : s = l1 ++ a :: b :: l2) :
    (∃ c l, l2 = c :: l) ∨ ∃ l z, l1 = l ++ [z] := by
  cases l2 with
  | cons c l => exact Or.inl ⟨c, l, rfl⟩
  | nil =>
    rcases List.eq_nil_or_concat l1 with rfl | ⟨l, z, rfl⟩
    · rw [hs] at h3
      simp at h3
    · exact Or.inr ⟨l, z, by simp⟩

theorem Mid.single {g : List (Edge C)} (hl : LoopFree g) (hs : Single g) {n m : Name} (hm : Mid g n)
    (h : Adj g n m) : (g.filter (between n m)).length = 1 := by
  rw [single_iff hl] at hs
  obtain ⟨hd, a, b, hab, hm⟩ := hm
  rcases (hm m).1 h with rfl | rfl
  · exact hs n m b hd hab h ((hm b).2 (Or.inr rfl))
  · exact hs n m a hd hab.symm h ((hm a).2 (Or.inl rfl))

theorem pairEdges_some {v : View C} (hv : v.Lawful) {g : List (Edge C)} (hl : LoopFree g) :
    ∀ {s : List Name}, s.IsChain (Adj g) → ∃ es, pairEdges v g s = some es := by
  intro s
  induction s with
  | nil => intro _; exact ⟨[], rfl⟩
  | cons a s ih =>
    intro h
    cases s with
    | nil => exact ⟨[], rfl⟩
    | cons b s =>
      rw [List.isChain_cons_cons] at h
      obtain ⟨es, hes⟩ := ih h.2
      obtain ⟨e, he, hb⟩ := (adj_iff_between hl).1 h.1
      have hm : e ∈ getedges v g a b :=
        (getedges_perm hv g a b).symm.subset (List.mem_filter.2 ⟨he, hb⟩)
      cases hg : getedges v g a b with
      | nil => rw [hg] at hm; cases hm
      | cons e' l =>
        refine ⟨e' :: es, ?_⟩
        rw [pairEdges, hg, hes]
        rfl

theorem pairEdges_mem {v : View C} (hv : v.Lawful) {g : List (Edge C)} :
    ∀ {s : List Name} {es : List (Edge C)}, pairEdges v g s = some es →
    (∀ e ∈ es, ∃ l1 a b l2, s = l1 ++ a :: b :: l2 ∧ e ∈ g ∧ between a b e = true) ∧
    (∀ l1 a b l2, s = l1 ++ a :: b :: l2 → ∃ e ∈ es, e ∈ g ∧ between a b e = true) ∧
    es.length = s.length - 1 := by
  intro s
  induction s with
  | nil =>
    intro es h
    obtain rfl : [] = es := Option.some.inj h
    refine ⟨by simp, ?_, rfl⟩
    intro l1 a b l2 h
    simp at h
  | cons a s ih =>
    intro es h
    cases s with
    | nil =>
      obtain rfl : [] = es := Option.some.inj h
      refine ⟨by simp, ?_, rfl⟩
      intro l1 a' b l2 h
      cases l1 <;> simp at h
    | cons b s =>
      rw [pairEdges] at h
      cases hg : getedges v g a b with
      | nil => simp [hg] at h
      | cons e l =>
        rw [hg] at h
        simp only [List.head?_cons, Option.bind_some] at h
        cases hp : pairEdges v g (b :: s) with
        | none => simp [hp] at h
        | some es' =>
          rw [hp] at h
          obtain rfl : e :: es' = es := by simpa using h
          obtain ⟨i1, i2, i3⟩ := ih hp
          have he : e ∈ g ∧ between a b e = true := by
            have : e ∈ getedges v g a b := by rw [hg]; simp
            exact List.mem_filter.1 ((getedges_perm hv g a b).subset this)
          refine ⟨?_, ?_, ?_⟩
          · intro x hx
            rcases List.mem_cons.1 hx with rfl | hx
            · exact ⟨[], a, b, s, rfl, he⟩
            · obtain ⟨l1, a', b', l2, h1, h2⟩ := i1 x hx
              exact ⟨a :: l1, a', b', l2, by rw [h1]; rfl, h2⟩
          · intro l1 a' b' l2 h1
            cases l1 with
            | nil =>
              simp only [List.nil_append, List.cons.injEq] at h1
              obtain ⟨rfl, rfl, rfl⟩ := h1
              exact ⟨e, by simp, he⟩
            | cons z l1 =>
              simp only [List.cons_append, List.cons.injEq] at h1
              obtain ⟨x, hx, hx'⟩ := i2 l1 a' b' l2 h1.2
              exact ⟨x, by simp [hx], hx'⟩
          · simp only [List.length_cons] at i3 ⊢
            omega

/-- The ends of the edges of a chain are nodes of the chain. -/
theorem pairEdges_ends {v : View C} (hv : v.Lawful) {g : List (Edge C)} (hl : LoopFree g)
    {s : List Name} {es : List (Edge C)} (h : pairEdges v g s = some es) {e : Edge C}
    (he : e ∈ es) : e.tail ∈ s ∧ e.head ∈ s := by
  obtain ⟨l1, a, b, l2, rfl, heg, hb⟩ := (pairEdges_mem hv h).1 e he
  rcases (between_iff (hl e heg)).1 hb with ⟨h1, h2⟩ | ⟨h1, h2⟩ <;> rw [h1, h2] <;> simp

theorem pairEdges_pairwise {v : View C} (hv : v.Lawful) {g : List (Edge C)} (hl : LoopFree g) :
    ∀ {s : List Name} {es : List (Edge C)}, pairEdges v g s = some es → s.Nodup →
    es.Pairwise (fun e e' => at' e.tail e.head e' = false) := by
  intro s
  induction s with
  | nil =>
    intro es h _
    obtain rfl : [] = es := Option.some.inj h
    exact List.Pairwise.nil
  | cons a s ih =>
    intro es h hnd
    cases s with
    | nil =>
      obtain rfl : [] = es := Option.some.inj h
      exact List.Pairwise.nil
    | cons b s =>
      have h0 := h
      rw [pairEdges] at h
      cases hg : getedges v g a b with
      | nil => simp [hg] at h
      | cons e l =>
        rw [hg] at h
        simp only [List.head?_cons, Option.bind_some] at h
        cases hp : pairEdges v g (b :: s) with
        | none => simp [hp] at h
        | some es' =>
          rw [hp] at h
          obtain rfl : e :: es' = es := by simpa using h
          rw [List.nodup_cons] at hnd
          refine List.pairwise_cons.2 ⟨?_, ih hp hnd.2⟩
          intro e' he'
          have he : e ∈ g ∧ between a b e = true := by
            have : e ∈ getedges v g a b := by rw [hg]; simp
            exact List.mem_filter.1 ((getedges_perm hv g a b).subset this)
          have hends := pairEdges_ends hv hl hp he'
          by_contra hc
          simp only [Bool.not_eq_false, at', Bool.and_eq_true, decide_eq_true_eq] at hc
          rw [hc.1, hc.2] at hends
          rcases (between_iff (hl e he.1)).1 he.2 with ⟨h1, h2⟩ | ⟨h1, h2⟩
          · rw [h1] at hends
            exact hnd.1 hends.1
          · rw [h2] at hends
            exact hnd.1 hends.2

/-- An edge alone between two nodes. -/
theorem alone {g : List (Edge C)} {a b : Name} {e : Edge C} (he : e ∈ g) (hne : LoopFree g)
    (hb : between a b e = true) (h1 : (g.filter (between a b)).length = 1) :
    g.filter (at' e.tail e.head) = [e] ∧ ∀ x ∈ g, between a b x = true → x = e := by
  obtain ⟨x, hx⟩ := List.length_eq_one_iff.1 h1
  have hex : e = x := by
    have : e ∈ g.filter (between a b) := List.mem_filter.2 ⟨he, hb⟩
    rw [hx] at this
    exact List.mem_singleton.1 this
  subst hex
  refine ⟨?_, ?_⟩
  · have : g.filter (at' e.tail e.head) = (g.filter (between a b)).filter (at' e.tail e.head) := by
      rw [List.filter_filter]
      refine List.filter_congr fun y hy => ?_
      cases h : at' e.tail e.head y with
      | false => simp
      | true =>
        simp only [at', Bool.and_eq_true, decide_eq_true_eq] at h
        have : between a b y = between a b e := by simp only [between, h.1, h.2]
        rw [this, hb]
        rfl
    rw [this, hx]
    simp [at']
  · intro y hy hby
    have : y ∈ g.filter (between a b) := List.mem_filter.2 ⟨hy, hby⟩
    rw [hx] at this
    exact List.mem_singleton.1 this

/-! ## The clusters -/

/-- A cluster with the node at which it was found and its list of nodes. -/
structure Info (C : Type) where
  c : Cluster C
  node : Name
  s : List Name

structure Info.Ok (v : View C) (g : List (Edge C)) (i : Info C) : Prop where
  mid : Mid g i.node
  edges : pairEdges v g i.s = some i.c.edges
  first : i.s.head? = some i.c.first
  last : i.s.getLast? = some i.c.last
  shape : (∃ A, Closing g A i.s) ∨ Good g i.node i.s

theorem serialGo_spec {v : View C} (hv : v.Lawful) {g : List (Edge C)} (hl : LoopFree g) :
    ∀ (ns seen : List Name), ∃ T : List (Info C), serialGo v g ns seen = some (T.map Info.c) ∧
      (∀ i ∈ T, i.Ok v g ∧ i.node ∉ seen) ∧ T.Pairwise (fun i j => j.node ∉ i.s) ∧
      (T = [] → ∀ n ∈ ns, n ∉ seen → ¬ Mid g n) := by
  intro ns
  induction ns with
  | nil =>
    intro seen
    exact ⟨[], rfl, by simp, List.Pairwise.nil, by simp⟩
  | cons n ns ih =>
    intro seen
    by_cases hc : n ∉ seen ∧ degree v g n = 2 ∧ n ≠ datum
    · have hm : Mid g n := (mid_iff hv hl n).1 hc.2
      obtain ⟨s, hs, hsh⟩ := chain_spec hv hl hm
      have hch : s.IsChain (Adj g) := by
        rcases hsh with ⟨A, h⟩ | h
        · exact h.chain
        · exact h.path.chain
      have hne : s ≠ [] := by
        rintro rfl
        rcases hsh with ⟨A, h⟩ | h
        · have := h.first
          simp at this
        · have := h.three
          simp at this
      obtain ⟨es, hes⟩ := pairEdges_some hv hl hch
      obtain ⟨a, ha⟩ : ∃ a, s.head? = some a := ⟨s.head hne, List.head?_eq_some_head hne⟩
      obtain ⟨b, hb⟩ : ∃ b, s.getLast? = some b := ⟨s.getLast hne, List.getLast?_eq_some_getLast hne⟩
      obtain ⟨T, h1, h2, h3, -⟩ := ih (seen ++ s)
      refine ⟨⟨⟨es, a, b⟩, n, s⟩ :: T, ?_, ?_, ?_, ?_⟩
      · rw [serialGo, if_pos hc, hs]
        simp only [Option.bind_some, hes, h1, ha, hb, List.map_cons]
      · intro i hi
        rcases List.mem_cons.1 hi with rfl | hi
        · exact ⟨⟨hm, hes, ha, hb, hsh⟩, hc.1⟩
        · refine ⟨(h2 i hi).1, fun h => (h2 i hi).2 (List.mem_append_left _ h)⟩
      · refine List.pairwise_cons.2 ⟨?_, h3⟩
        intro j hj h
        exact (h2 j hj).2 (List.mem_append_right _ h)
      · intro h
        cases h
    · obtain ⟨T, h1, h2, h3, h4⟩ := ih seen
      refine ⟨T, ?_, h2, h3, ?_⟩
      · rw [serialGo, if_neg hc]
        exact h1
      · intro hT m hm hms
        rcases List.mem_cons.1 hm with rfl | hm
        · intro hmid
          exact hc ⟨hms, (mid_iff hv hl m).2 hmid⟩
        · exact h4 hT m hm hms

/-- From a middle node of a chain which is in a set that contains the neighbours of its middle
nodes, one stays in this set along the chain. -/
theorem path_forward {g : List (Edge C)} {S : Name → Prop}
    (hS : ∀ y, S y → Mid g y → ∀ m, Adj g y m → S m) : ∀ (l2 l1 : List Name) (y : Name),
    Path g (l1 ++ y :: l2) → Mid g y → S y → ∀ z ∈ l2, S z := by
  intro l2
  induction l2 with
  | nil => intro l1 y _ _ _ z hz; cases hz
  | cons b l3 ih =>
    intro l1 y hp hy hsy z hz
    have hadj : Adj g y b := by
      have := hp.chain
      rw [List.isChain_append] at this
      exact (List.isChain_cons_cons.1 this.2.1).1
    have hsb : S b := hS y hsy hy b hadj
    rcases List.mem_cons.1 hz with rfl | hz
    · exact hsb
    · cases l3 with
      | nil => cases hz
      | cons c l4 =>
        exact ih (l1 ++ [y]) b (by simpa using hp) (hp.isMid (l1 := l1) (l2 := l4) rfl) hsb z hz

theorem path_mem {g : List (Edge C)} {S : Name → Prop}
    (hS : ∀ y, S y → Mid g y → ∀ m, Adj g y m → S m) {s : List Name} (hp : Path g s) {y z : Name}
    (hy : y ∈ s) (hm : Mid g y) (hsy : S y) (hz : z ∈ s) : S z := by
  obtain ⟨l1, l2, rfl⟩ := List.append_of_mem hy
  rcases List.mem_append.1 hz with hz | hz
  · have hr : Path g (l2.reverse ++ y :: l1.reverse) := by
      have := hp.reverse
      simpa using this
    exact path_forward hS _ _ _ hr hm hsy z (List.mem_reverse.2 hz)
  · rcases List.mem_cons.1 hz with rfl | hz
    · exact hsy
    · exact path_forward hS _ _ _ hp hm hsy z hz

/-- Different chains have no middle node in common. -/
theorem disjoint_mid {g : List (Edge C)} {n1 n2 : Name} {s1 s2 : List Name} (h1 : Good g n1 s1)
    (h2 : Good g n2 s2) (hn : n2 ∉ s1) {y : Name} (hy1 : y ∈ s1) (hy2 : y ∈ s2) :
    ¬ Mid g y := by
  intro hm
  exact hn (path_mem (S := fun z => z ∈ s1) (fun z hz hmz m hzm => h1.closed z hz hmz m hzm)
    h2.path hy2 hm hy1 h2.mem)

/-! ## The treatment of the clusters -/

/-- The edges added for the clusters. -/
def news : ℕ → List (Info C) → List (Edge C)
  | _, [] => []
  | k, i :: T => .graph i.c.first i.c.last (serLabel (k + 1))
      (i.c.edges ++ outs (serLabel (k + 1)) i.c.first i.c.last) :: news (k + 1) T

theorem news_leaves : ∀ (T : List (Info C)) (k : ℕ),
    leaves (news k T) = leaves (T.flatMap fun i => i.c.edges) := by
  intro T
  induction T with
  | nil => intro k; simp [news, leaves]
  | cons i T ih =>
    intro k
    rw [news, List.flatMap_cons, leaves_append, leaves, ih]
    simp only [leavesOf]
    rw [leaves_append, leaves_outs, List.append_nil]

theorem news_length : ∀ (T : List (Info C)) (k : ℕ), (news k T).length = T.length := by
  intro T
  induction T with
  | nil => intro k; rfl
  | cons i T ih => intro k; simp [news, ih]

theorem mem_news : ∀ {T : List (Info C)} {k : ℕ} {x : Edge C}, x ∈ news k T →
    ∃ i ∈ T, x.tail = i.c.first ∧ x.head = i.c.last := by
  intro T
  induction T with
  | nil => intro k x h; cases h
  | cons i T ih =>
    intro k x h
    rw [news] at h
    rcases List.mem_cons.1 h with rfl | h
    · exact ⟨i, by simp, rfl, rfl⟩
    · obtain ⟨j, hj, h'⟩ := ih h
      exact ⟨j, by simp [hj], h'⟩

theorem news_mem : ∀ {T : List (Info C)} {k : ℕ} {i : Info C}, i ∈ T →
    ∃ x ∈ news k T, x.tail = i.c.first ∧ x.head = i.c.last := by
  intro T
  induction T with
  | nil => intro k i h; cases h
  | cons j T ih =>
    intro k i h
    rw [news]
    rcases List.mem_cons.1 h with rfl | h
    · exact ⟨_, List.mem_cons_self, rfl, rfl⟩
    · obtain ⟨x, hx, h'⟩ := ih (k := k + 1) h
      exact ⟨x, List.mem_cons_of_mem _ hx, h'⟩

theorem hit_append (E F : List (Edge C)) (x : Edge C) : hit (E ++ F) x = (hit E x || hit F x) := by
  simp [hit]

theorem serFold : ∀ (T : List (Info C)) (st : State C),
    (∀ i ∈ T, i.c.edges ≠ []) →
    (∀ i ∈ T, ∀ e ∈ i.c.edges, (st.edges.filter (at' e.tail e.head)).length ≤ 1) →
    T.Pairwise (fun i j => ∀ e ∈ j.c.edges,
      ∀ x : Edge C, x.tail = i.c.first → x.head = i.c.last → at' e.tail e.head x = false) →
    ((T.map Info.c).foldl replaceSer st).edges =
      (st.edges.filter fun x => !hit (T.flatMap fun i => i.c.edges) x) ++ news st.idser T := by
  intro T
  induction T with
  | nil =>
    intro st _ _ _
    simp [hit, news]
  | cons i T ih =>
    intro st hne hone hp
    rw [List.pairwise_cons] at hp
    rw [List.map_cons, List.foldl_cons]
    set new : Edge C := .graph i.c.first i.c.last (serLabel (st.idser + 1))
      (i.c.edges ++ outs (serLabel (st.idser + 1)) i.c.first i.c.last) with hnew
    have hst : (replaceSer st i.c).edges =
        (st.edges.filter fun x => !hit i.c.edges x) ++ [new] := by
      rw [replaceSer]
      dsimp only
      rw [removeCluster_eq (hne i (by simp)) (fun e he => hone i (by simp) e he)]
    rw [ih (replaceSer st i.c) (fun j hj => hne j (by simp [hj])) ?_ hp.2]
    · rw [hst, List.filter_append, List.filter_filter]
      have h1 : [new].filter (fun x => !hit (T.flatMap fun i => i.c.edges) x) = [new] := by
        rw [List.filter_eq_self]
        intro x hx
        obtain rfl := List.mem_singleton.1 hx
        by_contra hc
        simp only [Bool.not_eq_true', Bool.not_eq_false, hit, List.any_eq_true,
          List.mem_flatMap] at hc
        obtain ⟨e, ⟨j, hj, he⟩, hx⟩ := hc
        rw [hp.1 j hj e he new rfl rfl] at hx
        cases hx
      rw [h1]
      show _ = _ ++ (new :: news (st.idser + 1) T)
      rw [List.append_assoc]
      congr 1
      refine List.filter_congr fun x _ => ?_
      rw [List.flatMap_cons, hit_append, Bool.not_or, Bool.and_comm]
    · intro j hj e he
      rw [hst, List.filter_append]
      have h1 : [new].filter (at' e.tail e.head) = [] := by
        simp [hp.1 j hj e he new rfl rfl]
      rw [h1, List.append_nil]
      exact (filter_le _ _ _).trans (hone j (by simp [hj]) e he)

/-- A loop, once it is there, is not removed with clusters whose edges are no loops. -/
theorem serFold_loop : ∀ (cs : List (Cluster C)) (st : State C) (x : Edge C), x ∈ st.edges →
    x.tail = x.head → (∀ c ∈ cs, ∀ e ∈ c.edges, e.tail ≠ e.head) →
    x ∈ (cs.foldl replaceSer st).edges := by
  intro cs
  induction cs with
  | nil => intro st x hx _ _; exact hx
  | cons c cs ih =>
    intro st x hx hxx hcs
    refine ih _ x ?_ hxx fun c' h' => hcs c' (by simp [h'])
    rw [replaceSer]
    refine List.mem_append_left _ (mem_removeCluster hx fun e he => ?_)
    by_contra hc
    simp only [Bool.not_eq_false, at', Bool.and_eq_true, decide_eq_true_eq] at hc
    exact hcs c (by simp) e he (by rw [← hc.1, ← hc.2, hxx])

theorem serFold_new : ∀ (cs : List (Cluster C)) (st : State C) (c : Cluster C), c ∈ cs →
    c.first = c.last → (∀ c ∈ cs, ∀ e ∈ c.edges, e.tail ≠ e.head) →
    ∃ x ∈ (cs.foldl replaceSer st).edges, x.tail = x.head := by
  intro cs
  induction cs with
  | nil => intro st c hc; cases hc
  | cons c' cs ih =>
    intro st c hc hcc hcs
    rw [List.foldl_cons]
    rcases List.mem_cons.1 hc with rfl | hc
    · refine ⟨_, serFold_loop cs (replaceSer st c)
        (.graph c.first c.last (serLabel (st.idser + 1))
          (c.edges ++ outs (serLabel (st.idser + 1)) c.first c.last)) ?_ hcc
        (fun c' h' => hcs c' (by simp [h'])), hcc⟩
      rw [replaceSer]
      exact List.mem_append_right _ (List.mem_singleton_self _)
    · exact ih _ c hc hcc fun c' h' => hcs c' (by simp [h'])

/-! ## The whole pass -/

/-- What is known of the clusters of a graph when none of them closes. -/
structure Clusters (v : View C) (g : List (Edge C)) (T : List (Info C)) : Prop where
  ok : ∀ i ∈ T, i.Ok v g
  good : ∀ i ∈ T, Good g i.node i.s
  disj : T.Pairwise (fun i j => ∀ y, y ∈ i.s → y ∈ j.s → ¬ Mid g y)

theorem edge_mid {v : View C} (hv : v.Lawful) {g : List (Edge C)} (hl : LoopFree g)
    {T : List (Info C)} (hT : Clusters v g T) {i : Info C} (hi : i ∈ T) {e : Edge C}
    (he : e ∈ i.c.edges) : e ∈ g ∧ e.tail ∈ i.s ∧ e.head ∈ i.s ∧
      (Mid g e.tail ∨ Mid g e.head) := by
  obtain ⟨h1, h2⟩ := pairEdges_ends hv hl (hT.ok i hi).edges he
  obtain ⟨l1, a, b, l2, hs, heg, hb⟩ := (pairEdges_mem hv (hT.ok i hi).edges).1 e he
  refine ⟨heg, h1, h2, ?_⟩
  have hp := (hT.good i hi).path
  have hmid : Mid g a ∨ Mid g b := by
    rcases hp.pair_mid (hT.good i hi).three hs with ⟨c, l, rfl⟩ | ⟨l, z, rfl⟩
    · exact Or.inr (hp.isMid hs)
    · exact Or.inl (hp.isMid (l1 := l) (a := z) (b := b) (l2 := l2) (by simpa using hs))
  rcases (between_iff (hl e heg)).1 hb with ⟨h3, h4⟩ | ⟨h3, h4⟩
  · rw [h3, h4]
    exact hmid
  · rw [h3, h4]
    exact hmid.symm

theorem edge_alone {v : View C} (hv : v.Lawful) {g : List (Edge C)} (hl : LoopFree g)
    (hs : Single g) {T : List (Info C)} (hT : Clusters v g T) {i : Info C} (hi : i ∈ T)
    {e : Edge C} (he : e ∈ i.c.edges) : g.filter (at' e.tail e.head) = [e] := by
  obtain ⟨heg, -, -, hm⟩ := edge_mid hv hl hT hi he
  have hadj : Adj g e.tail e.head := ⟨e, heg, Or.inl ⟨rfl, rfl⟩⟩
  rcases hm with hm | hm
  · exact (alone heg hl (between_self e) (hm.single hl hs hadj)).1
  · have := hm.single hl hs hadj.symm
    rw [between_comm] at this
    exact (alone heg hl (between_self e) this).1

/-- All the edges of all clusters are in different places. -/
theorem clusters_pairwise {v : View C} (hv : v.Lawful) {g : List (Edge C)} (hl : LoopFree g)
    {T : List (Info C)} (hT : Clusters v g T) :
    (T.flatMap fun i => i.c.edges).Pairwise (fun e e' => at' e.tail e.head e' = false) := by
  rw [List.flatMap, List.pairwise_flatten]
  constructor
  · intro l hlm
    obtain ⟨i, hi, rfl⟩ := List.mem_map.1 hlm
    exact pairEdges_pairwise hv hl (hT.ok i hi).edges (hT.good i hi).nodup
  · rw [List.pairwise_map]
    have := hT.disj
    refine (List.Pairwise.and_mem.1 this).imp ?_
    rintro i j ⟨hi, hj, hij⟩ e he e' he'
    by_contra hc
    simp only [Bool.not_eq_false, at', Bool.and_eq_true, decide_eq_true_eq] at hc
    obtain ⟨-, h1, h2, -⟩ := edge_mid hv hl hT hi he
    obtain ⟨-, h3, h4, h5⟩ := edge_mid hv hl hT hj he'
    rw [← hc.1] at h1
    rw [← hc.2] at h2
    rcases h5 with h5 | h5
    · exact hij _ h1 h3 h5
    · exact hij _ h2 h4 h5

theorem first_mem {v : View C} {g : List (Edge C)} {i : Info C} (h : i.Ok v g) :
    i.c.first ∈ i.s ∧ i.c.last ∈ i.s := by
  have h1 := h.first
  have h2 := h.last
  exact ⟨List.mem_of_mem_head? (Option.mem_def.2 h1), List.mem_of_getLast? h2⟩

theorem good_ends {v : View C} {g : List (Edge C)} {i : Info C} (h : i.Ok v g)
    (hg : Good g i.node i.s) : i.c.first ≠ i.c.last := by
  have h1 := h.first
  have h2 := h.last
  have hnd := hg.nodup
  have h3 := hg.three
  generalize i.s = s at *
  cases s with
  | nil => simp at h1
  | cons a s =>
    simp only [List.head?_cons, Option.some.injEq] at h1
    rw [List.nodup_cons] at hnd
    cases s with
    | nil => simp at h3
    | cons b s =>
      rw [List.getLast?_cons_cons] at h2
      have := List.mem_of_getLast? h2
      intro h
      rw [h1, h] at hnd
      exact hnd.1 this

/-- The graph after `_split_serial`. -/
theorem clusters_fold {v : View C} (hv : v.Lawful) {st : State C} (hl : LoopFree st.edges)
    (hs : Single st.edges) {T : List (Info C)} (hT : Clusters v st.edges T) :
    ((T.map Info.c).foldl replaceSer st).edges =
      (st.edges.filter fun x => !hit (T.flatMap fun i => i.c.edges) x) ++ news st.idser T := by
  refine serFold T st ?_ ?_ ?_
  · intro i hi h
    have h1 := (pairEdges_mem hv (hT.ok i hi).edges).2.2
    have h2 := (hT.good i hi).three
    rw [h] at h1
    simp only [List.length_nil] at h1
    omega
  · intro i hi e he
    rw [edge_alone hv hl hs hT hi he]
    simp
  · refine (List.Pairwise.and_mem.1 hT.disj).imp ?_
    rintro i j ⟨hi, hj, hij⟩ e he x hx1 hx2
    by_contra hc
    simp only [Bool.not_eq_false, at', Bool.and_eq_true, decide_eq_true_eq] at hc
    obtain ⟨-, h3, h4, h5⟩ := edge_mid hv hl hT hj he
    obtain ⟨h6, h7⟩ := first_mem (hT.ok i hi)
    rw [← hx1, hc.1] at h6
    rw [← hx2, hc.2] at h7
    rcases h5 with h5 | h5
    · exact hij _ h6 h3 h5
    · exact hij _ h7 h4 h5

theorem clusters_leaves {v : View C} (hv : v.Lawful) {st : State C} (hl : LoopFree st.edges)
    (hs : Single st.edges) {T : List (Info C)} (hT : Clusters v st.edges T) :
    (leaves ((T.map Info.c).foldl replaceSer st).edges).Perm (leaves st.edges) ∧
    LoopFree ((T.map Info.c).foldl replaceSer st).edges ∧
    (T ≠ [] → ((T.map Info.c).foldl replaceSer st).edges.length < st.edges.length) := by
  set E := T.flatMap fun i => i.c.edges with hE
  have hperm : (st.edges.filter (hit E)).Perm E := by
    refine hit_perm E st.edges (clusters_pairwise hv hl hT) ?_
    intro e he
    obtain ⟨i, hi, he⟩ := List.mem_flatMap.1 he
    exact edge_alone hv hl hs hT hi he
  rw [clusters_fold hv hl hs hT]
  refine ⟨?_, ?_, ?_⟩
  · rw [leaves_append, news_leaves]
    refine List.Perm.trans ?_ (leaves_perm (List.filter_append_perm (hit E) st.edges))
    rw [leaves_append]
    refine List.perm_append_comm.trans ?_
    exact (leaves_perm hperm.symm).append_right _
  · intro x hx
    rcases List.mem_append.1 hx with h | h
    · exact hl x (List.mem_filter.1 h).1
    · obtain ⟨i, hi, h1, h2⟩ := mem_news h
      rw [h1, h2]
      exact good_ends (hT.ok i hi) (hT.good i hi)
  · intro hne
    rw [List.length_append, news_length]
    have h1 := filter_add_not (hit E) st.edges
    rw [hperm.length_eq] at h1
    have h2 : 2 * T.length ≤ E.length := by
      have key : ∀ T' : List (Info C), (∀ i ∈ T', 2 ≤ i.c.edges.length) →
          2 * T'.length ≤ (T'.flatMap fun i => i.c.edges).length := by
        intro T'
        induction T' with
        | nil => intro _; simp
        | cons i T' ih =>
          intro h
          have h3 := ih fun j hj => h j (by simp [hj])
          have h4 := h i (by simp)
          rw [List.flatMap_cons, List.length_append, List.length_cons]
          omega
      refine key T fun i hi => ?_
      have h3 := (pairEdges_mem hv (hT.ok i hi).edges).2.2
      have h4 := (hT.good i hi).three
      omega
    have h5 : 0 < T.length := List.length_pos_iff.2 hne
    rw [← hE]
    omega

/-- `_split_serial` makes a loop, or it keeps the components. -/
theorem splitSerial_spec {v : View C} (hv : v.Lawful) {st : State C}
    (hl : LoopFree st.edges) (hs : Single st.edges) : ∃ (T : List (Info C)),
      splitSerial v st = some ((T.map Info.c).foldl replaceSer st, !(T.map Info.c).isEmpty) ∧
      (T = [] → ∀ n, ¬ Mid st.edges n) ∧
      (Clusters v st.edges T ∨
        ((∃ A s, Closing st.edges A s) ∧
          ∃ x ∈ ((T.map Info.c).foldl replaceSer st).edges, x.tail = x.head)) := by
  obtain ⟨T, h1, h2, h3, h4⟩ := serialGo_spec hv hl (v.nodes st.edges) []
  refine ⟨T, ?_, ?_, ?_⟩
  · unfold splitSerial serialEdges
    rw [h1]
    rfl
  · intro hT n hm
    refine h4 hT n ?_ (by simp) hm
    obtain ⟨-, a, b, -, hab⟩ := hm
    exact (hv.mem_nodes _ _).2 ⟨a, (hab a).2 (Or.inl rfl)⟩
  · by_cases hg : ∀ i ∈ T, Good st.edges i.node i.s
    · left
      refine ⟨fun i hi => (h2 i hi).1, hg, ?_⟩
      refine (List.Pairwise.and_mem.1 h3).imp ?_
      rintro i j ⟨hi, hj, hij⟩ y hy1 hy2
      exact disjoint_mid (hg i hi) (hg j hj) hij hy1 hy2
    · right
      push Not at hg
      obtain ⟨i, hi, hng⟩ := hg
      obtain ⟨A, hA⟩ := (h2 i hi).1.shape.resolve_right hng
      refine ⟨⟨A, i.s, hA⟩, ?_⟩
      refine serFold_new _ st i.c (List.mem_map_of_mem hi) ?_ ?_
      · have e1 := (h2 i hi).1.first
        have e2 := (h2 i hi).1.last
        rw [hA.first] at e1
        rw [hA.last] at e2
        rw [← Option.some.inj e1, ← Option.some.inj e2]
      · intro c hc e he
        obtain ⟨j, hj, rfl⟩ := List.mem_map.1 hc
        obtain ⟨l1, a, b, l2, -, heg, -⟩ := (pairEdges_mem hv (h2 j hj).1.edges).1 e he
        exact hl e heg

end Verif.Split
