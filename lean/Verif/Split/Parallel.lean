import Verif.Split.Spec

/-! # `_split_parallel` -/

namespace Verif.Split

open Edge

variable {C : Type}

theorem between_self (e : Edge C) : between e.tail e.head e = true := by
  simp [between]

theorem between_comm (a b : Name) : (between a b : Edge C → Bool) = between b a := by
  funext e
  simp only [between, Bool.or_comm]

theorem between_iff {a b : Name} {e : Edge C} (he : e.tail ≠ e.head) :
    between a b e = true ↔ (e.tail = a ∧ e.head = b) ∨ (e.tail = b ∧ e.head = a) := by
  simp only [between, Bool.and_eq_true, Bool.or_eq_true, decide_eq_true_eq]
  constructor
  · rintro ⟨h1 | h1, h2 | h2⟩
    · exact absurd (h1.trans h2.symm) he
    · exact Or.inl ⟨h1, h2⟩
    · exact Or.inr ⟨h1, h2⟩
    · exact absurd (h1.trans h2.symm) he
  · rintro (⟨h1, h2⟩ | ⟨h1, h2⟩)
    · exact ⟨Or.inl h1, Or.inr h2⟩
    · exact ⟨Or.inr h1, Or.inl h2⟩

/-- Edges between two pairs of nodes are between the same nodes. -/
theorem between_eq {a b c d : Name} {e : Edge C} (he : e.tail ≠ e.head)
    (h : between a b e = true) (h' : between c d e = true) :
    (between a b : Edge C → Bool) = between c d := by
  rw [between_iff he] at h h'
  rcases h with ⟨h1, h2⟩ | ⟨h1, h2⟩ <;> rcases h' with ⟨h3, h4⟩ | ⟨h3, h4⟩ <;>
    subst h1 h2 h3 h4
  · rfl
  · exact between_comm _ _
  · exact between_comm _ _
  · rfl

theorem adj_iff_between {g : List (Edge C)} (hl : LoopFree g) {a b : Name} :
    Adj g a b ↔ ∃ e ∈ g, between a b e = true := by
  constructor
  · rintro ⟨e, he, h⟩
    exact ⟨e, he, (between_iff (hl e he)).2 h⟩
  · rintro ⟨e, he, h⟩
    exact ⟨e, he, (between_iff (hl e he)).1 h⟩

/-- The graph after the treatment of one cluster. -/
theorem replacePar_edges {st st' : State C} (hl : LoopFree st.edges) {e : Edge C}
    {es : List (Edge C)} (h : replacePar st (e :: es) = some st') :
    ∃ l, st'.edges = (st.edges.filter fun x => !between e.tail e.head x) ++
      [.graph e.tail e.head l (e :: es ++ outs l e.tail e.head)] := by
  unfold replacePar at h
  dsimp only at h
  split at h
  · have := (Option.some.inj h).symm
    subst this
    refine ⟨_, congrArg (· ++ _) ?_⟩
    rw [List.filter_filter]
    refine List.filter_congr fun x hx => ?_
    by_cases hb : between e.tail e.head x = true
    · have := (between_iff (hl x hx)).1 hb
      rcases this with ⟨h1, h2⟩ | ⟨h1, h2⟩ <;> simp [hb, at', h1, h2]
    · have h1 : at' e.tail e.head x = false := by
        by_contra hc
        simp only [Bool.not_eq_false, at', Bool.and_eq_true, decide_eq_true_eq] at hc
        exact hb ((between_iff (hl x hx)).2 (Or.inl hc))
      have h2 : at' e.head e.tail x = false := by
        by_contra hc
        simp only [Bool.not_eq_false, at', Bool.and_eq_true, decide_eq_true_eq] at hc
        exact hb ((between_iff (hl x hx)).2 (Or.inr hc))
      simp only [Bool.not_eq_true] at hb
      simp [hb, h1, h2]
  · cases h

/-- The list of the edges of a pair with several edges. -/
def IsPair (v : View C) (g : List (Edge C)) (es : List (Edge C)) : Prop :=
  1 < es.length ∧ ∃ a b, es = getedges v g a b

theorem mem_parallelEdges {v : View C} {g : List (Edge C)} {es : List (Edge C)} :
    es ∈ parallelEdges v g ↔ ∃ n m, n ∈ v.nodes g ∧ m ∈ v.nbrs g n ∧ 1 < degree v g n ∧
      n ≠ datum ∧ es = getedges v g n m ∧ 1 < es.length := by
  simp only [parallelEdges, List.mem_flatMap]
  constructor
  · rintro ⟨n, hn, h⟩
    split at h
    · rename_i hc
      simp only [List.mem_filter, List.mem_map, decide_eq_true_eq] at h
      obtain ⟨⟨m, hm, rfl⟩, h2⟩ := h
      exact ⟨n, m, hn, hm, hc.1, hc.2, rfl, h2⟩
    · cases h
  · rintro ⟨n, m, hn, hm, hd, hnd, rfl, h2⟩
    refine ⟨n, hn, ?_⟩
    rw [if_pos ⟨hd, hnd⟩]
    simp only [List.mem_filter, List.mem_map, decide_eq_true_eq]
    exact ⟨⟨m, hm, rfl⟩, h2⟩

/-- The state of the loop over the clusters: `done` have been treated. -/
structure ParInv (g : List (Edge C)) (done : List (List (Edge C))) (cur : List (Edge C)) :
    Prop where
  leaves : (leaves cur).Perm (leaves g)
  pair : ∀ a b, (Split.leaves (cur.filter (between a b))).Perm
    (Split.leaves (g.filter (between a b)))
  adj : ∀ a b, Adj cur a b ↔ Adj g a b
  head : ∀ e es, (e :: es) ∈ done → cur.any (at' e.tail e.head) = true
  one : ∀ e es, (e :: es) ∈ done → (cur.filter (between e.tail e.head)).length = 1
  other : ∀ a b, (∀ e es, (e :: es) ∈ done → between a b e = false) →
    cur.filter (between a b) = g.filter (between a b)
  length : cur.length + (if done = [] then 0 else 1) ≤ g.length

theorem getedges_perm {v : View C} (hv : v.Lawful) (g : List (Edge C)) (a b : Name) :
    (getedges v g a b).Perm (g.filter (between a b)) :=
  (hv.edges_perm g).filter _

theorem filter_add_not (p : Edge C → Bool) (l : List (Edge C)) :
    (l.filter p).length + (l.filter fun x => !p x).length = l.length := by
  induction l with
  | nil => rfl
  | cons a l ih =>
    by_cases h : p a <;> simp [h] <;> omega

theorem ParInv.step {v : View C} (hv : v.Lawful) {g : List (Edge C)} (hl : LoopFree g)
    {done : List (List (Edge C))} (hdone : ∀ es ∈ done, IsPair v g es) {st : State C}
    (hi : ParInv g done st.edges) {es : List (Edge C)} (hp : IsPair v g es) :
    ∃ st', replacePar st es = some st' ∧ ParInv g (done ++ [es]) st'.edges := by
  obtain ⟨h2, a, b, rfl⟩ := hp
  obtain ⟨e, es, hes⟩ : ∃ e es, getedges v g a b = e :: es := by
    cases h : getedges v g a b with
    | nil => simp [h] at h2
    | cons e es => exact ⟨e, es, rfl⟩
  have hlc : LoopFree st.edges := by
    rw [loopFree_iff] at hl ⊢
    intro x hx
    exact hl x ((hi.adj x x).1 hx)
  have heg : e ∈ g ∧ between a b e = true := by
    have : e ∈ getedges v g a b := by rw [hes]; simp
    exact List.mem_filter.1 ((getedges_perm hv g a b).subset this)
  have hbe : (between a b : Edge C → Bool) = between e.tail e.head :=
    between_eq (hl e heg.1) heg.2 (between_self e)
  -- the pair has been treated already iff its list is among those treated
  have hsame : ∀ e' es', (e' :: es') ∈ done → between a b e' = true → e' :: es' = e :: es := by
    intro e' es' hd hb
    obtain ⟨-, c, d, hcd⟩ := hdone _ hd
    have he' : e' ∈ g ∧ between c d e' = true := by
      have : e' ∈ getedges v g c d := by rw [← hcd]; simp
      exact List.mem_filter.1 ((getedges_perm hv g c d).subset this)
    have : (between a b : Edge C → Bool) = between c d := between_eq (hl e' he'.1) hb he'.2
    rw [hcd, ← hes, getedges, getedges, this]
  have hany : st.edges.any (at' e.tail e.head) = true := by
    by_cases hd : (e :: es) ∈ done
    · exact hi.head e es hd
    · have := hi.other a b (by
        intro e' es' h'
        by_contra hc
        rw [hsame e' es' h' (by simpa using hc)] at h'
        exact hd h')
      have hm : e ∈ st.edges.filter (between a b) := by
        rw [this]
        exact List.mem_filter.2 heg
      rw [List.any_eq_true]
      exact ⟨e, (List.mem_filter.1 hm).1, by simp [at']⟩
  obtain ⟨st', hst'⟩ : ∃ st', replacePar st (e :: es) = some st' := by
    unfold replacePar
    dsimp only
    rw [if_pos hany]
    exact ⟨_, rfl⟩
  obtain ⟨l, hE⟩ := replacePar_edges hlc hst'
  refine ⟨st', by rw [hes]; exact hst', ?_⟩
  rw [← hbe] at hE
  set new : Edge C := .graph e.tail e.head l (e :: es ++ outs l e.tail e.head) with hnew
  have hnt : new.tail = e.tail := rfl
  have hnh : new.head = e.head := rfl
  have hnl : leavesOf new = Split.leaves (e :: es) := by
    rw [hnew]
    simp only [leavesOf]
    rw [leaves_append, leaves_outs, List.append_nil]
  have hnb : between a b new = true := by
    rw [hbe, ← hnt, ← hnh]
    exact between_self new
  have hles : (Split.leaves (e :: es)).Perm (Split.leaves (g.filter (between a b))) := by
    rw [← hes]
    exact leaves_perm (getedges_perm hv g a b)
  have hfab : st'.edges.filter (between a b) = [new] := by
    rw [hE, List.filter_append, List.filter_filter]
    simp [hnb]
  have hfoth : ∀ c d, (∀ x : Edge C, x.tail ≠ x.head → between c d x = true →
      between a b x = false) → st'.edges.filter (between c d) = st.edges.filter (between c d) := by
    intro c d hcd
    rw [hE, List.filter_append, List.filter_filter]
    have h1 : [new].filter (between c d) = [] := by
      have : ¬ between c d new = true := by
        intro h
        have := hcd new (hl e heg.1) h
        rw [hnb] at this
        cases this
      simp [this]
    rw [h1, List.append_nil]
    refine List.filter_congr fun x hx => ?_
    by_cases hx' : between c d x = true
    · rw [hx', hcd x (hlc x hx) hx']
      rfl
    · simp [hx']
  -- two pairs are equal or have no common edge
  have hdich : ∀ c d, (between c d : Edge C → Bool) = between a b ∨
      ∀ x : Edge C, x.tail ≠ x.head → between c d x = true → between a b x = false := by
    intro c d
    by_cases h : ∀ x : Edge C, x.tail ≠ x.head → between c d x = true → between a b x = false
    · exact Or.inr h
    · push Not at h
      obtain ⟨x, hx1, hx2, hx3⟩ := h
      exact Or.inl (between_eq hx1 hx2 (by simpa using hx3))
  constructor
  · -- leaves
    rw [hE, leaves_append]
    have h1 : (Split.leaves st.edges).Perm (Split.leaves (st.edges.filter (between a b)) ++
        Split.leaves (st.edges.filter fun x => !between a b x)) := by
      rw [← leaves_append]
      exact leaves_perm (List.filter_append_perm _ _).symm
    have h2 : Split.leaves [new] = Split.leaves (e :: es) := by
      rw [leaves_eq]
      simp [hnl]
    rw [h2]
    refine List.Perm.trans ?_ hi.leaves
    refine List.Perm.trans ?_ h1.symm
    refine List.perm_append_comm.trans ?_
    exact (hles.trans (hi.pair a b).symm).append_right _
  · -- pairs
    intro c d
    rcases hdich c d with h | h
    · rw [h, hfab]
      have h2 : Split.leaves [new] = Split.leaves (e :: es) := by
        rw [leaves_eq]
        simp [hnl]
      rw [h2]
      exact hles
    · rw [hfoth c d h]
      exact hi.pair c d
  · -- adjacency
    intro x y
    rw [← hi.adj x y]
    have hl' : LoopFree st'.edges := by
      intro x hx
      rw [hE] at hx
      rcases List.mem_append.1 hx with h | h
      · exact hlc x (List.mem_filter.1 h).1
      · rw [List.mem_singleton.1 h]
        exact hl e heg.1
    rw [adj_iff_between hl', adj_iff_between hlc]
    rcases hdich x y with h | h
    · rw [h]
      constructor
      · rintro -
        rw [hbe]
        rw [List.any_eq_true] at hany
        obtain ⟨z, hz, hz'⟩ := hany
        simp only [at', Bool.and_eq_true, decide_eq_true_eq] at hz'
        exact ⟨z, hz, (between_iff (hlc z hz)).2 (Or.inl hz')⟩
      · rintro -
        refine ⟨new, ?_, hnb⟩
        rw [hE]
        simp
    · have := hfoth x y h
      constructor
      · rintro ⟨z, hz, hz'⟩
        exact ⟨z, (List.mem_filter.1 (this ▸ List.mem_filter.2 ⟨hz, hz'⟩)).1, hz'⟩
      · rintro ⟨z, hz, hz'⟩
        exact ⟨z, (List.mem_filter.1 (this.symm ▸ List.mem_filter.2 ⟨hz, hz'⟩)).1, hz'⟩
  · -- heads
    intro e' es' hd
    rw [List.any_eq_true]
    rcases List.mem_append.1 hd with hd | hd
    · by_cases hb : between a b e' = true
      · have := hsame e' es' hd hb
        simp only [List.cons.injEq] at this
        refine ⟨new, ?_, ?_⟩
        · rw [hE]
          simp
        · simp [at', hnt, hnh, this.1]
      · have := hi.head e' es' hd
        rw [List.any_eq_true] at this
        obtain ⟨z, hz, hz'⟩ := this
        refine ⟨z, ?_, hz'⟩
        rw [hE]
        refine List.mem_append_left _ (List.mem_filter.2 ⟨hz, ?_⟩)
        simp only [at', Bool.and_eq_true, decide_eq_true_eq] at hz'
        have : between a b z = between a b e' := by simp only [between, hz'.1, hz'.2]
        rw [this]
        simpa using hb
    · have hd' := List.mem_singleton.1 hd
      rw [hes] at hd'
      simp only [List.cons.injEq] at hd'
      refine ⟨new, ?_, ?_⟩
      · rw [hE]
        simp
      · simp [at', hnt, hnh, hd'.1]
  · -- only one edge
    intro e' es' hd
    by_cases hb : between a b e' = true
    · have : e' = e := by
        rcases List.mem_append.1 hd with hd | hd
        · have := hsame e' es' hd hb
          simp only [List.cons.injEq] at this
          exact this.1
        · have hd' := List.mem_singleton.1 hd
          rw [hes] at hd'
          simp only [List.cons.injEq] at hd'
          exact hd'.1
      rw [this, ← hbe, hfab]
      rfl
    · have hd1 : (e' :: es') ∈ done := by
        rcases List.mem_append.1 hd with hd | hd
        · exact hd
        · have hd' := List.mem_singleton.1 hd
          rw [hes] at hd'
          simp only [List.cons.injEq] at hd'
          rw [hd'.1] at hb
          exact absurd heg.2 hb
      rw [hfoth]
      · exact hi.one e' es' hd1
      · intro x hx hx'
        by_contra hc
        simp only [Bool.not_eq_false] at hc
        rw [← between_eq hx hx' hc] at hb
        exact hb (between_self e')
  · -- other pairs
    intro c d hcd
    have hne : between c d e = false := hcd e es (by rw [← hes]; simp)
    rw [hfoth]
    · exact hi.other c d fun e' es' h => hcd e' es' (List.mem_append_left _ h)
    · intro x hx hx'
      by_contra hc
      simp only [Bool.not_eq_false] at hc
      rw [between_eq hx hx' hc, heg.2] at hne
      cases hne
  · -- length
    rw [if_neg (by simp)]
    rw [hE, List.length_append, List.length_singleton]
    have h1 := filter_add_not (between a b) st.edges
    have hlen := hi.length
    by_cases hdn : done = []
    · rw [if_pos hdn] at hlen
      have := hi.other a b (by rw [hdn]; simp)
      have h3 : (g.filter (between a b)).length = (e :: es).length := by
        rw [← hes]
        exact (getedges_perm hv g a b).length_eq.symm
      rw [this, h3] at h1
      rw [hes] at h2
      omega
    · rw [if_neg hdn] at hlen
      have hpos : 0 < (st.edges.filter (between a b)).length := by
        rw [List.any_eq_true] at hany
        obtain ⟨z, hz, hz'⟩ := hany
        simp only [at', Bool.and_eq_true, decide_eq_true_eq] at hz'
        refine List.length_pos_of_mem (a := z) (List.mem_filter.2 ⟨hz, ?_⟩)
        rw [hbe]
        exact (between_iff (hlc z hz)).2 (Or.inl hz')
      omega

theorem parFold {v : View C} (hv : v.Lawful) {g : List (Edge C)} (hl : LoopFree g) :
    ∀ (todo done : List (List (Edge C))) (st : State C), (∀ es ∈ done, IsPair v g es) →
    (∀ es ∈ todo, IsPair v g es) → ParInv g done st.edges →
    ∃ st', todo.foldlM replacePar st = some st' ∧ ParInv g (done ++ todo) st'.edges := by
  intro todo
  induction todo with
  | nil =>
    intro done st _ _ hi
    exact ⟨st, rfl, by simpa using hi⟩
  | cons es todo ih =>
    intro done st hd ht hi
    obtain ⟨st1, h1, hi1⟩ := hi.step hv hl hd (ht es (by simp))
    obtain ⟨st', h', hi'⟩ := ih (done ++ [es]) st1
      (by
        intro es' h'
        rcases List.mem_append.1 h' with h' | h'
        · exact hd es' h'
        · rw [List.mem_singleton.1 h']
          exact ht es (by simp))
      (fun es' h' => ht es' (by simp [h'])) hi1
    refine ⟨st', ?_, by simpa using hi'⟩
    rw [List.foldlM_cons, h1]
    exact h'

theorem filter_joins {g : List (Edge C)} (hl : LoopFree g) (a b : Name) :
    g.filter (fun e => decide (Joins a b e)) = g.filter (between a b) := by
  refine List.filter_congr fun e he => ?_
  rw [Bool.eq_iff_iff, decide_eq_true_iff, between_iff (hl e he)]
  rfl

/-- `Single`, for graphs without loops. -/
theorem single_iff {g : List (Edge C)} (hl : LoopFree g) : Single g ↔
    ∀ n a b, n ≠ datum → a ≠ b → Adj g n a → Adj g n b →
      (g.filter (between n a)).length = 1 := by
  unfold Single
  simp only [filter_joins hl]

theorem one_lt_degree {v : View C} (hv : v.Lawful) {g : List (Edge C)} {n a b : Name}
    (hab : a ≠ b) (ha : Adj g n a) (hb : Adj g n b) : 1 < degree v g n := by
  have : [a, b].Subperm (v.nbrs g n) := by
    refine List.subperm_of_subset (by simpa using hab) ?_
    intro x hx
    rw [hv.mem_nbrs]
    simp only [List.mem_cons, List.not_mem_nil, or_false] at hx
    rcases hx with rfl | rfl
    · exact ha
    · exact hb
  have := this.length_le
  simp only [List.length_cons, List.length_nil] at this
  unfold degree
  omega

/-- The effect of `_split_parallel` on a graph without loops. -/
theorem splitParallel_spec {v : View C} (hv : v.Lawful) {st : State C}
    (hl : LoopFree st.edges) : ∃ st' c, splitParallel v st = some (st', c) ∧
      (leaves st'.edges).Perm (leaves st.edges) ∧ (∀ a b, Adj st'.edges a b ↔ Adj st.edges a b) ∧
      LoopFree st'.edges ∧ Single st'.edges ∧
      (c = true → st'.edges.length < st.edges.length) ∧ (c = false → st' = st) := by
  have h0 : ParInv st.edges [] st.edges := by
    refine ⟨List.Perm.refl _, fun _ _ => List.Perm.refl _, fun _ _ => Iff.rfl, ?_, ?_,
      fun _ _ _ => rfl, ?_⟩
    · intro e es h
      cases h
    · intro e es h
      cases h
    · simp
  have hp : ∀ es ∈ parallelEdges v st.edges, IsPair v st.edges es := by
    intro es h
    obtain ⟨n, m, -, -, -, -, h1, h2⟩ := mem_parallelEdges.1 h
    exact ⟨h2, n, m, h1⟩
  obtain ⟨st', h', hi⟩ := parFold hv hl (parallelEdges v st.edges) [] st (by simp) hp h0
  rw [List.nil_append] at hi
  have hl' : LoopFree st'.edges := by
    rw [loopFree_iff] at hl ⊢
    intro x hx
    exact hl x ((hi.adj x x).1 hx)
  refine ⟨st', !(parallelEdges v st.edges).isEmpty, ?_, hi.leaves, hi.adj, hl', ?_, ?_, ?_⟩
  · unfold splitParallel
    dsimp only
    rw [h']
    rfl
  · rw [single_iff hl']
    intro n a b hn hab ha hb
    rw [hi.adj] at ha hb
    have hd := one_lt_degree hv hab ha hb
    by_cases h1 : 1 < (getedges v st.edges n a).length
    · have hmem : getedges v st.edges n a ∈ parallelEdges v st.edges :=
        mem_parallelEdges.2 ⟨n, a, (hv.mem_nodes _ _).2 ⟨a, ha⟩, (hv.mem_nbrs _ _ _).2 ha, hd,
          hn, rfl, h1⟩
      cases hg : getedges v st.edges n a with
      | nil => simp [hg] at h1
      | cons e es =>
        have he : e ∈ st.edges ∧ between n a e = true := by
          have : e ∈ getedges v st.edges n a := by rw [hg]; simp
          exact List.mem_filter.1 ((getedges_perm hv _ _ _).subset this)
        rw [hg] at hmem
        have := hi.one e es hmem
        rw [between_eq (hl e he.1) he.2 (between_self e)]
        exact this
    · have hoth := hi.other n a (by
        intro e es h
        by_contra hc
        simp only [Bool.not_eq_false] at hc
        obtain ⟨h2, c, d, hcd⟩ := hp _ h
        have he : e ∈ st.edges ∧ between c d e = true := by
          have : e ∈ getedges v st.edges c d := by rw [← hcd]; simp
          exact List.mem_filter.1 ((getedges_perm hv _ _ _).subset this)
        have : (between n a : Edge C → Bool) = between c d := between_eq (hl e he.1) hc he.2
        rw [hcd] at h2
        apply h1
        rw [getedges, this]
        exact h2)
      rw [hoth]
      have hle : (st.edges.filter (between n a)).length ≤ 1 := by
        rw [← (getedges_perm hv st.edges n a).length_eq]
        omega
      have hpos : 0 < (st.edges.filter (between n a)).length := by
        obtain ⟨z, hz, hz'⟩ := (adj_iff_between hl).1 ha
        exact List.length_pos_of_mem (List.mem_filter.2 ⟨hz, hz'⟩)
      omega
  · intro hc
    have hne : parallelEdges v st.edges ≠ [] := by
      rintro h
      rw [h] at hc
      simp at hc
    have := hi.length
    rw [if_neg hne] at this
    omega
  · intro hc
    have : parallelEdges v st.edges = [] := by
      simpa using hc
    rw [this] at h'
    exact (Option.some.inj h').symm

end Verif.Split
