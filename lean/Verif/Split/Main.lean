import Verif.Split.Serial

/-! # `sp_split` -/

namespace Verif.Split

open Edge

variable {C : Type}

/-! ## Trees of series and parallel connections -/

/-- A property of edges which parallel connections inherit. -/
def Closed (P : Edge C → Prop) : Prop :=
  ∀ (t h : Name) (n : ℕ) (es : List (Edge C)), 2 ≤ es.length → (∀ e ∈ es, P e) →
    (∀ e ∈ es, Joins t h e) → P (.graph t h (parLabel n) (es ++ outs (parLabel n) t h))

theorem replacePar_of {P : Edge C → Prop} (hP : Closed P) {v : View C} (hv : v.Lawful) {g : List (Edge C)} (hl : LoopFree g)
    (hg : ∀ e ∈ g, P e) {es : List (Edge C)} (hp : IsPair v g es) {st st' : State C}
    (hst : ∀ e ∈ st.edges, P e) (h : replacePar st es = some st') : ∀ e ∈ st'.edges, P e := by
  obtain ⟨h2, a, b, rfl⟩ := hp
  have hmem : ∀ x ∈ getedges v g a b, x ∈ g ∧ between a b x = true := fun x hx =>
    List.mem_filter.1 ((getedges_perm hv g a b).subset hx)
  generalize getedges v g a b = es at *
  cases es with
  | nil => simp at h2
  | cons e es =>
    unfold replacePar at h
    dsimp only at h
    split at h
    · obtain rfl := (Option.some.inj h).symm
      intro x hx
      rcases List.mem_append.1 hx with hx | hx
      · exact hst x (List.mem_filter.1 (List.mem_filter.1 hx).1).1
      · rw [List.mem_singleton.1 hx]
        refine hP _ _ _ _ (by omega) (fun y hy => hg y (hmem y hy).1) fun y hy => ?_
        have h3 := hmem e (by simp)
        have h4 := hmem y hy
        have : between e.tail e.head y = true := by
          rw [← between_eq (hl e h3.1) h3.2 (between_self e)]
          exact h4.2
        exact (between_iff (hl y h4.1)).1 this
    · cases h

theorem splitParallel_of {P : Edge C → Prop} (hP : Closed P) {v : View C} (hv : v.Lawful) {st st' : State C} {c : Bool}
    (hl : LoopFree st.edges) (hs : ∀ e ∈ st.edges, P e)
    (h : splitParallel v st = some (st', c)) : ∀ e ∈ st'.edges, P e := by
  have hp : ∀ es ∈ parallelEdges v st.edges, IsPair v st.edges es := by
    intro es h
    obtain ⟨n, m, -, -, -, -, h1, h2⟩ := mem_parallelEdges.1 h
    exact ⟨h2, n, m, h1⟩
  have key : ∀ (l : List (List (Edge C))) (s s' : State C), (∀ es ∈ l, IsPair v st.edges es) →
      (∀ e ∈ s.edges, P e) → l.foldlM replacePar s = some s' → ∀ e ∈ s'.edges, P e := by
    intro l
    induction l with
    | nil =>
      intro s s' _ hs h
      obtain rfl : s = s' := Option.some.inj h
      exact hs
    | cons es l ih =>
      intro s s' hl' hss h
      rw [List.foldlM_cons] at h
      cases h1 : replacePar s es with
      | none =>
        rw [h1] at h
        cases h
      | some s1 =>
        rw [h1] at h
        exact ih s1 s' (fun es' h' => hl' es' (by simp [h']))
          (replacePar_of hP hv hl hs (hl' es (by simp)) hss h1) h
  unfold splitParallel at h
  dsimp only at h
  cases hf : (parallelEdges v st.edges).foldlM replacePar st with
  | none =>
    rw [hf] at h
    cases h
  | some s1 =>
    rw [hf] at h
    have := Option.some.inj h
    simp only [Prod.mk.injEq] at this
    rw [← this.1]
    exact key _ st s1 hp hs hf

theorem splitParallel_sp {v : View C} (hv : v.Lawful) {st st' : State C} {c : Bool}
    (hl : LoopFree st.edges) (hs : ∀ e ∈ st.edges, SP e)
    (h : splitParallel v st = some (st', c)) : ∀ e ∈ st'.edges, SP e :=
  splitParallel_of SP.par hv hl hs h

theorem pairEdges_along {v : View C} (hv : v.Lawful) {g : List (Edge C)} (hl : LoopFree g) :
    ∀ {s : List Name} {es : List (Edge C)}, s ≠ [] → pairEdges v g s = some es → Along s es := by
  intro s
  induction s with
  | nil => intro es h; exact absurd rfl h
  | cons a s ih =>
    intro es _ h
    cases s with
    | nil =>
      obtain rfl : [] = es := Option.some.inj h
      trivial
    | cons b s =>
      rw [pairEdges] at h
      cases hg : getedges v g a b with
      | nil => simp [hg] at h
      | cons e l =>
        rw [hg] at h
        simp only [List.head?_cons, Option.bind_some] at h
        cases hp : pairEdges v g (b :: s) with
        | none => simp [hp] at h
        | some es' =>
          rw [hp] at h
          obtain rfl : e :: es' = es := by simpa using h
          have he : e ∈ g ∧ between a b e = true := by
            have : e ∈ getedges v g a b := by rw [hg]; simp
            exact List.mem_filter.1 ((getedges_perm hv g a b).subset this)
          exact ⟨(between_iff (hl e he.1)).1 he.2, ih (by simp) hp⟩

theorem news_sp {v : View C} (hv : v.Lawful) {g : List (Edge C)} (hl : LoopFree g)
    (hg : ∀ e ∈ g, SP e) : ∀ (T : List (Info C)) (k : ℕ), (∀ i ∈ T, i.Ok v g) →
    (∀ i ∈ T, Good g i.node i.s) → ∀ x ∈ news k T, SP x := by
  intro T
  induction T with
  | nil => intro k _ _ x hx; cases hx
  | cons i T ih =>
    intro k hok hgood x hx
    rw [news] at hx
    rcases List.mem_cons.1 hx with rfl | hx
    · have h1 := hok i (by simp)
      have h2 := hgood i (by simp)
      refine SP.ser _ _ _ _ i.s h2.three h2.nodup h1.first h1.last ?_ ?_
      · intro e he
        obtain ⟨l1, a, b, l2, -, heg, -⟩ := (pairEdges_mem hv h1.edges).1 e he
        exact hg e heg
      · refine pairEdges_along hv hl ?_ h1.edges
        intro h
        have := h2.three
        rw [h] at this
        simp at this
    · exact ih (k + 1) (fun j hj => hok j (by simp [hj])) (fun j hj => hgood j (by simp [hj])) x hx

/-! ## Connection with the datum -/

/-- In a graph none of whose loops hangs at one node, no chain closes. -/
theorem NoHang.not_closing {g : List (Edge C)} (h : NoHang g) (A : Name) (s : List Name) :
    ¬ Closing g A s := by
  intro hc
  have hA : A ∈ s := List.mem_of_getLast? hc.last
  obtain ⟨b, hb, hbA, hr⟩ := h A hc.ne_datum (fun u => u ∈ s) ⟨A, hA⟩ (by
    intro u hu
    by_cases huA : u = A
    · subst huA
      exact hc.two
    · obtain ⟨⟨-, x, y, hxy, hm⟩, hcl⟩ := hc.closed u hu huA
      have h1 := (hm x).2 (Or.inl rfl)
      have h2 := (hm y).2 (Or.inr rfl)
      exact ⟨x, y, hxy, hcl x h1, hcl y h2, h1, h2⟩)
  have key : ∀ z, Relation.ReflTransGen (AdjOff g A) b z → z ∈ s ∧ z ≠ A := by
    intro z hz
    induction hz with
    | refl => exact ⟨hb, hbA⟩
    | tail _ hstep ih => exact ⟨(hc.closed _ ih.1 ih.2).2 _ hstep.1, hstep.2.2⟩
  obtain ⟨h1, h2⟩ := key datum hr
  exact (hc.closed datum h1 h2).1.1 rfl

theorem NoHang.congr {g g' : List (Edge C)} (h : NoHang g) (ha : ∀ a b, Adj g' a b ↔ Adj g a b) :
    NoHang g' := by
  have h1 : AdjOff g' = AdjOff g := by
    funext A x y
    unfold AdjOff
    rw [ha]
  intro A hA U hU hUU
  simp only [ha] at hUU
  rw [h1]
  exact h A hA U hU hUU

/-- `y` is a node of a chain which is not one of its ends. -/
def Interior (s : List Name) (y : Name) : Prop := ∃ l1 a b l2, s = l1 ++ a :: y :: b :: l2

theorem Interior.mem {s : List Name} {y : Name} (h : Interior s y) : y ∈ s := by
  obtain ⟨l1, a, b, l2, rfl⟩ := h
  simp

theorem Interior.ne_ends {s : List Name} {y a b : Name} (h : Interior s y) (hnd : s.Nodup)
    (ha : s.head? = some a) (hb : s.getLast? = some b) : y ≠ a ∧ y ≠ b := by
  obtain ⟨l1, c, d, l2, rfl⟩ := h
  constructor
  · rintro rfl
    cases l1 with
    | nil =>
      simp only [List.nil_append, List.head?_cons, Option.some.injEq] at ha
      subst ha
      simp at hnd
    | cons z l1 =>
      simp only [List.cons_append, List.head?_cons, Option.some.injEq] at ha
      subst ha
      simp at hnd
  · rintro rfl
    have : y ∈ d :: l2 := by
      rw [List.getLast?_append, List.getLast?_cons_cons, List.getLast?_cons_cons] at hb
      have h2 : (d :: l2).getLast? = some y := by
        cases h3 : (d :: l2).getLast? with
        | none => simp at h3
        | some w =>
          rw [h3] at hb
          simpa using hb
      exact List.mem_of_getLast? h2
    rw [List.nodup_append] at hnd
    have := hnd.2.1
    rw [List.nodup_cons, List.nodup_cons] at this
    exact this.2.1 ‹_›

section serial

variable {v : View C} (hv : v.Lawful) {st : State C} (hl : LoopFree st.edges)
  (hs : Single st.edges) {T : List (Info C)} (hT : Clusters v st.edges T)

include hv hl hs hT

theorem kept_of_not_interior {x y : Name} (h : Adj st.edges x y)
    (hx : ∀ i ∈ T, ¬ Interior i.s x) (hy : ∀ i ∈ T, ¬ Interior i.s y) :
    Adj ((T.map Info.c).foldl replaceSer st).edges x y := by
  rw [clusters_fold hv hl hs hT]
  obtain ⟨e, he, hxy⟩ := h
  refine ⟨e, List.mem_append_left _ (List.mem_filter.2 ⟨he, ?_⟩), hxy⟩
  by_contra hc
  simp only [Bool.not_eq_true', Bool.not_eq_false, hit, List.any_eq_true, List.mem_flatMap] at hc
  obtain ⟨e', ⟨i, hi, he'⟩, hee⟩ := hc
  simp only [at', Bool.and_eq_true, decide_eq_true_eq] at hee
  obtain ⟨l1, a, b, l2, hsi, heg, hb⟩ := (pairEdges_mem hv (hT.ok i hi).edges).1 e' he'
  have hab : (x = a ∧ y = b) ∨ (x = b ∧ y = a) := by
    rcases (between_iff (hl e' heg)).1 hb with ⟨h3, h4⟩ | ⟨h3, h4⟩ <;>
      rcases hxy with ⟨h5, h6⟩ | ⟨h5, h6⟩
    · exact Or.inl ⟨by rw [← h5, hee.1, h3], by rw [← h6, hee.2, h4]⟩
    · exact Or.inr ⟨by rw [← h6, hee.2, h4], by rw [← h5, hee.1, h3]⟩
    · exact Or.inr ⟨by rw [← h5, hee.1, h3], by rw [← h6, hee.2, h4]⟩
    · exact Or.inl ⟨by rw [← h6, hee.2, h4], by rw [← h5, hee.1, h3]⟩
  have hint : Interior i.s a ∨ Interior i.s b := by
    rcases (hT.good i hi).path.pair_mid (hT.good i hi).three hsi with ⟨c, l, rfl⟩ | ⟨l, z, rfl⟩
    · exact Or.inr ⟨l1, a, c, l, hsi⟩
    · exact Or.inl ⟨l, z, b, l2, by simpa using hsi⟩
  rcases hab with ⟨rfl, rfl⟩ | ⟨rfl, rfl⟩ <;> rcases hint with h | h
  · exact hx i hi h
  · exact hy i hi h
  · exact hy i hi h
  · exact hx i hi h

theorem interior_mid {i : Info C} (hi : i ∈ T) {y : Name} (h : Interior i.s y) :
    Mid st.edges y := by
  obtain ⟨l1, a, b, l2, h⟩ := h
  exact (hT.good i hi).path.isMid h

/-- A node of a chain which is inside another chain: it is the same chain. -/
theorem interior_unique {i j : Info C} (hi : i ∈ T) (hj : j ∈ T) {y : Name}
    (h : Interior i.s y) (hy : y ∈ j.s) : j = i := by
  by_contra hne
  have hsym : ∀ a ∈ T, ∀ b ∈ T, a ≠ b → ∀ y, y ∈ a.s → y ∈ b.s → ¬ Mid st.edges y := by
    have hp := hT.disj
    clear h hy hi hj hT hs
    induction T with
    | nil => intro a ha; cases ha
    | cons c T ih =>
      rw [List.pairwise_cons] at hp
      intro a ha b hb hab y hy1 hy2
      rcases List.mem_cons.1 ha with h1 | h1 <;> rcases List.mem_cons.1 hb with h2 | h2
      · exact absurd (h1.trans h2.symm) hab
      · rw [h1] at hy1
        exact hp.1 b h2 y hy1 hy2
      · rw [h2] at hy2
        exact hp.1 a h1 y hy2 hy1
      · exact ih hp.2 a h1 b h2 hab y hy1 hy2
  exact hsym j hj i hi hne y hy h.mem (interior_mid hv hl hs hT hi h)

theorem end_not_interior {i j : Info C} (hi : i ∈ T) (hj : j ∈ T) :
    ¬ Interior j.s i.c.first ∧ ¬ Interior j.s i.c.last := by
  constructor
  · intro h
    have := interior_unique hv hl hs hT hj hi h (first_mem (hT.ok i hi)).1
    subst this
    exact (h.ne_ends (hT.good i hi).nodup (hT.ok i hi).first (hT.ok i hi).last).1 rfl
  · intro h
    have := interior_unique hv hl hs hT hj hi h (first_mem (hT.ok i hi)).2
    subst this
    exact (h.ne_ends (hT.good i hi).nodup (hT.ok i hi).first (hT.ok i hi).last).2 rfl

/-- Nodes inside chains have no edge any more; the other nodes of the new graph are old ones. -/
theorem new_node {b m : Name} (h : Adj ((T.map Info.c).foldl replaceSer st).edges b m) :
    (∃ m', Adj st.edges b m') ∧ ∀ i ∈ T, ¬ Interior i.s b := by
  rw [clusters_fold hv hl hs hT] at h
  obtain ⟨e, he, hbm⟩ := h
  rcases List.mem_append.1 he with he | he
  · have heg := (List.mem_filter.1 he).1
    have hadj : Adj st.edges b m := ⟨e, heg, hbm⟩
    refine ⟨⟨m, hadj⟩, fun i hi hint => ?_⟩
    have hnh := (List.mem_filter.1 he).2
    have hmid := interior_mid hv hl hs hT hi hint
    -- the edge between `b` and `m` in the chain
    obtain ⟨l1, x, y, l2, hsi⟩ := hint
    have hm := ((hT.good i hi).path.mid _ _ _ _ _ hsi).2.2 m
    have hpe := (pairEdges_mem hv (hT.ok i hi).edges).2.1
    obtain ⟨e', he', heg', hb'⟩ : ∃ e' ∈ i.c.edges, e' ∈ st.edges ∧ between b m e' = true := by
      rcases hm.1 hadj with rfl | rfl
      · rw [between_comm]
        exact hpe l1 m b (y :: l2) hsi
      · exact hpe (l1 ++ [x]) b m l2 (by simpa using hsi)
    have hone := hmid.single hl hs hadj
    have := (alone heg' hl hb' hone).2 e heg ((between_iff (hl e heg)).2 hbm)
    subst this
    simp only [Bool.not_eq_true', hit, List.any_eq_false, List.mem_flatMap] at hnh
    exact hnh e ⟨i, hi, he'⟩ (by simp [at'])
  · obtain ⟨i, hi, h1, h2⟩ := mem_news he
    have hmem := first_mem (hT.ok i hi)
    have hb : b = i.c.first ∨ b = i.c.last := by
      rcases hbm with ⟨h3, -⟩ | ⟨-, h4⟩
      · exact Or.inl (by rw [← h3, h1])
      · exact Or.inr (by rw [← h4, h2])
    refine ⟨?_, fun j hj => ?_⟩
    · refine (hT.good i hi).path.exists_adj ?_ ?_
      · have := (hT.good i hi).three
        omega
      · rcases hb with rfl | rfl
        · exact hmem.1
        · exact hmem.2
    · have := end_not_interior hv hl hs hT hi hj
      rcases hb with rfl | rfl
      · exact this.1
      · exact this.2

theorem interior_or_end {i : Info C} (hi : i ∈ T) {y : Name} (hy : y ∈ i.s) :
    Interior i.s y ∨ y = i.c.first ∨ y = i.c.last := by
  rcases mem_split3 hy with ⟨l, h⟩ | ⟨l, h⟩ | ⟨l1, a, b, l2, h⟩
  · have := (hT.ok i hi).first
    rw [h] at this
    exact Or.inr (Or.inl (by simpa using this))
  · have := (hT.ok i hi).last
    rw [h] at this
    exact Or.inr (Or.inr (by simpa using this))
  · exact Or.inl ⟨l1, a, b, l2, h⟩

theorem ends_adj {i : Info C} (hi : i ∈ T) :
    Adj ((T.map Info.c).foldl replaceSer st).edges i.c.first i.c.last := by
  rw [clusters_fold hv hl hs hT]
  obtain ⟨x, hx, h1, h2⟩ := news_mem (k := st.idser) hi
  exact ⟨x, List.mem_append_right _ hx, Or.inl ⟨h1, h2⟩⟩

/-- Connections with the datum remain. -/
theorem reach_serial {A b : Name} (hbA : b ≠ A) (hbi : ∀ i ∈ T, ¬ Interior i.s b)
    (hr : Relation.ReflTransGen (AdjOff st.edges A) b datum) :
    Relation.ReflTransGen (AdjOff ((T.map Info.c).foldl replaceSer st).edges A) b datum := by
  set g' := ((T.map Info.c).foldl replaceSer st).edges with hg'
  have key : ∀ x, Relation.ReflTransGen (AdjOff st.edges A) b x → x ≠ A ∧
      ((∀ i ∈ T, ¬ Interior i.s x) → Relation.ReflTransGen (AdjOff g' A) b x) ∧
      ∀ i ∈ T, Interior i.s x → ∃ f, (f = i.c.first ∨ f = i.c.last) ∧ f ≠ A ∧
        Relation.ReflTransGen (AdjOff g' A) b f := by
    intro x hx
    induction hx with
    | refl => exact ⟨hbA, fun _ => Relation.ReflTransGen.refl, fun i hi h => absurd h (hbi i hi)⟩
    | @tail x y _ hstep ih =>
      obtain ⟨hxA, ih1, ih2⟩ := ih
      obtain ⟨hadj, -, hyA⟩ := hstep
      refine ⟨hyA, ?_, ?_⟩
      · intro hy
        by_cases hx : ∀ i ∈ T, ¬ Interior i.s x
        · exact (ih1 hx).tail ⟨kept_of_not_interior hv hl hs hT hadj hx hy, hxA, hyA⟩
        · push Not at hx
          obtain ⟨i, hi, hxi⟩ := hx
          obtain ⟨f, hf, hfA, hfr⟩ := ih2 i hi hxi
          have hys : y ∈ i.s := (hT.good i hi).closed x hxi.mem
            (interior_mid hv hl hs hT hi hxi) y hadj
          have hye := (interior_or_end hv hl hs hT hi hys).resolve_left (hy i hi)
          have hE := ends_adj hv hl hs hT hi
          rcases hf with rfl | rfl <;> rcases hye with rfl | rfl
          · exact hfr
          · exact hfr.tail ⟨hE, hfA, hyA⟩
          · exact hfr.tail ⟨hE.symm, hfA, hyA⟩
          · exact hfr
      · intro i hi hyi
        have hxs : x ∈ i.s := (hT.good i hi).closed y hyi.mem
          (interior_mid hv hl hs hT hi hyi) x hadj.symm
        rcases interior_or_end hv hl hs hT hi hxs with h | h
        · exact ih2 i hi h
        · refine ⟨x, h, hxA, ih1 ?_⟩
          intro j hj
          have := end_not_interior hv hl hs hT hi hj
          rcases h with rfl | rfl
          · exact this.1
          · exact this.2
  refine (key datum hr).2.1 ?_
  intro i hi h
  exact (interior_mid hv hl hs hT hi h).1 rfl

/-- A node inside a chain which is connected with the datum: an end of the chain is. -/
theorem reach_end {A x : Name} {i : Info C} (hi : i ∈ T) (hx : Interior i.s x)
    (hr : Relation.ReflTransGen (AdjOff st.edges A) x datum) :
    ∃ f, (f = i.c.first ∨ f = i.c.last) ∧ f ≠ A ∧
      Relation.ReflTransGen (AdjOff st.edges A) f datum := by
  induction hr using Relation.ReflTransGen.head_induction_on with
  | refl => exact absurd rfl (interior_mid hv hl hs hT hi hx).1
  | @head x y hstep hr ih =>
    have hys : y ∈ i.s := (hT.good i hi).closed x hx.mem
      (interior_mid hv hl hs hT hi hx) y hstep.1
    rcases interior_or_end hv hl hs hT hi hys with h | h
    · exact ih h
    · exact ⟨y, h, hstep.2.2, hr⟩

/-- A neighbour in the new graph: it was one, or there is a chain. -/
theorem new_adj {x y : Name} (h : Adj ((T.map Info.c).foldl replaceSer st).edges x y) :
    Adj st.edges x y ∨ ∃ i ∈ T, (x = i.c.first ∧ y = i.c.last) ∨ (x = i.c.last ∧ y = i.c.first) := by
  rw [clusters_fold hv hl hs hT] at h
  obtain ⟨e, he, hxy⟩ := h
  rcases List.mem_append.1 he with he | he
  · exact Or.inl ⟨e, (List.mem_filter.1 he).1, hxy⟩
  · obtain ⟨i, hi, h1, h2⟩ := mem_news he
    refine Or.inr ⟨i, hi, ?_⟩
    rw [h1, h2] at hxy
    rcases hxy with ⟨h3, h4⟩ | ⟨h3, h4⟩
    · exact Or.inl ⟨h3.symm, h4.symm⟩
    · exact Or.inr ⟨h4.symm, h3.symm⟩

/-- An end of a chain has a neighbour inside the chain. -/
theorem end_nbr {i : Info C} (hi : i ∈ T) {x : Name} (hx : x = i.c.first ∨ x = i.c.last) :
    ∃ z, Interior i.s z ∧ Adj st.edges x z := by
  have key : ∀ s : List Name, 3 ≤ s.length → s.head? = some x → s.IsChain (Adj st.edges) →
      ∃ z, Interior s z ∧ Adj st.edges x z := by
    intro s h3 hh hc
    match s with
    | a :: b :: c :: l =>
      simp only [List.head?_cons, Option.some.injEq] at hh
      subst hh
      exact ⟨b, ⟨[], a, c, l, rfl⟩, (List.isChain_cons_cons.1 hc).1⟩
    | [] => simp at h3
    | [_] => simp at h3
    | [_, _] => simp at h3
  have h3 := (hT.good i hi).three
  rcases hx with rfl | rfl
  · exact key i.s h3 (hT.ok i hi).first (hT.good i hi).path.chain
  · obtain ⟨z, ⟨l1, a, b, l2, hz⟩, hz'⟩ := key i.s.reverse (by simpa using h3)
      (by rw [List.head?_reverse]; exact (hT.ok i hi).last)
      (hT.good i hi).path.reverse.chain
    refine ⟨z, ⟨l2.reverse, b, a, l1.reverse, ?_⟩, hz'⟩
    have := congrArg List.reverse hz
    simpa using this

theorem noHang_serial (hn : NoHang st.edges) :
    NoHang ((T.map Info.c).foldl replaceSer st).edges := by
  set g' := ((T.map Info.c).foldl replaceSer st).edges with hg'
  intro A hA U hU hUU
  -- the nodes of `U` and the nodes of the chains between nodes of `U`
  have hUi : ∀ u, U u → ∀ i ∈ T, ¬ Interior i.s u := by
    intro u hu
    obtain ⟨a, -, -, -, -, ha, -⟩ := hUU u hu
    exact (new_node hv hl hs hT ha).2
  set V : Name → Prop := fun x => U x ∨ ∃ i ∈ T, U i.c.first ∧ U i.c.last ∧ Interior i.s x with hV
  -- each neighbour in `U` gives a neighbour in `V`
  have hnb : ∀ u a, U u → U a → Adj g' u a → ∃ w, V w ∧ Adj st.edges u w ∧
      (w = a ∨ ∃ i ∈ T, Interior i.s w ∧
        ((u = i.c.first ∧ a = i.c.last) ∨ (u = i.c.last ∧ a = i.c.first))) := by
    intro u a hu ha hua
    rcases new_adj hv hl hs hT hua with h | ⟨i, hi, h⟩
    · exact ⟨a, Or.inl ha, h, Or.inl rfl⟩
    · obtain ⟨z, hz, hadj⟩ := end_nbr hv hl hs hT hi (x := u) (by
        rcases h with h | h
        · exact Or.inl h.1
        · exact Or.inr h.1)
      refine ⟨z, Or.inr ⟨i, hi, ?_, ?_, hz⟩, hadj, Or.inr ⟨i, hi, hz, h⟩⟩
      · rcases h with ⟨rfl, rfl⟩ | ⟨rfl, rfl⟩
        · exact hu
        · exact ha
      · rcases h with ⟨rfl, rfl⟩ | ⟨rfl, rfl⟩
        · exact ha
        · exact hu
  obtain ⟨b, hb, hbA, hr⟩ := hn A hA V (by obtain ⟨u, hu⟩ := hU; exact ⟨u, Or.inl hu⟩) (by
    rintro u (hu | ⟨i, hi, hf, hla, hint⟩)
    · obtain ⟨a, b, hab, hUa, hUb, haa, hbb⟩ := hUU u hu
      obtain ⟨w1, hw1, hadj1, h1⟩ := hnb u a hu hUa haa
      obtain ⟨w2, hw2, hadj2, h2⟩ := hnb u b hu hUb hbb
      refine ⟨w1, w2, ?_, hw1, hw2, hadj1, hadj2⟩
      rintro rfl
      rcases h1 with h1 | ⟨i, hi, hint1, h1⟩ <;> rcases h2 with h2 | ⟨j, hj, hint2, h2⟩
      · exact hab (h1.symm.trans h2)
      · exact hUi w1 (h1 ▸ hUa) j hj hint2
      · exact hUi w1 (h2 ▸ hUb) i hi hint1
      · obtain rfl := interior_unique hv hl hs hT hi hj hint1 hint2.mem
        have hne := good_ends (hT.ok j hi) (hT.good j hi)
        rcases h1 with ⟨h3, h4⟩ | ⟨h3, h4⟩ <;> rcases h2 with ⟨h5, h6⟩ | ⟨h5, h6⟩
        · exact hab (h4.trans h6.symm)
        · exact hne (h3.symm.trans h5)
        · exact hne (h5.symm.trans h3)
        · exact hab (h4.trans h6.symm)
    · have hmem : ∀ x ∈ i.s, V x := by
        intro x hx
        rcases interior_or_end hv hl hs hT hi hx with h | rfl | rfl
        · exact Or.inr ⟨i, hi, hf, hla, h⟩
        · exact Or.inl hf
        · exact Or.inl hla
      obtain ⟨l1, a, b, l2, hsi⟩ := hint
      obtain ⟨-, hab, hm⟩ := (hT.good i hi).path.mid _ _ _ _ _ hsi
      exact ⟨a, b, hab, hmem a (by rw [hsi]; simp), hmem b (by rw [hsi]; simp),
        (hm a).2 (Or.inl rfl), (hm b).2 (Or.inr rfl)⟩)
  rcases hb with hb | ⟨i, hi, hf, hla, hint⟩
  · exact ⟨b, hb, hbA, reach_serial hv hl hs hT hbA (hUi b hb) hr⟩
  · obtain ⟨f, hfe, hfA, hfr⟩ := reach_end hv hl hs hT hi hint hr
    have hUf : U f := by
      rcases hfe with rfl | rfl
      · exact hf
      · exact hla
    exact ⟨f, hUf, hfA, reach_serial hv hl hs hT hfA (hUi f hUf) hfr⟩

end serial

/-! ## The loop -/

/-- One pass of the loop. -/
theorem pass_spec {vp vs : View C} (hvp : vp.Lawful) (hvs : vs.Lawful) {st : State C}
    (hl : LoopFree st.edges) (hn : NoHang st.edges) (hsp : ∀ e ∈ st.edges, SP e) :
    ∃ st' c, pass vp vs st = some (st', c) ∧ LoopFree st'.edges ∧ NoHang st'.edges ∧
      (∀ e ∈ st'.edges, SP e) ∧ (leaves st'.edges).Perm (leaves st.edges) ∧
      (c = true → st'.edges.length < st.edges.length) ∧ (c = false → Reduced st'.edges) := by
  obtain ⟨st1, c1, h1, hlv1, hadj1, hl1, hs1, hc1, hc1'⟩ := splitParallel_spec hvp hl
  have hn1 := hn.congr hadj1
  have hsp1 := splitParallel_sp hvp hl hsp h1
  obtain ⟨T, h2, hmid, hT | ⟨⟨A, s, hA⟩, -⟩⟩ := splitSerial_spec hvs hl1 hs1
  · obtain ⟨hlv2, hl2, hlen⟩ := clusters_leaves hvs hl1 hs1 hT
    refine ⟨_, !(T.map Info.c).isEmpty || c1, ?_, hl2, noHang_serial hvs hl1 hs1 hT hn1, ?_,
      hlv2.trans hlv1, ?_, ?_⟩
    · unfold pass
      rw [h1]
      simp only [Option.bind_some]
      rw [h2]
      rfl
    · intro x hx
      rw [clusters_fold hvs hl1 hs1 hT] at hx
      rcases List.mem_append.1 hx with h | h
      · exact hsp1 x (List.mem_filter.1 h).1
      · exact news_sp hvs hl1 hsp1 T _ hT.ok hT.good x h
    · intro hc
      by_cases hTn : T = []
      · subst hTn
        have : c1 = true := by simpa using hc
        exact hc1 this
      · have h3 := hlen hTn
        cases c1 with
        | true => exact h3.trans (hc1 rfl)
        | false =>
          rw [hc1' rfl] at h3 ⊢
          exact h3
    · intro hc
      have hTn : T = [] := by
        by_contra h
        cases T with
        | nil => exact h rfl
        | cons a T => simp at hc
      subst hTn
      exact ⟨hmid rfl, hs1⟩
  · exact absurd hA (hn1.not_closing A s)

theorem spSplit_spec {vp vs : ℕ → View C} (hvp : ∀ k, (vp k).Lawful) (hvs : ∀ k, (vs k).Lawful) :
    ∀ (fuel k : ℕ) (st : State C), st.edges.length < fuel → LoopFree st.edges → NoHang st.edges →
    (∀ e ∈ st.edges, SP e) → ∃ st', spSplit vp vs fuel k st = some st' ∧
      (leaves st'.edges).Perm (leaves st.edges) ∧ Reduced st'.edges ∧ ∀ e ∈ st'.edges, SP e := by
  intro fuel
  induction fuel with
  | zero => intro k st h; omega
  | succ fuel ih =>
    intro k st hlt hl hn hsp
    obtain ⟨st1, c, h1, hl1, hn1, hsp1, hlv1, hc1, hc2⟩ := pass_spec (hvp k) (hvs k) hl hn hsp
    unfold spSplit
    rw [h1]
    simp only [Option.bind_some]
    cases c with
    | true =>
      have := hc1 rfl
      obtain ⟨st', h', hlv', hr', hsp'⟩ := ih (k + 1) st1 (by omega) hl1 hn1 hsp1
      exact ⟨st', by simpa using h', hlv'.trans hlv1, hr', hsp'⟩
    | false => exact ⟨st1, by simp, hlv1, hc2 rfl, hsp1⟩

end Verif.Split
