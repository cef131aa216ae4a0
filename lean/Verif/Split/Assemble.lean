import Verif.Split.Main

/-! # `sp_assemble` -/

namespace Verif.Split

open Edge

variable {C : Type}

/-- What `remove_edges_from_list` compares. -/
def key (e : Edge C) : Name × Name × Name := (e.tail, e.head, e.label)

theorem key_iff (e x : Edge C) : (at' e.tail e.head x && decide (x.label = e.label)) = true ↔
    key x = key e := by
  simp [at', key, and_assoc]

/-- Edges are removed one by one if no other edge has the same nodes and label. -/
theorem removeAll : ∀ (D cur : List (Edge C)),
    (∀ x ∈ cur, dropped x = false → ∀ e ∈ D, key x ≠ key e) →
    ((cur.filter dropped).map key).Perm (D.map key) →
    D.foldlM (fun cur e => removeByLabel e cur) cur = some (cur.filter fun x => !dropped x) := by
  intro D
  induction D with
  | nil =>
    intro cur _ hp
    have h0 : cur.filter dropped = [] := by
      have := hp.length_eq
      simp only [List.length_map, List.length_nil] at this
      exact List.length_eq_zero_iff.1 this
    have : cur.filter (fun x => !dropped x) = cur := by
      rw [List.filter_eq_self]
      intro x hx
      by_contra hc
      have : x ∈ cur.filter dropped := List.mem_filter.2 ⟨hx, by simpa using hc⟩
      rw [h0] at this
      cases this
    rw [this]
    rfl
  | cons e D ih =>
    intro cur hk hp
    have hmem : key e ∈ (cur.filter dropped).map key := hp.symm.subset (by simp)
    obtain ⟨x, hx, hxe⟩ := List.mem_map.1 hmem
    have hxc := (List.mem_filter.1 hx).1
    set p : Edge C → Bool := fun x => at' e.tail e.head x && decide (x.label = e.label) with hpdef
    have hpx : p x = true := (key_iff e x).2 hxe
    obtain ⟨y, l1, l2, hy1, hy2, hy3, hy4⟩ := List.exists_of_eraseP hxc hpx
    have hky : key y = key e := (key_iff e y).1 hy2
    have hyc : y ∈ cur := by rw [hy3]; simp
    have hyd : dropped y = true := by
      by_contra hc
      exact hk y hyc (by simpa using hc) e (by simp) hky
    have hr : removeByLabel e cur = some (l1 ++ l2) := by
      unfold removeByLabel
      have h1 : cur.any (at' e.tail e.head) = true := by
        rw [List.any_eq_true]
        refine ⟨x, hxc, ?_⟩
        simp only [hpdef, Bool.and_eq_true] at hpx
        exact hpx.1
      have h2 : cur.any p = true := List.any_eq_true.2 ⟨x, hxc, hpx⟩
      rw [if_pos h1]
      change (if cur.any p = true then some (cur.eraseP p) else _) = _
      rw [if_pos h2, hy4]
    rw [List.foldlM_cons, hr]
    have hcur : cur.filter (fun x => !dropped x) = (l1 ++ l2).filter fun x => !dropped x := by
      rw [hy3]
      simp [hyd]
    rw [hcur]
    refine ih (l1 ++ l2) ?_ ?_
    · intro z hz hzd e' he'
      refine hk z ?_ hzd e' (by simp [he'])
      rw [hy3]
      rcases List.mem_append.1 hz with h | h <;> simp [h]
    · have h1 : ((cur.filter dropped).map key).Perm
          (key e :: ((l1 ++ l2).filter dropped).map key) := by
        rw [hy3, List.filter_append, List.filter_cons_of_pos hyd, List.map_append, List.map_cons,
          List.filter_append, List.map_append, hky]
        exact List.perm_middle
      exact List.Perm.cons_inv (h1.symm.trans (by simpa using hp))

theorem spAssemble_eq {v : View C} (hv : v.Lawful) {g : List (Edge C)}
    (h : ∀ x ∈ g ++ inners g, dropped x = false → ∀ e ∈ g ++ inners g, dropped e = true →
      key x ≠ key e) :
    spAssemble v g = some ((g ++ inners g).filter fun x => !dropped x) := by
  unfold spAssemble
  dsimp only
  refine removeAll _ _ ?_ ?_
  · intro x hx hxd e he
    have he' := List.mem_filter.1 he
    exact h x hx hxd e ((hv.edges_perm _).subset he'.1) he'.2
  · exact (((hv.edges_perm _).filter dropped).map key).symm

/-- The edges of the whole tree. -/
def allEdges (g : List (Edge C)) : List (Edge C) := g ++ inners g

theorem inners_append (a b : List (Edge C)) : inners (a ++ b) = inners a ++ inners b := by
  induction a with
  | nil => rfl
  | cons e a ih => simp [inners, ih]

theorem inners_eq (l : List (Edge C)) : inners l = l.flatMap inner := by
  induction l with
  | nil => rfl
  | cons e l ih => simp [inners, ih]

theorem inners_outs (l n1 n2 : Name) : inners (outs l n1 n2 : List (Edge C)) = [] := by
  rw [inners_eq, List.flatMap_eq_nil_iff]
  intro e he
  simp only [outs, List.mem_map] at he
  obtain ⟨n, -, rfl⟩ := he
  simp [inner]

theorem outs_dropped {l n1 n2 : Name} {e : Edge C} (he : e ∈ outs l n1 n2) :
    dropped e = true ∧ ∃ t h l, e = .out t h l := by
  simp only [outs, List.mem_map] at he
  obtain ⟨n, -, rfl⟩ := he
  refine ⟨?_, _, _, _, rfl⟩
  unfold dropped
  rw [Bool.or_eq_true]
  exact Or.inl (decide_eq_true ⟨l, n, rfl⟩)

/-- Labels which the user may give to components. -/
def Free (l : Name) : Prop :=
  ¬ "_out_".toList <:+: l ∧ ∀ n, l ≠ parLabel n ∧ l ≠ serLabel n

/-- Trees whose subgraphs have the labels of series and parallel connections. -/
inductive Shape : Edge C → Prop
  | comp (t h l : Name) (c : C) : Shape (.comp t h l c)
  | out (t h l : Name) : "_out_".toList <:+: l → Shape (.out t h l)
  | graph (t h l : Name) (sub : List (Edge C)) : ¬ Free l → (∀ e ∈ sub, Shape e) → Shape (.graph t h l sub)

theorem shape_outs {l n1 n2 : Name} {e : Edge C} (he : e ∈ outs l n1 n2) : Shape e := by
  simp only [outs, List.mem_map] at he
  obtain ⟨n, -, rfl⟩ := he
  exact .out _ _ _ ⟨l, n, rfl⟩

theorem SP.shape {e : Edge C} (h : SP e) : Shape e := by
  induction h with
  | comp t h l c => exact .comp t h l c
  | par t h n es h2 hes hj ih =>
    refine .graph _ _ _ _ (fun hf => (hf.2 n).1 rfl) fun e he => ?_
    rcases List.mem_append.1 he with h | h
    exacts [ih e h, shape_outs h]
  | ser t h n es s h3 hnd hh hla hes hal ih =>
    refine .graph _ _ _ _ (fun hf => (hf.2 n).2 rfl) fun e he => ?_
    rcases List.mem_append.1 he with h | h
    exacts [ih e h, shape_outs h]

/-- What is in such a tree. -/
theorem Shape.inner {e : Edge C} (h : Shape e) : (∀ x ∈ leavesOf e, Free x.label) →
    (∀ x ∈ e :: Split.inner e, dropped x = false → Free x.label) ∧
    (∀ x ∈ e :: Split.inner e, dropped x = true → ¬ Free x.label) ∧
    (((e :: Split.inner e).filter fun x => !dropped x).Perm (leavesOf e)) := by
  induction h with
  | comp t h l c =>
    intro hf
    have hfl : Free l := hf (.comp t h l c) (by simp [leavesOf])
    have hd : dropped (.comp t h l c : Edge C) = false := by
      unfold dropped
      rw [Bool.or_eq_false_iff]
      exact ⟨decide_eq_false hfl.1, rfl⟩
    simp only [Split.inner, List.mem_singleton, forall_eq]
    refine ⟨fun _ => hfl, fun h => ?_, ?_⟩
    · rw [hd] at h
      cases h
    · simp [hd, leavesOf]
  | out t h l hl =>
    intro _
    have hd : dropped (.out t h l : Edge C) = true := by
      unfold dropped
      rw [Bool.or_eq_true]
      exact Or.inl (decide_eq_true hl)
    simp only [Split.inner, List.mem_singleton, forall_eq]
    refine ⟨fun h => ?_, fun _ hf => hf.1 hl, ?_⟩
    · rw [hd] at h
      cases h
    · simp [hd, leavesOf]
  | graph t h' l sub hl hs ih =>
    intro hfree
    have hlv : leavesOf (.graph t h' l sub) = sub.flatMap leavesOf := by rw [leavesOf, leaves_eq]
    have hin : Split.inner (.graph t h' l sub) = sub ++ sub.flatMap Split.inner := by
      rw [Split.inner, inners_eq]
    rw [hlv] at hfree
    have hdg : dropped (.graph t h' l sub : Edge C) = true := by
      simp [dropped, isGraph]
    have ih' : ∀ e ∈ sub, _ := fun e he =>
      ih e he fun x hx => hfree x (List.mem_flatMap.2 ⟨e, he, hx⟩)
    rw [hin, hlv]
    refine ⟨?_, ?_, ?_⟩
    · intro x hx hd
      rcases List.mem_cons.1 hx with rfl | hx
      · rw [hdg] at hd
        cases hd
      · rcases List.mem_append.1 hx with hx | hx
        · exact (ih' x hx).1 x (by simp) hd
        · obtain ⟨e, he, hx⟩ := List.mem_flatMap.1 hx
          exact (ih' e he).1 x (by simp [hx]) hd
    · intro x hx hd
      rcases List.mem_cons.1 hx with rfl | hx
      · exact hl
      · rcases List.mem_append.1 hx with hx | hx
        · exact (ih' x hx).2.1 x (by simp) hd
        · obtain ⟨e, he, hx⟩ := List.mem_flatMap.1 hx
          exact (ih' e he).2.1 x (by simp [hx]) hd
    · rw [List.filter_cons_of_neg (by simp [hdg]), List.filter_append]
      clear hfree hlv hin hdg ih hs
      induction sub with
      | nil => simp
      | cons e es ihes =>
        have h1 := (ih' e (by simp)).2.2
        have h2 := ihes fun x hx => ih' x (by simp [hx])
        rw [List.flatMap_cons, List.flatMap_cons, List.filter_append]
        refine List.Perm.trans ?_ (h1.append h2)
        by_cases hd : dropped e = true
        · rw [List.filter_cons_of_neg (by simp [hd]), List.filter_cons_of_neg (by simp [hd])]
          rw [← List.append_assoc, ← List.append_assoc]
          exact List.perm_append_comm.append_right _
        · rw [List.filter_cons_of_pos (by simpa using hd),
            List.filter_cons_of_pos (by simpa using hd), List.cons_append, List.cons_append]
          refine List.Perm.cons e ?_
          rw [← List.append_assoc, ← List.append_assoc]
          exact List.perm_append_comm.append_right _

/-- The components of the tree come back, and nothing else. -/
theorem spAssemble_shape {v : View C} (hv : v.Lawful) {g : List (Edge C)} (hg : ∀ e ∈ g, Shape e)
    (hf : ∀ x ∈ leaves g, Free x.label) :
    ∃ g', spAssemble v g = some g' ∧ g'.Perm (leaves g) := by
  have hf' : ∀ e ∈ g, ∀ x ∈ leavesOf e, Free x.label := fun e he x hx =>
    hf x (by rw [leaves_eq]; exact List.mem_flatMap.2 ⟨e, he, hx⟩)
  have hmem : ∀ x ∈ g ++ inners g, ∃ e ∈ g, x ∈ e :: Split.inner e := by
    intro x hx
    rcases List.mem_append.1 hx with h | h
    · exact ⟨x, h, by simp⟩
    · rw [inners_eq] at h
      obtain ⟨e, he, h⟩ := List.mem_flatMap.1 h
      exact ⟨e, he, by simp [h]⟩
  refine ⟨_, spAssemble_eq hv ?_, ?_⟩
  · intro x hx hxd e he hed hk
    obtain ⟨a, ha, hxa⟩ := hmem x hx
    obtain ⟨b, hb, heb⟩ := hmem e he
    have h1 := ((hg a ha).inner (hf' a ha)).1 x hxa hxd
    have h2 := ((hg b hb).inner (hf' b hb)).2.1 e heb hed
    have h3 : x.label = e.label := congrArg (fun k => k.2.2) hk
    rw [h3] at h1
    exact h2 h1
  · rw [inners_eq, leaves_eq]
    clear hmem hf
    induction g with
    | nil => simp
    | cons e g ih =>
      have h1 := ((hg e (by simp)).inner (hf' e (by simp))).2.2
      have h2 := ih (fun x hx => hg x (by simp [hx])) fun x hx => hf' x (by simp [hx])
      rw [List.flatMap_cons, List.flatMap_cons]
      refine List.Perm.trans ?_ (h1.append h2)
      rw [List.filter_append] at h2
      rw [List.filter_append, List.filter_append]
      by_cases hd : dropped e = true
      · rw [List.filter_cons_of_neg (by simp [hd]), List.filter_cons_of_neg (by simp [hd]),
          List.filter_append]
        rw [← List.append_assoc, ← List.append_assoc]
        exact List.perm_append_comm.append_right _
      · rw [List.filter_cons_of_pos (by simpa using hd),
          List.filter_cons_of_pos (by simpa using hd), List.cons_append, List.cons_append,
          List.filter_append]
        refine List.Perm.cons e ?_
        rw [← List.append_assoc, ← List.append_assoc]
        exact List.perm_append_comm.append_right _

theorem spAssemble_spec {v : View C} (hv : v.Lawful) {g : List (Edge C)} (hg : ∀ e ∈ g, SP e)
    (hf : ∀ x ∈ leaves g, Free x.label) :
    ∃ g', spAssemble v g = some g' ∧ g'.Perm (leaves g) :=
  spAssemble_shape hv (fun e he => (hg e he).shape) hf

end Verif.Split
