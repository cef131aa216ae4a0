/-
Merging of the storages of flux of a system of linear components, in the whole tree.
-/
import Verif.Arc.Plan

namespace Pyphs
namespace Arc
open Graph Circuit System
open Verif.Split (Name View Joins leaves leavesOf Free outs parLabel serLabel isPar isPar_par isPar_ser Shape IsComp
  removeByLabel key key_iff SP)

/-! ### Labels -/

theorem infix_cons {c : Char} (hc : c ≠ '_') {l : List Char} (h : "_out_".toList <:+: c :: l) :
    "_out_".toList <:+: l := by
  rcases List.infix_cons_iff.1 h with h | h
  · obtain ⟨t, ht⟩ := h
    have : "_out_".toList = '_' :: "out_".toList := rfl
    rw [this, List.cons_append] at ht
    injection ht with h1 _
    exact (hc h1.symm).elim
  · exact h

theorem free_cons {c : Char} (hc : c = 'x' ∨ c = 'w' ∨ c = 'y') {l : List Char} (h : ¬ "_out_".toList <:+: l) :
    Free (c :: l) := by
  have hp : ∀ n, parLabel n = 'p' :: ("arallel".toList ++ (toString n).toList) := fun n => rfl
  have hs : ∀ n, serLabel n = 's' :: ("erial".toList ++ (toString n).toList) := fun n => rfl
  rcases hc with rfl | rfl | rfl
  all_goals
    refine ⟨fun hh => h (infix_cons (by decide) hh), fun n => ⟨?_, ?_⟩⟩
    · rw [hp]; intro hh; injection hh with h1 _; exact absurd h1 (by decide)
    · rw [hs]; intro hh; injection hh with h1 _; exact absurd h1 (by decide)

/-- The labels of the edges of a system. -/
theorem free_label {ds : List Device} (hg : Good ds) {d : Edge ℝ} (h : d ∈ ds.flatMap devEdges) :
    Free d.label.toList := by
  obtain ⟨x, hx, hd⟩ := List.mem_flatMap.1 h
  have key : ∀ b ∈ x.branches, ¬ "_out_".toList <:+: b.id.toList := by
    intro b hb
    have := hg.names.out [b.id] (by
      intro i hi
      obtain rfl : i = b.id := by simpa using hi
      exact List.mem_map_of_mem (List.mem_flatMap.2 ⟨x, hx, hb⟩))
    simpa [cat] using this
  have hx1 : ∀ i : String, ("x" ++ i).toList = 'x' :: i.toList := fun i => by rw [String.toList_append]; rfl
  have hw1 : ∀ i : String, ("w" ++ i).toList = 'w' :: i.toList := fun i => by rw [String.toList_append]; rfl
  have hy1 : ∀ i : String, ("y" ++ i).toList = 'y' :: i.toList := fun i => by rw [String.toList_append]; rfl
  cases x <;> simp only [devEdges, List.mem_cons, List.not_mem_nil, or_false] at hd
  case gyrator a b α =>
    rcases hd with rfl | rfl
    · rw [hy1]; exact free_cons (by simp) (key a (by simp [Device.branches]))
    · rw [hy1]; exact free_cons (by simp) (key b (by simp [Device.branches]))
  case transformer a b α =>
    rcases hd with rfl | rfl
    · rw [hy1]; exact free_cons (by simp) (key a (by simp [Device.branches]))
    · rw [hy1]; exact free_cons (by simp) (key b (by simp [Device.branches]))
  case resistance b r => subst hd; rw [hw1]; exact free_cons (by simp) (key b (by simp [Device.branches]))
  case fluxStorage b r => subst hd; rw [hx1]; exact free_cons (by simp) (key b (by simp [Device.branches]))
  case effortStorage b r => subst hd; rw [hx1]; exact free_cons (by simp) (key b (by simp [Device.branches]))
  all_goals (rename_i b; subst hd; rw [hy1]; exact free_cons (by simp) (key b (by simp [Device.branches])))

theorem shape_free {e : Tr} (h : Shape e) (hf : Free e.label) : IsComp e := by
  cases h with
  | comp t h l c => exact ⟨_, _, _, _, rfl⟩
  | out t h l hl => exact (hf.1 hl).elim
  | graph t h l sub hl _ => exact (hl hf).elim

/-! ### One parallel connection -/

/-- The orientation of an edge, when there is no exception. -/
def sense (t h : Name) (e : Tr) : Option Bool :=
  if e.tail = t ∧ e.head = h then some true
  else if e.head = t ∧ e.tail = h then some false else none

theorem orientation_joins {t h : Name} {e : Tr} (hj : Joins t h e) : orientation t h e = .ok (sense t h e) := by
  unfold orientation sense
  rcases hj with hj | hj
  · rw [if_pos hj, if_pos hj]
  · by_cases hc : e.tail = t ∧ e.head = h
    · rw [if_pos hc, if_pos hc]
    · rw [if_neg hc, if_neg hc, if_pos ⟨hj.2, hj.1⟩, if_pos ⟨hj.2, hj.1⟩]

theorem orientation_outs {t h l a b : Name} {e : Tr} (he : e ∈ outs l a b) :
    orientation t h e = .ok (sense t h e) := by
  have hl : "_out_".toList <:+: e.label := by
    simp only [outs, List.mem_map] at he
    obtain ⟨n, -, rfl⟩ := he
    exact ⟨l, n, rfl⟩
  unfold orientation sense
  split_ifs <;> rfl

theorem plan_none {sy : Sympy} {v : View (Edge ℝ)} {c : Ctrl} {t h : Name} {sub : List Tr} {s : Shared}
    (h1 : ((v.edges sub).filter (isStorage c)).length ≤ 1) : planStorages sy v c t h sub s = .ok (none, s) := by
  unfold planStorages
  dsimp only
  rw [if_pos h1]

/-- The edges of components in a list belong to the system. -/
def Of (ds : List Device) (g : List Tr) : Prop := ∀ x ∈ g, IsComp x → ∃ d ∈ ds.flatMap devEdges, x = wrap d

theorem Of.storage {ds : List Device} {g : List Tr} (h : Of ds g) {c : Ctrl} {x : Tr} (hx : x ∈ g)
    (hs : isStorage c x = true) : ∃ d ∈ ds.flatMap devEdges, x = wrap d ∧ d.type = .storage ∧ d.ctrl = c := by
  obtain ⟨t, h', l, d, rfl, h1, h2⟩ := isStorage_comp hs
  obtain ⟨d', hd', he⟩ := h _ hx ⟨_, _, _, _, rfl⟩
  have : d = d' := by
    unfold wrap at he
    injection he
  subst this
  exact ⟨d, hd', he, h1, h2⟩

/-- No resistance is merged: their controls are not known. -/
theorem Of.no_diss {ds : List Device} {g : List Tr} (h : Of ds g) {c : Ctrl} (hc : c ≠ .unknown) :
    g.filter (isDissipative c) = [] := by
  rw [List.filter_eq_nil_iff]
  intro x hx hs
  obtain ⟨t, h', l, d, rfl, h1, h2⟩ := isDissipative_comp hs
  obtain ⟨d', hd', he⟩ := h _ hx ⟨_, _, _, _, rfl⟩
  have : d = d' := by
    unfold wrap at he
    injection he
  subst this
  exact hc (h2.symm.trans (no_dissipative hd' h1))

/-- The plan for a parallel connection. -/
theorem plan_some {sy : Sympy} (hsy : sy.Lawful) {v : View (Edge ℝ)} (hv : v.Lawful) {ds : List Device}
    (hg : Good ds) {t h l : Name} {es : List Tr} (hj : ∀ e ∈ es, Joins t h e)
    (hof : Of ds (es ++ outs l t h)) (hn : ((datas es).map (·.label)).Nodup) {s : Shared}
    (hs : Holds ds s.core)
    (h1 : ¬ ((v.edges (es ++ outs l t h)).filter (isStorage .f)).length ≤ 1) :
    ∃ (B : Bank) (p : Plan) (c : Core ℝ) (d : Edge ℝ) (D : List (Edge ℝ)), B.In ds ∧
      planStorages sy v .f t h (es ++ outs l t h) s = .ok (some p, ⟨c, s.law⟩) ∧ Holds (B.merge ds) c ∧
      devEdges B.device = [d] ∧ p.new = wrap d ∧
      (B.parts.map fun p => Device.fluxStorage p.b p.k).flatMap devEdges = D ∧ p.olds = D.map wrap ∧
      (∀ e ∈ D, wrap e ∈ es) ∧ D.Nodup := by
  set S := (v.edges (es ++ outs l t h)).filter (isStorage .f) with hS
  have hmem : ∀ x ∈ S, x ∈ es ∧ ∃ d ∈ ds.flatMap devEdges, x = wrap d ∧ d.type = .storage ∧ d.ctrl = .f := by
    intro x hx
    obtain ⟨hx1, hx2⟩ := List.mem_filter.1 hx
    have hx3 := (hv.edges_perm _).subset hx1
    refine ⟨?_, hof.storage hx3 hx2⟩
    rcases List.mem_append.1 hx3 with h | h
    · exact h
    · simp only [outs, List.mem_map] at h
      obtain ⟨n, -, rfl⟩ := h
      simp [isStorage] at hx2
  have hSe : S = (datas S).map wrap := wraps_eq fun x hx => by
    obtain ⟨-, d, -, h, -⟩ := hmem x hx
    exact ⟨d, h⟩
  set D := datas S with hDdef
  have hD : ∀ d ∈ D, wrap d ∈ es ∧ d ∈ ds.flatMap devEdges ∧ d.type = .storage ∧ d.ctrl = .f := by
    intro d hd
    have : wrap d ∈ S := by rw [hSe]; exact List.mem_map_of_mem hd
    obtain ⟨q1, d', q2, q3, q4, q5⟩ := hmem _ this
    obtain rfl := wrap_inj q3
    exact ⟨q1, q2, q4, q5⟩
  have hD' : ∀ d ∈ D, d ∈ ds.flatMap devEdges ∧ d.type = .storage ∧ d.ctrl = .f := fun d hd => (hD d hd).2
  have h2 : 2 ≤ D.length := by
    have : S.length = D.length := by rw [hSe, List.length_map]
    omega
  have hSperm : S.Perm (es.filter (isStorage .f)) := by
    have := (hv.edges_perm (es ++ outs l t h)).filter (isStorage .f)
    rw [List.filter_append] at this
    have h0 : (outs l t h : List Tr).filter (isStorage .f) = [] := by
      rw [List.filter_eq_nil_iff]
      intro x hx
      simp only [outs, List.mem_map] at hx
      obtain ⟨n, -, rfl⟩ := hx
      simp [isStorage]
    rw [h0, List.append_nil] at this
    exact this
  have hnl : (D.map (·.label)).Nodup := by
    have h3 : (D.map (·.label)).Perm ((datas (es.filter (isStorage .f))).map (·.label)) :=
      (datas_perm hSperm).map _
    rw [h3.nodup_iff]
    refine List.Nodup.sublist (List.Sublist.map _ ?_) hn
    exact List.Sublist.filterMap _ List.filter_sublist
  have hB : (bankOf ds t h D).In ds := bank_in hg.ids h2 hnl fun d hd =>
    ⟨(hD d hd).2.1, (hD d hd).2.2.1, (hD d hd).2.2.2, hj _ (hD d hd).1⟩
  set B := bankOf ds t h D with hBdef
  have hk := K_inv hB hg.positive
  have hks : ∀ k ∈ D.map fun d => coef ds d.label, k ≠ 0 := by
    intro k hkm
    obtain ⟨d, hd, rfl⟩ := List.mem_map.1 hkm
    exact (hk.2 (partOf ds t h d) (List.mem_map_of_mem hd)).ne'
  have e2 : (D.map fun d => coef ds d.label).map (·⁻¹) = B.parts.map fun p => p.k⁻¹ := by
    rw [hBdef]
    unfold bankOf
    rw [List.map_map, List.map_map]
    rfl
  obtain ⟨newH, iQ, hq, hH⟩ := nonreal_some hsy hks (by rw [e2]; exact hk.1.ne')
  have hor1 : (es ++ outs l t h).mapM (orientation t h) = .ok ((es ++ outs l t h).map (sense t h)) :=
    mapM_ok fun x hx => by
      rcases List.mem_append.1 hx with h | h
      · exact orientation_joins (hj x h)
      · exact orientation_outs h
  have hor2 : S.mapM (orientation t h) = .ok (S.map (sense t h)) :=
    mapM_ok fun x hx => orientation_joins (hj x (hmem x hx).1)
  have hnodes : newNodes (S.map (sense t h)) S = (t, h) := by
    cases hSS : S with
    | nil =>
      exfalso
      rw [hSS] at h1
      simp at h1
    | cons x S' =>
      have hjx := hj x (hmem x (by rw [hSS]; simp)).1
      by_cases hc : x.tail = t ∧ x.head = h
      · simp only [List.map_cons, sense, if_pos hc, newNodes]
        rw [hc.1, hc.2]
      · have hc' := hjx.resolve_left hc
        simp only [List.map_cons, sense, if_neg hc, if_pos (And.intro hc'.2 hc'.1), newNodes]
        rw [hc'.1, hc'.2]
  have hslope : ∀ d ∈ D, slope s.core.H d.label = fun w => coef ds d.label * w := by
    intro d hd
    obtain ⟨q1, q2, q3⟩ := hD' d hd
    obtain ⟨b, k, g1, g2⟩ := flux_edge q1 q2 q3
    simp only [devEdges, List.cons.injEq, and_true] at g2
    rw [← g2]
    show slope s.core.H ("x" ++ b.id) = fun w => coef ds ("x" ++ b.id) * w
    rw [slope_stored hg.ids hs g1, System.coef_x hg.ids g1 (by simp [Device.branches])]
    rfl
  have hdx : (D.map (·.label)).map (slope s.core.H) = D.map fun d w => coef ds d.label * w := by
    rw [List.map_map]
    exact List.map_congr_left hslope
  have horient : oriented (S.map (sense t h)) (D.map fun d w => coef ds d.label * w) =
      (D.map fun d => coef ds d.label).map fun k w => k * w := by
    unfold oriented
    rw [hSe, List.map_map, List.map_map]
    clear_value D
    clear * -
    induction D with
    | nil => rfl
    | cons d D ih =>
      simp only [List.map_cons, List.zipWith_cons_cons]
      rw [ih, orient_linear]
      rfl
  have hrem : removeAll (D.map (·.label)) s.core.x =
      some (s.core.x.filter fun x => decide (x ∉ D.map (·.label))) := by
    rw [hs.declares.x]
    refine removeAll_eq hnl (Distinct.devX hg.ids) fun x hx => ?_
    obtain ⟨d, hd, rfl⟩ := List.mem_map.1 hx
    obtain ⟨q1, q2, q3⟩ := hD' d hd
    obtain ⟨b, k, g1, g2⟩ := flux_edge q1 q2 q3
    simp only [devEdges, List.cons.injEq, and_true] at g2
    rw [← g2]
    exact mem_devX (Or.inl g1)
  have hzip : ∀ e : Env ℝ, (List.zipWith (fun f xn => sy.integ f (e xn)) (D.map fun d w => coef ds d.label * w)
      (D.map (·.label))).sum = (D.map fun d => coef ds d.label * e d.label ^ 2 / 2).sum := by
    intro e
    clear_value D
    clear * - hsy
    induction D with
    | nil => rfl
    | cons d D ih =>
      simp only [List.map_cons, List.zipWith_cons_cons, List.sum_cons]
      rw [ih, hsy.integ]
  have hname : mergedName "x" (D.map (·.label)) = "x" ++ B.id := merged_name
  refine ⟨B, ⟨.comp t h ("x" ++ B.id).toList ⟨String.ofList t, String.ofList h, "x" ++ B.id, .storage, .f, none,
      .gyrator, none, "", ""⟩, S⟩, _, _, D, hB, ?_, holds_merge hg hB hD' hs hH, rfl, ?_, parts_edges hg.ids hD',
    hSe, fun e he => (hD e he).1, List.Nodup.of_map _ hnl⟩
  rotate_left
  · simp [wrap, hBdef, bankOf]
  · unfold planStorages
    dsimp only
    rw [← hS, if_neg h1, hor1]
    simp only [bind, Except.bind]
    rw [hor2]
    dsimp only
    rw [hdx, horient, hq]
    dsimp only
    rw [hrem]
    dsimp only
    rw [hnodes, hname]
    simp only [← hDdef, hzip]
    rfl

/-! ### The tree -/

theorem apply_ok {p : Plan} {g : List Tr} {d : Edge ℝ} {D : List (Edge ℝ)} (hsh : ∀ x ∈ g, Shape x)
    (hw : ∀ x ∈ g, IsComp x → ∃ d, x = wrap d) (hnew : p.new = wrap d) (holds : p.olds = D.map wrap) (hD : D.Nodup)
    (hin : ∀ e ∈ D, wrap e ∈ g) (hu : ∀ a b, wrap a ∈ g → wrap b ∈ g → a.label = b.label → a = b)
    (hf : ∀ e ∈ D, Free e.label.toList) (hne : ∀ e ∈ D, d.label ≠ e.label) :
    ∃ g', p.apply g = .ok g' ∧ (D.map wrap ++ g').Perm (g ++ [wrap d]) := by
  obtain ⟨g', h1, h2⟩ := remove_perm (D.map wrap) (g ++ [wrap d]) (by
    intro e he x hx hk
    obtain ⟨a, ha, rfl⟩ := List.mem_map.1 he
    have hl : x.label = a.label.toList := congrArg (fun q => q.2.2) hk
    rcases List.mem_append.1 hx with hx | hx
    · have hc := shape_free (hsh x hx) (by rw [hl]; exact hf a ha)
      obtain ⟨b, rfl⟩ := hw x hx hc
      rw [hu b a hx (hin a ha) (String.toList_injective hl)]
    · obtain rfl : x = wrap d := by simpa using hx
      exact (hne a ha (String.toList_injective hl)).elim)
    (hD.map fun a b h => wrap_inj h) (fun e he => by
      obtain ⟨a, ha, rfl⟩ := List.mem_map.1 he
      exact List.mem_append.2 (Or.inl (hin a ha)))
  refine ⟨g', ?_, h2⟩
  unfold Plan.apply
  rw [hnew, holds, h1]

/-- The number of storages of effort. -/
def efforts (ds : List Device) : ℕ := ds.countP fun
  | .effortStorage .. => true
  | _ => false

def isEffort (d : Edge ℝ) : Bool := decide (d.type = .storage ∧ d.ctrl = .e)

theorem countP_efforts (ds : List Device) : (ds.flatMap devEdges).countP isEffort = efforts ds := by
  induction ds with
  | nil => rfl
  | cons d ds ih =>
    unfold efforts at ih ⊢
    rw [List.flatMap_cons, List.countP_append, ih, List.countP_cons]
    cases d <;> simp [devEdges, isEffort, List.countP_cons] <;> omega

theorem efforts_merge (B : Bank) (ds : List Device) : efforts (B.merge ds) = efforts ds := by
  unfold efforts Bank.merge
  rw [List.countP_append, List.countP_filter]
  simp only [Bank.device, List.countP_cons, List.countP_nil, Nat.add_zero]
  simp only [Bool.false_eq_true, if_false, Nat.add_zero]
  refine List.countP_congr fun d _ => ?_
  cases d <;> simp [Bank.has]

theorem efforts_mergeAll (Bs : List Bank) : ∀ ds, efforts (mergeAll Bs ds) = efforts ds := by
  induction Bs with
  | nil => intro ds; rfl
  | cons B Bs ih => intro ds; exact (ih _).trans (efforts_merge B ds)

/-- Components are edges of the system. -/
def Wraps (g : List Tr) : Prop := ∀ x ∈ g, ∃ d, x = wrap d

/-- The result of merging an edge of the tree; `R` are the other edges of the system. -/
def Done (sy : Sympy) (v : View (Edge ℝ)) (e : Tr) : Prop := ∀ (s : Shared) (ds : List Device) (R : List (Edge ℝ)),
  Good ds → Holds ds s.core → (datas (leavesOf e) ++ R).Perm (ds.flatMap devEdges) → Wraps (leavesOf e) →
  (mergeEdge sy v e s = .error .unmodelled ∧ 2 ≤ efforts ds) ∨
  ∃ e' s' Bs, mergeEdge sy v e s = .ok (e', s') ∧ InAll Bs ds ∧ Holds (mergeAll Bs ds) s'.core ∧ s'.law = s.law ∧
    (datas (leavesOf e') ++ R).Perm ((mergeAll Bs ds).flatMap devEdges) ∧ Wraps (leavesOf e') ∧ Shape e' ∧
    e'.isGraph = true

theorem done_list {sy : Sympy} {v : View (Edge ℝ)} : ∀ (es : List Tr),
    (∀ e ∈ es, Shape e ∧ (e.isGraph = true → Done sy v e)) →
    ∀ (s : Shared) (ds : List Device) (R : List (Edge ℝ)), Good ds → Holds ds s.core →
    (datas (leaves (es.filter (·.isGraph))) ++ R).Perm (ds.flatMap devEdges) →
    Wraps (leaves (es.filter (·.isGraph))) →
    (mergeEdges sy v es s = .error .unmodelled ∧ 2 ≤ efforts ds) ∨
    ∃ es' s' Bs, mergeEdges sy v es s = .ok (es', s') ∧ InAll Bs ds ∧ Holds (mergeAll Bs ds) s'.core ∧
      s'.law = s.law ∧
      (datas (leaves (es'.filter (·.isGraph))) ++ R).Perm ((mergeAll Bs ds).flatMap devEdges) ∧
      Wraps (leaves (es'.filter (·.isGraph))) ∧ (∀ e ∈ es', Shape e) ∧
      es'.filter (!·.isGraph) = es.filter (!·.isGraph) := by
  intro es
  induction es with
  | nil =>
    intro _ s ds R hg hh hp hw
    exact .inr ⟨[], s, [], by rw [mergeEdges], trivial, hh, rfl, hp, hw, by simp, rfl⟩
  | cons e es ih =>
    intro he s ds R hg hh hp hw
    have ih' := ih fun x hx => he x (by simp [hx])
    cases hgr : e.isGraph with
    | false =>
      have hme : mergeEdge sy v e s = .ok (e, s) := by
        cases e with
        | graph => simp [Verif.Split.Edge.isGraph] at hgr
        | comp => rw [mergeEdge]
        | out => rw [mergeEdge]
      rw [List.filter_cons_of_neg (by simp [hgr])] at hp hw
      rcases ih' s ds R hg hh hp hw with ⟨h1, h2⟩ | ⟨es', s', Bs, h1, h2, h3, h4, h5, h6, h7, h8⟩
      · refine .inl ⟨?_, h2⟩
        rw [mergeEdges, hme]
        simp only [bind, Except.bind]
        rw [h1]
      · refine .inr ⟨e :: es', s', Bs, ?_, h2, h3, h4, ?_, ?_, ?_, ?_⟩
        · rw [mergeEdges, hme]
          simp only [bind, Except.bind]
          rw [h1]
        · rw [List.filter_cons_of_neg (by simp [hgr])]; exact h5
        · rw [List.filter_cons_of_neg (by simp [hgr])]; exact h6
        · intro x hx
          rcases List.mem_cons.1 hx with rfl | hx
          · exact (he x (by simp)).1
          · exact h7 x hx
        · rw [List.filter_cons_of_pos (by simp [hgr]), List.filter_cons_of_pos (by simp [hgr]), h8]
    | true =>
      rw [List.filter_cons_of_pos hgr, leaves] at hp hw
      rw [datas_append, List.append_assoc] at hp
      have hw1 : Wraps (leavesOf e) := fun x hx => hw x (List.mem_append.2 (.inl hx))
      have hw2 : Wraps (leaves (es.filter (·.isGraph))) := fun x hx => hw x (List.mem_append.2 (.inr hx))
      rcases (he e (by simp)).2 hgr s ds _ hg hh hp hw1 with ⟨h1, h2⟩ | ⟨e', s1, Bs, h1, h2, h3, h4, h5, h6, h7, h8⟩
      · refine .inl ⟨?_, h2⟩
        rw [mergeEdges, h1]
        rfl
      · have hp2 : (datas (leaves (es.filter (·.isGraph))) ++ (datas (leavesOf e') ++ R)).Perm
            ((mergeAll Bs ds).flatMap devEdges) := by
          refine List.Perm.trans ?_ h5
          rw [← List.append_assoc, ← List.append_assoc]
          exact List.perm_append_comm.append_right _
        rcases ih' s1 (mergeAll Bs ds) _ (hg.mergeAll h2) h3 hp2 hw2 with
          ⟨k1, k2⟩ | ⟨es', s', Bs', k1, k2, k3, k4, k5, k6, k7, k8⟩
        · refine .inl ⟨?_, by rwa [efforts_mergeAll] at k2⟩
          rw [mergeEdges, h1]
          simp only [bind, Except.bind]
          rw [k1]
        · refine .inr ⟨e' :: es', s', Bs ++ Bs', ?_, inAll_append h2 k2, ?_, k4.trans h4, ?_, ?_, ?_, ?_⟩
          · rw [mergeEdges, h1]
            simp only [bind, Except.bind]
            rw [k1]
          · rw [mergeAll_append]; exact k3
          · rw [mergeAll_append, List.filter_cons_of_pos h8, leaves, datas_append, List.append_assoc]
            refine List.Perm.trans ?_ k5
            rw [← List.append_assoc, ← List.append_assoc]
            exact List.perm_append_comm.append_right _
          · rw [List.filter_cons_of_pos h8, leaves]
            intro x hx
            rcases List.mem_append.1 hx with hx | hx
            · exact h6 x hx
            · exact k6 x hx
          · intro x hx
            rcases List.mem_cons.1 hx with rfl | hx
            · exact h7
            · exact k7 x hx
          · rw [List.filter_cons_of_neg (by simp [h8]), List.filter_cons_of_neg (by simp [hgr]), k8]

theorem leaves_split (g : List Tr) :
    (leaves g).Perm (leaves (g.filter (·.isGraph)) ++ leaves (g.filter (!·.isGraph))) := by
  rw [Verif.Split.leaves_eq, Verif.Split.leaves_eq, Verif.Split.leaves_eq, ← List.flatMap_append]
  exact (List.filter_append_perm _ g).symm.flatMap_right _

theorem leaves_nongraph (g : List Tr) (h : ∀ x ∈ g, x.isGraph = false) : (leaves g).Sublist g := by
  induction g with
  | nil => exact List.Sublist.refl _
  | cons e g ih =>
    rw [leaves]
    have := ih fun x hx => h x (by simp [hx])
    cases e with
    | comp => rw [leavesOf]; exact this.cons₂ _
    | out => rw [leavesOf]; exact this.cons _
    | graph => have := h _ List.mem_cons_self; simp [Verif.Split.Edge.isGraph] at this

theorem comp_leaf {g : List Tr} {x : Tr} (hx : x ∈ g) (hc : IsComp x) : x ∈ leaves g := by
  refine leaves_mem hx ?_
  obtain ⟨t, h, l, c, rfl⟩ := hc
  rw [leavesOf]
  simp

theorem isComp_nongraph {x : Tr} (hc : IsComp x) : x.isGraph = false := by
  obtain ⟨t, h, l, c, rfl⟩ := hc
  rfl

theorem isComp_wrap (d : Edge ℝ) : IsComp (wrap d) := ⟨_, _, _, _, rfl⟩

/-- An edge of a subgraph in which nothing is merged. -/
theorem done_none {sy : Sympy} {v : View (Edge ℝ)} {t h l : Name} {sub : List Tr} (hl : ¬ Free l)
    (ih : ∀ e ∈ sub, Shape e ∧ (e.isGraph = true → Done sy v e)) {s : Shared} {ds : List Device}
    {R : List (Edge ℝ)} (hg : Good ds) (hh : Holds ds s.core)
    (hp : (datas (leavesOf (.graph t h l sub)) ++ R).Perm (ds.flatMap devEdges))
    (hw : Wraps (leavesOf (.graph t h l sub))) (hm : mergeArc sy v t h l sub s = .ok ([], s)) :
    (mergeEdge sy v (.graph t h l sub) s = .error .unmodelled ∧ 2 ≤ efforts ds) ∨
    ∃ e' s' Bs, mergeEdge sy v (.graph t h l sub) s = .ok (e', s') ∧ InAll Bs ds ∧
      Holds (mergeAll Bs ds) s'.core ∧ s'.law = s.law ∧
      (datas (leavesOf e') ++ R).Perm ((mergeAll Bs ds).flatMap devEdges) ∧ Wraps (leavesOf e') ∧ Shape e' ∧
      e'.isGraph = true := by
  rw [leavesOf] at hp hw
  have hp' : (datas (leaves (sub.filter (·.isGraph))) ++ (datas (leaves (sub.filter (!·.isGraph))) ++ R)).Perm
      (ds.flatMap devEdges) := by
    rw [← List.append_assoc, ← datas_append]
    exact ((datas_perm (leaves_split sub)).symm.append_right R).trans hp
  have hw' : Wraps (leaves (sub.filter (·.isGraph))) := fun x hx =>
    hw x ((leaves_split sub).symm.subset (List.mem_append.2 (.inl hx)))
  rcases done_list sub ih s ds _ hg hh hp' hw' with ⟨h1, h2⟩ | ⟨sub', s', Bs, h1, h2, h3, h4, h5, h6, h7, h8⟩
  · refine .inl ⟨?_, h2⟩
    rw [mergeEdge, hm]
    simp only [bind, Except.bind]
    rw [h1]
  · refine .inr ⟨.graph t h l sub', s', Bs, ?_, h2, h3, h4, ?_, ?_, .graph _ _ _ _ hl h7, rfl⟩
    · rw [mergeEdge, hm]
      simp only [bind, Except.bind]
      rw [h1]
      rfl
    · rw [leavesOf]
      rw [← h8, ← List.append_assoc, ← datas_append] at h5
      exact ((datas_perm (leaves_split sub')).append_right R).trans h5
    · rw [leavesOf]
      intro x hx
      rcases List.mem_append.1 ((leaves_split sub').subset hx) with hx | hx
      · exact h6 x hx
      · rw [h8] at hx
        exact hw x ((leaves_split sub).symm.subset (List.mem_append.2 (.inr hx)))

theorem datas_leaves_mem {g : List Tr} (hw : Wraps (leaves g)) {x : Tr} (hx : x ∈ g) (hc : IsComp x) :
    ∃ d ∈ datas (leaves g), x = wrap d := by
  have h1 := comp_leaf hx hc
  obtain ⟨d, rfl⟩ := hw x h1
  refine ⟨d, ?_, rfl⟩
  rw [wraps_eq hw] at h1
  obtain ⟨d', hd', he⟩ := List.mem_map.1 h1
  rwa [wrap_inj he] at hd'

/-- Merging below an edge of the tree. -/
theorem done {sy : Sympy} (hsy : sy.Lawful) {v : View (Edge ℝ)} (hv : v.Lawful) {e : Tr} (hsp : SP e) :
    Shape e ∧ (e.isGraph = true → Done sy v e) := by
  induction hsp with
  | comp t h l c => exact ⟨.comp t h l c, fun h => by simp [Verif.Split.Edge.isGraph] at h⟩
  | ser t h n es q h3 hnd hh hla hes hal ih =>
    have hsub : ∀ x ∈ es ++ outs (serLabel n) t h, Shape x ∧ (x.isGraph = true → Done sy v x) := by
      intro x hx
      rcases List.mem_append.1 hx with hx | hx
      · exact ih x hx
      · refine ⟨Verif.Split.shape_outs hx, fun hc => ?_⟩
        simp only [outs, List.mem_map] at hx
        obtain ⟨n, -, rfl⟩ := hx
        simp [Verif.Split.Edge.isGraph] at hc
    have hl : ¬ Free (serLabel n) := fun hf => (hf.2 n).2 rfl
    refine ⟨.graph _ _ _ _ hl fun x hx => (hsub x hx).1, fun _ s ds R hg hh' hp hw => ?_⟩
    set sub := es ++ outs (serLabel n) t h with hsubdef
    have hof : Of ds sub := by
      intro x hx hc
      rw [leavesOf] at hw hp
      obtain ⟨d, hd, rfl⟩ := datas_leaves_mem hw hx hc
      exact ⟨d, hp.subset (List.mem_append.2 (.inl hd)), rfl⟩
    have hd0 : ((v.edges sub).filter (isDissipative .e)).length ≤ 1 := by
      rw [((hv.edges_perm sub).filter _).length_eq, hof.no_diss (by decide)]
      simp
    by_cases h1 : ((v.edges sub).filter (isStorage .e)).length ≤ 1
    · refine done_none hl hsub hg hh' hp hw ?_
      unfold mergeArc
      dsimp only
      rw [anti, isPar_ser]
      simp only [Bool.false_eq_true, if_false]
      rw [if_pos ⟨h1, hd0⟩]
    · refine .inl ⟨?_, ?_⟩
      · have : mergeArc sy v t h (serLabel n) sub s = .error .unmodelled := by
          unfold mergeArc
          dsimp only
          rw [anti, isPar_ser]
          simp only [Bool.false_eq_true, if_false]
          rw [if_neg fun hc => h1 hc.1]
        rw [mergeEdge, this]
        rfl
      · rw [← countP_efforts, ← hp.countP_eq, List.countP_append]
        rw [((hv.edges_perm sub).filter _).length_eq] at h1
        have h2 : (sub.filter (isStorage .e)).length ≤ (datas (leaves sub)).countP isEffort := by
          have hs := filter_sublist_leaves (p := isStorage .e) (fun e he => by
            obtain ⟨t, h, k, d, rfl, -⟩ := isStorage_comp he
            exact ⟨_, _, _, _, rfl⟩) sub
          have hs' : ((sub.filter (isStorage .e)).filter (isStorage .e)).Sublist ((leaves sub).filter (isStorage .e)) :=
            hs.filter _
          rw [List.filter_filter] at hs'
          simp only [Bool.and_self] at hs'
          refine hs'.length_le.trans (le_of_eq ?_)
          rw [leavesOf] at hw
          rw [← List.countP_eq_length_filter, wraps_eq hw, List.countP_map, datas_wrap]
          rfl
        rw [leavesOf]
        omega
  | par t h n es h2 hes hj ih =>
    have hsub : ∀ x ∈ es ++ outs (parLabel n) t h, Shape x ∧ (x.isGraph = true → Done sy v x) := by
      intro x hx
      rcases List.mem_append.1 hx with hx | hx
      · exact ih x hx
      · refine ⟨Verif.Split.shape_outs hx, fun hc => ?_⟩
        simp only [outs, List.mem_map] at hx
        obtain ⟨n, -, rfl⟩ := hx
        simp [Verif.Split.Edge.isGraph] at hc
    have hl : ¬ Free (parLabel n) := fun hf => (hf.2 n).1 rfl
    refine ⟨.graph _ _ _ _ hl fun x hx => (hsub x hx).1, fun _ s ds R hg hh' hp hw => ?_⟩
    have hof : Of ds (es ++ outs (parLabel n) t h) := by
      intro x hx hc
      rw [leavesOf] at hw hp
      obtain ⟨d, hd, rfl⟩ := datas_leaves_mem hw hx hc
      exact ⟨d, hp.subset (List.mem_append.2 (.inl hd)), rfl⟩
    have hd0 : ∀ s', planDissipatives sy v .f t h (es ++ outs (parLabel n) t h) s' = .ok (none, s') := by
      intro s'
      unfold planDissipatives
      dsimp only
      rw [if_pos]
      rw [((hv.edges_perm _).filter _).length_eq, hof.no_diss (by decide)]
      simp
    by_cases h1 : ((v.edges (es ++ outs (parLabel n) t h)).filter (isStorage .f)).length ≤ 1
    · refine done_none hl hsub hg hh' hp hw ?_
      unfold mergeArc
      dsimp only
      rw [anti, isPar_par]
      simp only [if_true]
      rw [plan_none h1]
      simp only [bind, Except.bind, Option.toList, applyAll, List.foldlM, pure, Except.pure]
      rw [hd0]
      rfl
    · set sub : List Tr := es ++ outs (parLabel n) t h with hsubdef
      have hlab : ((ds.flatMap devEdges).map (·.label)).Nodup := Distinct.labels hg.ids
      rw [leavesOf] at hp hw
      have hlab2 : ((datas (leaves sub)).map (·.label)).Nodup := by
        have := (hp.map (·.label)).nodup_iff.2 hlab
        rw [List.map_append] at this
        exact (List.nodup_append.1 this).1
      have hes' : (datas es).Sublist (datas (leaves sub)) := by
        have h3 : (es.filter fun x => !x.isGraph && (match x with | .comp .. => true | _ => false)).Sublist (leaves sub) := by
          rw [hsubdef, Verif.Split.leaves_append]
          refine (filter_sublist_leaves (fun e he => ?_) es).trans (List.sublist_append_left _ _)
          cases e with
          | comp => exact ⟨_, _, _, _, rfl⟩
          | out => simp at he
          | graph => simp at he
        have h4 : datas es = datas (es.filter fun x => !x.isGraph && (match x with | .comp .. => true | _ => false)) := by
          clear * -
          induction es with
          | nil => rfl
          | cons x es ih =>
            cases x with
            | comp t h l d =>
              rw [List.filter_cons_of_pos (by simp [Verif.Split.Edge.isGraph])]
              show d :: datas es = d :: datas _
              rw [ih]
            | out t h l =>
              rw [List.filter_cons_of_neg (by simp)]
              exact ih
            | graph t h l g =>
              rw [List.filter_cons_of_neg (by simp)]
              exact ih
        rw [h4]
        exact h3.filterMap _
      obtain ⟨B, p, c, d, D, b1, b2, b3, b4, b5, b6, b7, b8, b9⟩ := plan_some hsy hv hg hj hof
        (List.Nodup.sublist (hes'.map _) hlab2) hh' h1
      rw [← hsubdef] at b2
      -- removing edges from a list with the same components
      have happ : ∀ g : List Tr, (∀ x ∈ g, Shape x) → g.filter (!·.isGraph) = sub.filter (!·.isGraph) →
          ∃ g', p.apply g = .ok g' ∧ (D.map wrap ++ g').Perm (g ++ [wrap d]) := by
        intro g hgs hgf
        have hmem : ∀ x, IsComp x → (x ∈ g ↔ x ∈ sub) := by
          intro x hx
          have h3 : x ∈ g.filter (!·.isGraph) ↔ x ∈ sub.filter (!·.isGraph) := by rw [hgf]
          simpa [List.mem_filter, isComp_nongraph hx] using h3
        have hDsub : ∀ e ∈ D, wrap e ∈ sub := fun e he => List.mem_append.2 (.inl (b8 e he))
        have hDds : ∀ e ∈ D, e ∈ ds.flatMap devEdges := by
          intro e he
          obtain ⟨d', hd', hw'⟩ := hof _ (hDsub e he) (isComp_wrap e)
          rwa [wrap_inj hw']
        refine apply_ok hgs (fun x hx hc => ?_) b5 b7 b9 (fun e he => (hmem _ (isComp_wrap e)).2 (hDsub e he)) ?_
          (fun e he => free_label hg (hDds e he)) ?_
        · obtain ⟨d', -, hd'⟩ := hof x ((hmem x hc).1 hx) hc
          exact ⟨d', hd'⟩
        · intro a b ha hb hab
          obtain ⟨a', ha', q1⟩ := hof _ ((hmem _ (isComp_wrap a)).1 ha) (isComp_wrap a)
          obtain ⟨b', hb', q2⟩ := hof _ ((hmem _ (isComp_wrap b)).1 hb) (isComp_wrap b)
          obtain rfl := wrap_inj q1
          obtain rfl := wrap_inj q2
          exact List.inj_on_of_nodup_map hlab ha' hb' hab
        · intro e he hc
          simp only [Bank.device, devEdges, List.cons.injEq, and_true] at b4
          rw [← b4] at hc
          have hfr := hg.fresh b1
          have : strip e.label = B.id := by rw [← hc, strip_x]
          refine hfr ?_
          unfold idsOf
          rw [← edges_ids, ← this]
          exact List.mem_map_of_mem (hDds e he)
      obtain ⟨g1, a1, a2⟩ := happ sub (fun x hx => (hsub x hx).1) rfl
      have hd1 : planDissipatives sy v .f t h g1 ⟨c, s.law⟩ = .ok (none, ⟨c, s.law⟩) := by
        have hof1 : g1.filter (isDissipative .f) = [] := by
          rw [List.filter_eq_nil_iff]
          intro x hx hs
          have h3 := a2.subset (List.mem_append.2 (.inr hx))
          rcases List.mem_append.1 h3 with h4 | h4
          · have := hof.no_diss (c := .f) (by decide)
            rw [List.filter_eq_nil_iff] at this
            exact this x h4 hs
          · obtain rfl : x = wrap d := by simpa using h4
            simp only [Bank.device, devEdges, List.cons.injEq, and_true] at b4
            rw [← b4] at hs
            simp [isDissipative, wrap] at hs
        unfold planDissipatives
        dsimp only
        rw [if_pos]
        rw [((hv.edges_perm _).filter _).length_eq, hof1]
        simp
      have hm : mergeArc sy v t h (parLabel n) sub s = .ok ([p], ⟨c, s.law⟩) := by
        unfold mergeArc
        dsimp only
        rw [anti, isPar_par]
        simp only [if_true]
        rw [b2]
        simp only [bind, Except.bind, Option.toList, applyAll, List.foldlM, pure, Except.pure]
        rw [a1]
        dsimp only
        rw [hd1]
        rfl
      -- the edges
      obtain ⟨rest, hrest⟩ : ∃ rest, (D ++ rest).Perm (datas (leaves (sub.filter (!·.isGraph)))) := by
        have hsubp : D.Subperm (datas (leaves (sub.filter (!·.isGraph)))) := by
          refine (List.subperm_of_subset b9 fun e he => ?_)
          have h3 : wrap e ∈ sub.filter (!·.isGraph) := List.mem_filter.2
            ⟨List.mem_append.2 (.inl (b8 e he)), by simp [isComp_nongraph (isComp_wrap e)]⟩
          have hw3 : Wraps (leaves (sub.filter (!·.isGraph))) := fun x hx =>
            hw x ((leaves_split sub).symm.subset (List.mem_append.2 (.inr hx)))
          obtain ⟨d', hd', q⟩ := datas_leaves_mem hw3 h3 (isComp_wrap e)
          rwa [wrap_inj q]
        obtain ⟨l, hl1, hl2⟩ := hsubp
        obtain ⟨rest, hr⟩ := hl2.exists_perm_append
        exact ⟨rest, ((hl1.append_right rest).symm.trans hr.symm)⟩
      have hds : (ds.flatMap devEdges).Perm ((ds.filter fun d => !B.has d).flatMap devEdges ++ D) := by
        have := (bank_perm hg.ids b1).flatMap_right devEdges
        rwa [List.flatMap_append, b6] at this
      have hmg : (B.merge ds).flatMap devEdges = (ds.filter fun d => !B.has d).flatMap devEdges ++ [d] := by
        unfold Bank.merge
        rw [List.flatMap_append]
        congr 1
      have hls := datas_perm (leaves_split sub)
      rw [datas_append] at hls
      have hp' : (datas (leaves (sub.filter (·.isGraph))) ++ (rest ++ [d] ++ R)).Perm
          ((B.merge ds).flatMap devEdges) := by
        rw [hmg]
        classical
        rw [List.perm_iff_count] at hp hds hrest hls ⊢
        intro a
        have q1 := hp a
        have q2 := hds a
        have q3 := hrest a
        have q4 := hls a
        simp only [List.count_append] at q1 q2 q3 q4 ⊢
        omega
      have hw' : Wraps (leaves (sub.filter (·.isGraph))) := fun x hx =>
        hw x ((leaves_split sub).symm.subset (List.mem_append.2 (.inl hx)))
      rcases done_list sub hsub ⟨c, s.law⟩ (B.merge ds) _ (hg.merge b1) b3 hp' hw' with
        ⟨k1, k2⟩ | ⟨sub2, s2, Bs, k1, k2, k3, k4, k5, k6, k7, k8⟩
      · refine .inl ⟨?_, by rwa [efforts_merge] at k2⟩
        rw [mergeEdge, hm]
        simp only [bind, Except.bind]
        rw [k1]
      · obtain ⟨sub3, c1, c2⟩ := happ sub2 k7 k8
        have hshape3 : ∀ x ∈ sub3, x ∈ sub2 ∨ x = wrap d := by
          intro x hx
          simpa using c2.subset (List.mem_append.2 (.inr hx))
        refine .inr ⟨.graph t h (parLabel n) sub3, s2, B :: Bs, ?_, ⟨b1, k2⟩, k3, k4, ?_, ?_,
          .graph _ _ _ _ hl fun x hx => ?_, rfl⟩
        · rw [mergeEdge, hm]
          simp only [bind, Except.bind]
          rw [k1]
          simp only [applyAll, List.foldlM, bind, Except.bind, pure, Except.pure]
          rw [c1]
        · rw [leavesOf]
          have hl3 : (D ++ datas (leaves sub3)).Perm (datas (leaves sub2) ++ [d]) := by
            have := datas_perm (c2.flatMap_right leavesOf)
            rw [List.flatMap_append, List.flatMap_append, ← Verif.Split.leaves_eq, ← Verif.Split.leaves_eq,
              ← Verif.Split.leaves_eq, datas_append, datas_append] at this
            have hD2 : datas (leaves (D.map wrap)) = D := by
              rw [Verif.Split.leaves_comps, datas_wrap]
              intro e he
              obtain ⟨a, -, rfl⟩ := List.mem_map.1 he
              exact isComp_wrap a
            rw [hD2] at this
            simpa [wrap, leavesOf, datas] using this
          have hls2 : (datas (leaves sub2)).Perm (datas (leaves (sub2.filter (·.isGraph))) ++
              datas (leaves (sub.filter (!·.isGraph)))) := by
            rw [← k8, ← datas_append]
            exact datas_perm (leaves_split sub2)
          have hrest' : (D ++ rest).Perm (datas (leaves (sub.filter (!·.isGraph)))) := hrest
          show (datas (leaves sub3) ++ R).Perm ((mergeAll Bs (B.merge ds)).flatMap devEdges)
          classical
          rw [List.perm_iff_count] at k5 hl3 hrest' hls2 ⊢
          intro a
          have q1 := k5 a
          have q2 := hl3 a
          have q3 := hrest' a
          have q4 := hls2 a
          simp only [List.count_append] at q1 q2 q3 q4 ⊢
          omega
        · rw [leavesOf]
          intro x hx
          rw [Verif.Split.leaves_eq] at hx
          obtain ⟨y, hy, hx⟩ := List.mem_flatMap.1 hx
          rcases hshape3 y hy with hy | rfl
          · have hx2 := leaves_mem hy hx
            rcases List.mem_append.1 ((leaves_split sub2).subset hx2) with hx3 | hx3
            · exact k6 x hx3
            · rw [k8] at hx3
              exact hw x ((leaves_split sub).symm.subset (List.mem_append.2 (.inr hx3)))
          · exact ⟨d, by simpa [wrap, leavesOf] using hx⟩
        · rcases hshape3 x hx with hx | rfl
          · exact k7 x hx
          · exact .comp _ _ _ _

end Arc
end Pyphs
