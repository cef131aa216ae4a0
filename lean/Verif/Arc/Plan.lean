/-
Merging of the storages of one parallel connection of a system of linear components.
-/
import Verif.Arc.Names
import Verif.Arc.Idle
import Verif.Graph.MergeStorage
import Verif.System.Props

namespace Pyphs
namespace Arc
open Graph Circuit System
open Verif.Split (Name View Joins leaves leavesOf Free outs parLabel serLabel isPar isPar_par isPar_ser Shape IsComp
  removeByLabel key key_iff)

/-! ### Lists -/

theorem mapM_ok {α β ε : Type} {f : α → Except ε β} {g : α → β} : ∀ {l : List α}, (∀ x ∈ l, f x = .ok (g x)) →
    l.mapM f = .ok (l.map g) := by
  intro l
  induction l with
  | nil => intro _; rfl
  | cons a l ih =>
    intro h
    rw [List.mapM_cons, h a (by simp), ih fun x hx => h x (by simp [hx])]
    rfl

theorem filter_flatMap {α β : Type} {L : List α} {f : α → List β} {p : β → Bool} {q : α → Bool}
    (h : ∀ d ∈ L, ∀ x ∈ f d, p x = q d) : (L.flatMap f).filter p = (L.filter q).flatMap f := by
  induction L with
  | nil => rfl
  | cons d L ih =>
    rw [List.flatMap_cons, List.filter_append, ih fun d hd => h d (by simp [hd])]
    by_cases hq : q d = true
    · rw [List.filter_cons_of_pos hq, List.flatMap_cons, List.filter_eq_self.2 fun x hx => by
        rw [h d (by simp) x hx, hq]]
    · rw [List.filter_cons_of_neg hq, List.filter_eq_nil_iff.2 fun x hx => by rw [h d (by simp) x hx]; exact hq,
        List.nil_append]

theorem flatMap_filter {α β : Type} {L : List α} {f : α → List β} {q : α → Bool}
    (h : ∀ d, q d = false → f d = []) : (L.filter q).flatMap f = L.flatMap f := by
  induction L with
  | nil => rfl
  | cons d L ih =>
    cases hq : q d with
    | true => rw [List.filter_cons_of_pos hq, List.flatMap_cons, List.flatMap_cons, ih]
    | false => rw [List.filter_cons_of_neg (by simp [hq]), List.flatMap_cons, h d hq, ih, List.nil_append]

theorem removeAll_eq : ∀ {l xs : List String}, l.Nodup → xs.Nodup → (∀ x ∈ l, x ∈ xs) →
    removeAll l xs = some (xs.filter fun x => decide (x ∉ l)) := by
  intro l
  induction l with
  | nil =>
    intro xs _ _ _
    show some xs = _
    rw [List.filter_eq_self.2 (by simp)]
  | cons a l ih =>
    intro xs hl hx hs
    obtain ⟨h1, h2⟩ := List.nodup_cons.1 hl
    have := ih (xs := xs.erase a) h2 (hx.erase a) fun x hm => by
      rw [hx.mem_erase_iff]
      exact ⟨fun hc => h1 (hc ▸ hm), hs x (by simp [hm])⟩
    unfold removeAll at this ⊢
    rw [List.foldlM_cons, if_pos (hs a (by simp))]
    show List.foldlM _ (xs.erase a) l = _
    rw [this, hx.erase_eq_filter, List.filter_filter]
    congr 1
    refine List.filter_congr fun x _ => ?_
    by_cases q1 : x ∈ l <;> by_cases q2 : x = a <;> simp [q1, q2]

/-- Removal of edges that can be recognised. -/
theorem remove_perm {C : Type} : ∀ (D cur : List (Verif.Split.Edge C)),
    (∀ e ∈ D, ∀ x ∈ cur, key x = key e → x = e) → D.Nodup → (∀ e ∈ D, e ∈ cur) →
    ∃ cur', D.foldlM (fun cur e => removeByLabel e cur) cur = some cur' ∧ (D ++ cur').Perm cur := by
  intro D
  induction D with
  | nil => intro cur _ _ _; exact ⟨cur, rfl, List.Perm.refl _⟩
  | cons e D ih =>
    intro cur hk hn hs
    obtain ⟨hn1, hn2⟩ := List.nodup_cons.1 hn
    have hec := hs e (by simp)
    set p : Verif.Split.Edge C → Bool := fun x => Verif.Split.Edge.at' e.tail e.head x && decide (x.label = e.label)
      with hp
    have hpe : p e = true := (key_iff e e).2 rfl
    obtain ⟨y, l1, l2, hy1, hy2, hy3, hy4⟩ := List.exists_of_eraseP hec hpe
    have hky : y = e := hk e (by simp) y (by rw [hy3]; simp) ((key_iff e y).1 hy2)
    subst hky
    have hr : removeByLabel y cur = some (l1 ++ l2) := by
      unfold removeByLabel
      have h1 : cur.any (Verif.Split.Edge.at' y.tail y.head) = true := by
        rw [List.any_eq_true]
        refine ⟨y, hec, ?_⟩
        simp only [hp, Bool.and_eq_true] at hpe
        exact hpe.1
      have h2 : cur.any p = true := List.any_eq_true.2 ⟨y, hec, hpe⟩
      rw [if_pos h1]
      change (if cur.any p = true then some (cur.eraseP p) else _) = _
      rw [if_pos h2, hy4]
    have hperm : cur.Perm (y :: (l1 ++ l2)) := by rw [hy3]; exact List.perm_middle
    obtain ⟨cur', h1, h2⟩ := ih (l1 ++ l2) (fun e' he' x hx => hk e' (by simp [he']) x
      (hperm.symm.subset (by simp only [List.mem_cons]; exact Or.inr hx))) hn2 (fun e' he' => by
        have := hperm.subset (hs e' (by simp [he']))
        rcases List.mem_cons.1 this with h | h
        · exact (hn1 (h ▸ he')).elim
        · exact h)
    refine ⟨cur', ?_, ?_⟩
    · rw [List.foldlM_cons, hr]
      exact h1
    · exact (h2.cons y).trans hperm.symm

theorem datas_append (a b : List Tr) : datas (a ++ b) = datas a ++ datas b := by
  unfold datas
  rw [List.filterMap_append]

theorem wraps_eq : ∀ {l : List Tr}, (∀ x ∈ l, ∃ d, x = wrap d) → l = (datas l).map wrap := by
  intro l
  induction l with
  | nil => intro _; rfl
  | cons x l ih =>
    intro h
    obtain ⟨d, rfl⟩ := h x (by simp)
    have := ih fun x hx => h x (by simp [hx])
    show wrap d :: l = wrap d :: (datas l).map wrap
    rw [← this]

/-! ### Linear storages -/

/-- What is assumed of `sympy` for linear components: `solve` answers, its answers are solutions, and
`integrate` gives the integral which vanishes at zero. -/
structure Sympy.Lawful (sy : Sympy) : Prop where
  sound : sy.solve.Sound
  complete : ∀ k, k ≠ 0 → ∃ g, sy.solve (fun v => k * v) = some g
  integ : ∀ k x, sy.integ (fun v => k * v) x = k * x ^ 2 / 2

theorem linear_some {sy : Sympy} (hsy : sy.Lawful) : ∀ {ks : List ℝ}, (∀ k ∈ ks, k ≠ 0) →
    (ks.map fun k v => k * v).mapM sy.solve = some ((ks.map (·⁻¹)).map fun k v => k * v) := by
  intro ks
  induction ks with
  | nil => intro _; rfl
  | cons k ks ih =>
    intro h
    obtain ⟨g, hg⟩ := hsy.complete k (h k (by simp))
    obtain ⟨-, rfl⟩ := linear_solve hsy.sound hg
    rw [List.map_cons, List.mapM_cons, hg, ih fun k hk => h k (by simp [hk])]
    rfl

theorem nonreal_some {sy : Sympy} (hsy : sy.Lawful) {ks : List ℝ} (h : ∀ k ∈ ks, k ≠ 0)
    (hs : (ks.map (·⁻¹)).sum ≠ 0) : ∃ newH iQ,
    nonrealStor sy.solve sy.integ (ks.map fun k v => k * v) = some (newH, iQ) ∧
      ∀ X, newH X = X ^ 2 / (2 * (ks.map (·⁻¹)).sum) := by
  obtain ⟨g, hg⟩ := hsy.complete _ hs
  have hn : ∃ q, nonrealStor sy.solve sy.integ (ks.map fun k v => k * v) = some q := by
    unfold nonrealStor
    rw [linear_some hsy h]
    simp only [Option.bind_eq_bind, Option.bind_some]
    rw [linear_total, hg]
    exact ⟨_, rfl⟩
  obtain ⟨⟨newH, iQ⟩, hq⟩ := hn
  exact ⟨newH, iQ, hq, fun X => C45_storage_linear hsy.sound hsy.integ hq X⟩

/-- The state of the core during the merging. -/
structure Holds (ds : List Device) (c : Core ℝ) : Prop where
  declares : Declares c ds
  energy : c.H = fun e => stored ds fun i => e ("x" ++ i)

theorem slope_stored {ds : List Device} (h : Distinct ds) {c : Core ℝ} (hc : Holds ds c) {b : Branch} {k : ℝ}
    (hb : .fluxStorage b k ∈ ds) : slope c.H ("x" ++ b.id) = fun v => k * v := by
  funext v
  have hx : "x" ++ b.id ∈ ds.flatMap devX := mem_devX (Or.inl hb)
  have hq : ∀ t, c.H (Function.update 0 ("x" ++ b.id) t) =
      quadSum (coef ds) (ds.flatMap devX) 0 + k * (t ^ 2 - 0 ^ 2) / 2 := by
    intro t
    rw [hc.energy]
    show stored ds (fun i => (Function.update (0 : Env ℝ) ("x" ++ b.id) t) ("x" ++ i)) = _
    rw [← quadSum_flat h, quadSum_update h.devX hx, coef_x h hb (by simp [Device.branches])]
    rfl
  unfold slope
  simp only [hq]
  have h1 : HasDerivAt (fun t : ℝ => quadSum (coef ds) (ds.flatMap devX) 0 + k * (t ^ 2 - 0 ^ 2) / 2)
      (k * (2 * v) / 2) v := by
    have := (((hasDerivAt_pow 2 v).sub_const ((0 : ℝ) ^ 2)).const_mul k).div_const 2
    have := this.const_add (quadSum (coef ds) (ds.flatMap devX) 0)
    simpa using this
  rw [h1.deriv]
  ring

theorem orient_linear (o : Bool) (k : ℝ) : orient o (fun v => k * v) = fun v => k * v := by
  unfold orient
  cases o
  · funext v
    simp
  · rfl

/-- A flux-controlled storage edge is that of a storage of flux. -/
theorem flux_edge {ds : List Device} {d : Edge ℝ} (h : d ∈ ds.flatMap devEdges) (ht : d.type = .storage)
    (hc : d.ctrl = .f) : ∃ b k, .fluxStorage b k ∈ ds ∧ devEdges (.fluxStorage b k) = [d] := by
  obtain ⟨x, hx, hd⟩ := List.mem_flatMap.1 h
  cases x <;> simp only [devEdges, List.mem_cons, List.not_mem_nil, or_false] at hd
  case fluxStorage b k => subst hd; exact ⟨b, k, hx, rfl⟩
  case effortStorage b k => subst hd; cases hc
  case gyrator a b α => rcases hd with rfl | rfl <;> cases ht
  case transformer a b α => rcases hd with rfl | rfl <;> cases ht
  all_goals (subst hd; cases ht)

theorem no_dissipative {ds : List Device} {d : Edge ℝ} (h : d ∈ ds.flatMap devEdges)
    (ht : d.type = .dissipative) : d.ctrl = .unknown := by
  obtain ⟨x, hx, hd⟩ := List.mem_flatMap.1 h
  cases x <;> simp only [devEdges, List.mem_cons, List.not_mem_nil, or_false] at hd
  case resistance b r => subst hd; rfl
  case gyrator a b α => rcases hd with rfl | rfl <;> cases ht
  case transformer a b α => rcases hd with rfl | rfl <;> cases ht
  all_goals (subst hd; cases ht)

/-! ### The bank of a parallel connection -/

/-- The storage of an edge. -/
noncomputable def partOf (ds : List Device) (t h : Name) (d : Edge ℝ) : Part :=
  ⟨⟨strip d.label, d.tail, d.head⟩, coef ds d.label, decide (d.tail.toList = t ∧ d.head.toList = h)⟩

/-- The storages of the edges. -/
noncomputable def bankOf (ds : List Device) (t h : Name) (D : List (Edge ℝ)) : Bank :=
  ⟨String.ofList t, String.ofList h, D.map (partOf ds t h)⟩

theorem partOf_eq {ds : List Device} (hd : Distinct ds) {t h : Name} {d : Edge ℝ} {b : Branch} {k : ℝ}
    (hb : .fluxStorage b k ∈ ds) (he : devEdges (.fluxStorage b k) = [d]) :
    (partOf ds t h d).b = b ∧ (partOf ds t h d).k = k := by
  have : d = ⟨b.tail, b.head, "x" ++ b.id, .storage, .f, none, .gyrator, none, "", ""⟩ := by
    simp only [devEdges, List.cons.injEq, and_true] at he
    exact he.symm
  subst this
  refine ⟨?_, ?_⟩
  · simp only [partOf, strip_x]
  · show coef ds ("x" ++ b.id) = k
    rw [coef_x hd hb (by simp [Device.branches])]
    rfl

theorem bank_in {ds : List Device} (hd : Distinct ds) {t h : Name} {D : List (Edge ℝ)} (h2 : 2 ≤ D.length)
    (hn : (D.map (·.label)).Nodup)
    (hD : ∀ d ∈ D, d ∈ ds.flatMap devEdges ∧ d.type = .storage ∧ d.ctrl = .f ∧ Joins t h (wrap d)) :
    (bankOf ds t h D).In ds := by
  have key : ∀ d ∈ D, ∃ b k, .fluxStorage b k ∈ ds ∧ devEdges (.fluxStorage b k) = [d] ∧
      (partOf ds t h d).b = b ∧ (partOf ds t h d).k = k := by
    intro d hm
    obtain ⟨q1, q2, q3, -⟩ := hD d hm
    obtain ⟨b, k, h1, h2⟩ := flux_edge q1 q2 q3
    exact ⟨b, k, h1, h2, partOf_eq hd h1 h2⟩
  refine ⟨by simpa [bankOf] using h2, ?_, ?_, ?_⟩
  · unfold Bank.ids bankOf
    rw [List.map_map]
    refine List.Nodup.map_on ?_ (List.Nodup.of_map _ hn)
    intro x hx y hy hxy
    obtain ⟨b, k, h1, h2, h3, -⟩ := key x hx
    obtain ⟨b', k', h1', h2', h3', -⟩ := key y hy
    simp only [Function.comp] at hxy
    rw [h3, h3'] at hxy
    have := hd.same h1 h1' (a := b) (b := b') (by simp [Device.branches]) (by simp [Device.branches]) hxy
    rw [this, h2'] at h2
    exact (List.cons.inj h2).1.symm
  · intro p hp
    obtain ⟨d, hm, rfl⟩ := List.mem_map.1 hp
    obtain ⟨b, k, h1, -, h3, h4⟩ := key d hm
    rw [h3, h4]
    exact h1
  · intro p hp
    obtain ⟨d, hm, rfl⟩ := List.mem_map.1 hp
    have hj := (hD d hm).2.2.2
    simp only [Joins, wrap, Verif.Split.Edge.tail, Verif.Split.Edge.head] at hj
    simp only [partOf, bankOf, decide_eq_true_eq]
    by_cases hc : d.tail.toList = t ∧ d.head.toList = h
    · rw [if_pos hc, if_pos hc, ← hc.1, ← hc.2]
      simp
    · rw [if_neg hc, if_neg hc]
      obtain ⟨j1, j2⟩ := hj.resolve_left hc
      rw [← j1, ← j2]
      simp

theorem parts_edges {ds : List Device} (hd : Distinct ds) {t h : Name} {D : List (Edge ℝ)}
    (hD : ∀ d ∈ D, d ∈ ds.flatMap devEdges ∧ d.type = .storage ∧ d.ctrl = .f) :
    ((bankOf ds t h D).parts.map fun p => Device.fluxStorage p.b p.k).flatMap devEdges = D := by
  induction D with
  | nil => rfl
  | cons d D ih =>
    have ih' := ih fun d hm => hD d (by simp [hm])
    obtain ⟨q1, q2, q3⟩ := hD d (by simp)
    obtain ⟨b, k, h1, h2⟩ := flux_edge q1 q2 q3
    obtain ⟨h3, h4⟩ := partOf_eq (t := t) (h := h) hd h1 h2
    simp only [bankOf, List.map_cons, List.flatMap_cons] at ih' ⊢
    rw [ih', h3, h4, h2]
    rfl

theorem merged_name {ds : List Device} {t h : Name} {D : List (Edge ℝ)} :
    mergedName "x" (D.map (·.label)) = "x" ++ (bankOf ds t h D).id := by
  unfold mergedName Bank.id bankOf
  rw [List.flatMap_map, List.flatMap_map]
  simp only [partOf, strip, String.toList_ofList]

/-- The core after the merging. -/
theorem holds_merge {ds : List Device} (hg : Good ds) {t h : Name} {D : List (Edge ℝ)}
    (hB : (bankOf ds t h D).In ds)
    (hD : ∀ d ∈ D, d ∈ ds.flatMap devEdges ∧ d.type = .storage ∧ d.ctrl = .f) {c : Core ℝ} (hc : Holds ds c)
    {newH : ℝ → ℝ} (hH : ∀ X, newH X = X ^ 2 / (2 * ((D.map fun d => coef ds d.label).map (·⁻¹)).sum)) :
    Holds ((bankOf ds t h D).merge ds)
      { c with
        x := (c.x.filter fun x => decide (x ∉ D.map (·.label))) ++ ["x" ++ (bankOf ds t h D).id]
        H := fun e => c.H e - (D.map fun d => coef ds d.label * e d.label ^ 2 / 2).sum +
          newH (e ("x" ++ (bankOf ds t h D).id)) } := by
  set B := bankOf ds t h D with hBdef
  have hids : B.ids = D.map fun d => strip d.label := by
    rw [hBdef]
    unfold Bank.ids bankOf
    rw [List.map_map]
    rfl
  have hlab : ∀ d ∈ D, d.label = "x" ++ strip d.label := by
    intro d hm
    obtain ⟨q1, q2, q3⟩ := hD d hm
    obtain ⟨b, k, h1, h2⟩ := flux_edge q1 q2 q3
    simp only [devEdges, List.cons.injEq, and_true] at h2
    rw [← h2]
    simp only [strip_x]
  have hskip : ∀ {β : Type} (f : Device → List β), (∀ b k, f (.fluxStorage b k) = []) →
      (B.merge ds).flatMap f = ds.flatMap f := by
    intro β f hf
    unfold Bank.merge
    rw [List.flatMap_append, flatMap_filter]
    · simp [Bank.device, hf]
    · intro d hd
      cases d with
      | fluxStorage b k => exact hf b k
      | _ => simp [Bank.has] at hd
  have hdc := hc.declares
  refine ⟨⟨hdc.M, hdc.dxH, hdc.xl, hdc.wl, ?_, ?_, ?_, ?_, ?_, ?_, ?_, hdc.z⟩, ?_⟩
  · rw [hskip devPorts fun _ _ => rfl]; exact hdc.u
  · rw [hskip devPorts fun _ _ => rfl]; exact hdc.y
  · rw [hskip devConns fun _ _ => rfl]; exact hdc.cu
  · rw [hskip devConns fun _ _ => rfl]; exact hdc.cy
  · rw [hskip devConns fun _ _ => rfl]; exact hdc.connectors
  · show (c.x.filter fun x => decide (x ∉ D.map (·.label))) ++ ["x" ++ B.id] = _
    unfold Bank.merge
    rw [hdc.x, List.flatMap_append, filter_flatMap (q := fun d => !B.has d)]
    · rfl
    · intro d hd x hx
      have hcase : ∀ b : Branch, b ∈ d.branches → x = "x" ++ b.id →
          (decide (x ∉ D.map (·.label)) = !decide (b.id ∈ B.ids)) := by
        intro b _ hxb
        rw [← decide_not]
        refine decide_eq_decide.2 (not_congr ?_)
        rw [hids, List.mem_map, List.mem_map]
        constructor
        · rintro ⟨d', hd', h'⟩
          refine ⟨d', hd', ?_⟩
          rw [h', hxb, strip_x]
        · rintro ⟨d', hd', h'⟩
          refine ⟨d', hd', ?_⟩
          rw [hlab d' hd', h', hxb]
      cases d with
      | fluxStorage b k =>
        simp only [devX, List.mem_cons, List.not_mem_nil, or_false] at hx
        exact hcase b (by simp [Device.branches]) hx
      | effortStorage b k =>
        simp only [devX, List.mem_cons, List.not_mem_nil, or_false] at hx
        rw [hcase b (by simp [Device.branches]) hx]
        have := not_has hg.ids hB hd rfl (b := b) (by simp [Device.branches])
        simp [this, Bank.has]
      | _ => simp [devX] at hx
  · rw [hskip devW fun _ _ => rfl]; exact hdc.w
  · funext e
    show c.H e - _ + newH _ = _
    rw [hc.energy, hH]
    show stored ds (fun i => e ("x" ++ i)) - _ + _ = _
    unfold stored
    rw [((bank_perm hg.ids hB).map _).sum_eq]
    unfold Bank.merge
    rw [List.map_append, List.map_append, List.sum_append, List.sum_append]
    have e1 : (B.parts.map fun p => Device.fluxStorage p.b p.k).map (Device.energy fun i => e ("x" ++ i)) =
        D.map fun d => coef ds d.label * e d.label ^ 2 / 2 := by
      rw [hBdef]
      unfold bankOf
      rw [List.map_map, List.map_map]
      refine List.map_congr_left fun d hm => ?_
      simp only [Function.comp, Device.energy, partOf]
      rw [← hlab d hm]
    have e2 : (D.map fun d => coef ds d.label).map (·⁻¹) = B.parts.map fun p => p.k⁻¹ := by
      rw [hBdef]
      unfold bankOf
      rw [List.map_map, List.map_map]
      rfl
    rw [e1, e2]
    simp only [Bank.device, List.map_cons, List.map_nil, List.sum_cons, List.sum_nil, Device.energy, Bank.K]
    rw [div_eq_mul_inv, mul_inv]
    ring

end Arc
end Pyphs
