/-
The values of the symbols of a system, from those of the system in which storages have been merged.
-/
import Verif.Arc.Names
import Verif.System.Props

namespace Pyphs
namespace Arc
open System

/-! ### Merging and sharing -/

theorem mem_idsOf {ds : List Device} {d : Device} (hd : d ∈ ds) {b : Branch} (hb : b ∈ d.branches) :
    b.id ∈ idsOf ds := List.mem_map_of_mem (List.mem_flatMap.2 ⟨d, hd, hb⟩)

theorem merge_ids {B : Bank} {ds : List Device} (h : Good ds) (hB : B.In ds) {i : String}
    (hi : i ∈ idsOf (B.merge ds)) : i ∉ B.ids := by
  obtain ⟨b, hb, rfl⟩ := List.mem_map.1 hi
  obtain ⟨d, hd, hb⟩ := List.mem_flatMap.1 hb
  rcases mem_merge.1 hd with ⟨hd, hh⟩ | rfl
  · exact not_has h.ids hB hd hh hb
  · obtain rfl : b = ⟨B.id, B.t, B.h⟩ := by simpa [Bank.device, Device.branches] using hb
    intro hm
    exact h.fresh hB (In.ids_mem hB _ hm)

theorem gather_share {B : Bank} {ds : List Device} (h : Good ds) (hB : B.In ds) (x : String → ℝ) {i : String}
    (hi : i ∉ B.ids) : B.gather (B.share x) i = x i := by
  unfold Bank.gather
  split
  · rename_i he
    subst he
    obtain ⟨hk, hkp⟩ := K_inv hB h.positive
    rw [show (B.parts.map fun p => p.sgn * B.share x p.b.id) = B.parts.map fun p => p.k⁻¹ * (B.K * x B.id) from
      List.map_congr_left fun p hp => by
        rw [Bank.share_part hB.nodup hp]
        have := (hkp p hp).ne'
        linear_combination (B.K / p.k * x B.id) * p.sgn_sq]
    rw [List.sum_map_mul_right, ← mul_assoc, show (B.parts.map fun p => p.k⁻¹).sum * B.K = 1 from
      mul_inv_cancel₀ hk.ne', one_mul]
  · exact Bank.share_other hi x

theorem gather_congr {B : Bank} {ds : List Device} (hB : B.In ds) {x y : String → ℝ}
    (hxy : ∀ i ∈ idsOf ds, x i = y i) {i : String} (hi : i ∈ idsOf (B.merge ds)) : B.gather x i = B.gather y i := by
  unfold Bank.gather
  split
  · exact congrArg _ (List.map_congr_left fun p hp => by
      rw [hxy _ (mem_idsOf (hB.mem p hp) (by simp [Device.branches]))])
  · rename_i hne
    rw [idsOf_merge] at hi
    rcases List.mem_append.1 hi with hi | hi
    · obtain ⟨b, hb, rfl⟩ := List.mem_map.1 hi
      obtain ⟨d, hd, hb⟩ := List.mem_flatMap.1 hb
      exact hxy _ (mem_idsOf (List.mem_filter.1 hd).1 hb)
    · exact (hne (by simpa using hi)).elim

theorem gatherAll_congr {Bs : List Bank} : ∀ {ds : List Device}, InAll Bs ds → ∀ {x y : String → ℝ},
    (∀ i ∈ idsOf ds, x i = y i) → ∀ i ∈ idsOf (mergeAll Bs ds), gatherAll Bs x i = gatherAll Bs y i := by
  induction Bs with
  | nil => intro ds _ x y h; exact h
  | cons B Bs ih =>
    intro ds hB x y h
    exact ih (ds := B.merge ds) hB.2 fun i hi => gather_congr hB.1 h hi

theorem gatherAll_share {Bs : List Bank} : ∀ {ds : List Device}, Good ds → InAll Bs ds → ∀ (x : String → ℝ),
    ∀ i ∈ idsOf (mergeAll Bs ds), gatherAll Bs (shareAll Bs x) i = x i := by
  induction Bs with
  | nil => intro ds _ _ x i _; rfl
  | cons B Bs ih =>
    intro ds h hB x i hi
    refine Eq.trans ?_ (ih (h.merge hB.1) hB.2 x i hi)
    exact gatherAll_congr hB.2 (fun j hj => gather_share h hB.1 _ (merge_ids h hB.1 hj)) i hi

/-- The names of the storages. -/
def Stores (ds : List Device) (i : String) : Prop :=
  ∃ b k, b.id = i ∧ (.fluxStorage b k ∈ ds ∨ .effortStorage b k ∈ ds)

theorem share_add {B : Bank} {ds : List Device} (h : Good ds) (hB : B.In ds) {x y z : String → ℝ}
    (hx : ∀ i, Stores (B.merge ds) i → z i = x i + y i) {i : String} (hi : Stores ds i) :
    B.share z i = B.share x i + B.share y i := by
  by_cases hm : i ∈ B.ids
  · obtain ⟨p, hp, rfl⟩ := List.mem_map.1 hm
    rw [Bank.share_part hB.nodup hp, Bank.share_part hB.nodup hp, Bank.share_part hB.nodup hp,
      hx B.id ⟨⟨B.id, B.t, B.h⟩, B.K, rfl, .inl (mem_merge.2 (.inr rfl))⟩]
    ring
  · rw [Bank.share_other hm, Bank.share_other hm, Bank.share_other hm]
    obtain ⟨b, k, rfl, hb⟩ := hi
    refine hx _ ⟨b, k, rfl, ?_⟩
    rcases hb with hb | hb
    · exact .inl (mem_merge.2 (.inl ⟨hb, by simpa [Bank.has] using hm⟩))
    · exact .inr (mem_merge.2 (.inl ⟨hb, rfl⟩))

theorem shareAll_add {Bs : List Bank} : ∀ {ds : List Device}, Good ds → InAll Bs ds → ∀ {x y z : String → ℝ},
    (∀ i, Stores (mergeAll Bs ds) i → z i = x i + y i) → ∀ i, Stores ds i →
    shareAll Bs z i = shareAll Bs x i + shareAll Bs y i := by
  induction Bs with
  | nil => intro ds _ _ x y z h; exact h
  | cons B Bs ih =>
    intro ds h hB x y z hx i hi
    exact share_add h hB.1 (ih (h.merge hB.1) hB.2 hx) hi

/-- A component which is not a storage of flux. -/
def Device.Other : Device → Prop
  | .fluxStorage _ _ => False
  | _ => True

theorem mem_mergeAll {Bs : List Bank} : ∀ {ds : List Device} {d : Device}, Device.Other d →
    (d ∈ mergeAll Bs ds ↔ d ∈ ds) := by
  induction Bs with
  | nil => intro ds d _; exact Iff.rfl
  | cons B Bs ih =>
    intro ds d hd
    refine (ih (ds := B.merge ds) hd).trans ?_
    rw [mem_merge]
    constructor
    · rintro (h | rfl)
      · exact h.1
      · exact hd.elim
    · intro h
      refine .inl ⟨h, ?_⟩
      cases d <;> first | rfl | exact hd.elim

theorem keep {Bs : List Bank} {ds : List Device} {d : Device} (hd : d ∈ ds) (ho : Device.Other d) :
    d ∈ mergeAll Bs ds := (mem_mergeAll ho).2 hd

theorem unkeep {Bs : List Bank} {ds : List Device} {d : Device} (hd : d ∈ mergeAll Bs ds) (ho : Device.Other d) :
    d ∈ ds := (mem_mergeAll ho).1 hd

/-- The values of other components are not changed. -/
theorem other_all {Bs : List Bank} : ∀ {ds : List Device}, Good ds → InAll Bs ds → ∀ {d : Device}, d ∈ ds →
    Device.Other d → ∀ b ∈ d.branches, ∀ x : String → ℝ,
    shareAll Bs x b.id = x b.id ∧ copyAll Bs x b.id = x b.id ∧ gatherAll Bs x b.id = x b.id ∧
      firstAll Bs x b.id = x b.id := by
  induction Bs with
  | nil => intro ds _ _ d _ _ b _ x; exact ⟨rfl, rfl, rfl, rfl⟩
  | cons B Bs ih =>
    intro ds h hB d hd ho b hb x
    have hh : B.has d = false := by cases d <;> first | rfl | exact ho.elim
    have h1 := not_has h.ids hB.1 hd hh hb
    have h2 : b.id ≠ B.id := fun e => h.fresh hB.1 (e ▸ mem_idsOf hd hb)
    have hd' : d ∈ B.merge ds := mem_merge.2 (.inl ⟨hd, hh⟩)
    have key := fun x => ih (h.merge hB.1) hB.2 hd' ho b hb x
    refine ⟨?_, ?_, ?_, ?_⟩
    · exact (Bank.share_other h1 _).trans (key x).1
    · exact (Bank.copy_other h1 _).trans (key x).2.1
    · refine (key (B.gather x)).2.2.1.trans ?_
      unfold Bank.gather
      rw [if_neg h2]
    · refine (key (B.first x)).2.2.2.trans ?_
      unfold Bank.first
      rw [if_neg h2]

/-! ### The nodes -/

theorem ends_merge {B : Bank} {ds : List Device} (hn : (idsOf ds).Nodup) (hB : B.In ds) (n : String) :
    (∃ b ∈ (B.merge ds).flatMap Device.branches, b.tail = n ∨ b.head = n) ↔
      ∃ b ∈ ds.flatMap Device.branches, b.tail = n ∨ b.head = n := by
  constructor
  · rintro ⟨b, hb, hn'⟩
    obtain ⟨d, hd, hb⟩ := List.mem_flatMap.1 hb
    rcases mem_merge.1 hd with ⟨hd, -⟩ | rfl
    · exact ⟨b, List.mem_flatMap.2 ⟨d, hd, hb⟩, hn'⟩
    · obtain rfl : b = ⟨B.id, B.t, B.h⟩ := by simpa [Bank.device, Device.branches] using hb
      obtain ⟨p, hp⟩ : ∃ p, p ∈ B.parts := by
        have := hB.two
        cases hq : B.parts with
        | nil => rw [hq] at this; simp at this
        | cons p l => exact ⟨p, by simp⟩
      refine ⟨p.b, List.mem_flatMap.2 ⟨_, hB.mem p hp, by simp [Device.branches]⟩, ?_⟩
      rw [(hB.ends p hp).1, (hB.ends p hp).2]
      cases p.straight
      · exact hn'.symm
      · exact hn'
  · rintro ⟨b, hb, hn'⟩
    obtain ⟨d, hd, hb⟩ := List.mem_flatMap.1 hb
    cases hh : B.has d
    · exact ⟨b, List.mem_flatMap.2 ⟨d, mem_merge.2 (.inl ⟨hd, hh⟩), hb⟩, hn'⟩
    · obtain ⟨p, hp, rfl⟩ := (has_iff hn hB hd).1 hh
      obtain rfl : b = p.b := by simpa [Device.branches] using hb
      refine ⟨⟨B.id, B.t, B.h⟩, List.mem_flatMap.2 ⟨B.device, mem_merge.2 (.inr rfl), by
        simp [Bank.device, Device.branches]⟩, ?_⟩
      rw [(hB.ends p hp).1, (hB.ends p hp).2] at hn'
      cases hs : p.straight
      · rw [hs] at hn'; exact hn'.symm
      · rw [hs] at hn'; exact hn'

theorem ends_mergeAll {Bs : List Bank} : ∀ {ds : List Device}, Good ds → InAll Bs ds → ∀ n : String,
    ((∃ b ∈ (mergeAll Bs ds).flatMap Device.branches, b.tail = n ∨ b.head = n) ↔
      ∃ b ∈ ds.flatMap Device.branches, b.tail = n ∨ b.head = n) := by
  induction Bs with
  | nil => intro ds _ _ n; exact Iff.rfl
  | cons B Bs ih =>
    intro ds h hB n
    exact (ih (h.merge hB.1) hB.2 n).trans (ends_merge h.ids hB.1 n)

/-! ### The controls -/

theorem law_ctrl {ec ec' : String → Prop} {fs ϑ : ℝ} {x dx u E F : String → ℝ} {d : Device}
    (h : ∀ b ∈ d.branches, Device.Other d → (ec b.id ↔ ec' b.id)) (hl : d.Law ec fs ϑ x dx u E F) :
    d.Law ec' fs ϑ x dx u E F := by
  cases d with
  | gyrator a b k =>
    have := h a (by simp [Device.branches]) trivial
    simp only [Device.Law] at hl ⊢
    rwa [← this]
  | transformer a b k =>
    have := h a (by simp [Device.branches]) trivial
    simp only [Device.Law] at hl ⊢
    rwa [← this]
  | _ => exact hl

/-- The fluxes of storages of flux are computed from the other branches. -/
def ctrl (ds : List Device) (ec : String → Prop) (i : String) : Prop :=
  ec i ∧ ¬ ∃ b k, .fluxStorage b k ∈ ds ∧ b.id = i

theorem ctrl_other {ds : List Device} (hn : (idsOf ds).Nodup) (ec : String → Prop) {d : Device} (hd : d ∈ ds)
    (ho : Device.Other d) {b : Branch} (hb : b ∈ d.branches) : ctrl ds ec b.id ↔ ec b.id := by
  unfold ctrl
  constructor
  · exact fun h => h.1
  · refine fun h => ⟨h, ?_⟩
    rintro ⟨b', k, h1, h2⟩
    have := same_device hn h1 hd (b := b') (by simp [Device.branches]) hb h2
    subst this
    exact ho

theorem controls_all {Bs : List Bank} {ds : List Device} (h : Good ds) {ec : String → Prop}
    (hec : Controls (mergeAll Bs ds) ec) : Controls ds (ctrl ds ec) where
  fluxStorage := fun b k hb hc => hc.2 ⟨b, k, hb, rfl⟩
  effortStorage := fun b k hb => (ctrl_other h.ids ec hb trivial (by simp [Device.branches])).2
    (hec.effortStorage b k (keep (Bs := Bs) hb trivial))
  effortSource := fun b hb hc => hec.effortSource b (keep (Bs := Bs) hb trivial) hc.1
  fluxSource := fun b hb => (ctrl_other h.ids ec hb trivial (by simp [Device.branches])).2
    (hec.fluxSource b (keep (Bs := Bs) hb trivial))

/-! ### The symbols -/

/-- The values of the symbols of a system: the states and the increments are shared between the storages
that have been merged. -/
noncomputable def lift (Bs : List Bank) (e : String → ℝ) (l : String) : ℝ :=
  match l.toList with
  | 'x' :: r => shareAll Bs (fun i => e ("x" ++ i)) (String.ofList r)
  | 'd' :: 'x' :: r => shareAll Bs (fun i => e ("dx" ++ i)) (String.ofList r)
  | _ => e l

theorem lift_x (Bs : List Bank) (e : String → ℝ) (i : String) :
    lift Bs e ("x" ++ i) = shareAll Bs (fun i => e ("x" ++ i)) i := by
  unfold lift
  rw [show ("x" ++ i).toList = 'x' :: i.toList by rw [String.toList_append]; rfl]
  simp only [String.ofList_toList]

theorem lift_dx (Bs : List Bank) (e : String → ℝ) (i : String) :
    lift Bs e ("dx" ++ i) = shareAll Bs (fun i => e ("dx" ++ i)) i := by
  unfold lift
  rw [show ("dx" ++ i).toList = 'd' :: 'x' :: i.toList by rw [String.toList_append]; rfl]
  simp only [String.ofList_toList]

theorem lift_u (Bs : List Bank) (e : String → ℝ) (i : String) : lift Bs e ("u" ++ i) = e ("u" ++ i) := by
  unfold lift
  rw [show ("u" ++ i).toList = 'u' :: i.toList by rw [String.toList_append]; rfl]
  rfl

theorem lift_w (Bs : List Bank) (e : String → ℝ) (i : String) : lift Bs e ("w" ++ i) = e ("w" ++ i) := by
  unfold lift
  rw [show ("w" ++ i).toList = 'w' :: i.toList by rw [String.toList_append]; rfl]
  rfl

theorem equations_ctrl {ds : List Device} {ec ec' : String → Prop} {fs ϑ : ℝ} {x dx u E F : String → ℝ}
    (h : ∀ d ∈ ds, Device.Other d → ∀ b ∈ d.branches, (ec b.id ↔ ec' b.id)) (he : Equations ds ec fs ϑ x dx u E F) :
    Equations ds ec' fs ϑ x dx u E F :=
  ⟨he.flux, he.effort, fun d hd => law_ctrl (fun b hb ho => h d hd ho b hb) (he.laws d hd)⟩

/-- A step of the merged system is a step of the system. -/
theorem step_lift {Bs : List Bank} {ds : List Device} (h : Good ds) (hB : InAll Bs ds) {ec : String → Prop}
    {fs ϑ : ℝ} {e E F : String → ℝ} (hs : Step (mergeAll Bs ds) ec fs ϑ e E F) :
    Step ds (ctrl ds ec) fs ϑ (lift Bs e) (copyAll Bs E) (shareAll Bs F) := by
  constructor
  · have := unmergeAll h hB hs.eqs
    simp only [lift_x, lift_dx, lift_u]
    exact equations_ctrl (fun d hd ho b hb => (ctrl_other h.ids ec hd ho hb).symm) this
  · intro b r hb
    obtain ⟨o1, -, -, -⟩ := other_all h hB hb trivial b (by simp [Device.branches]) F
    obtain ⟨-, o2, -, -⟩ := other_all h hB hb trivial b (by simp [Device.branches]) E
    rw [lift_w, o1, o2, ctrl_other h.ids ec hb trivial (by simp [Device.branches])]
    exact hs.diss b r (keep (Bs := Bs) hb trivial)

/-- And conversely. -/
theorem step_unlift {Bs : List Bank} {ds : List Device} (h : Good ds) (hB : InAll Bs ds) {ec : String → Prop}
    {fs ϑ : ℝ} {e E F : String → ℝ} (hs : Step ds (ctrl ds ec) fs ϑ (lift Bs e) E F) :
    Step (mergeAll Bs ds) ec fs ϑ e (firstAll Bs E) (gatherAll Bs F) := by
  constructor
  · have h1 := equations_ctrl (ec' := ec) (fun d hd ho b hb => ctrl_other h.ids ec hd ho hb) hs.eqs
    have h2 := remergeAll h hB h1
    refine ⟨h2.flux, h2.effort, fun d hd => law_congr (fun b hb => ⟨?_, ?_, ?_, rfl, rfl⟩) (h2.laws d hd)⟩
    · simp only [lift_x]
      exact gatherAll_share h hB _ _ (mem_idsOf hd hb)
    · simp only [lift_dx]
      exact gatherAll_share h hB _ _ (mem_idsOf hd hb)
    · exact lift_u Bs e b.id
  · intro b r hb
    have hb' : Device.resistance b r ∈ ds := unkeep hb trivial
    obtain ⟨-, -, o1, -⟩ := other_all h hB hb' trivial b (by simp [Device.branches]) F
    obtain ⟨-, -, -, o2⟩ := other_all h hB hb' trivial b (by simp [Device.branches]) E
    have := hs.diss b r hb'
    rw [lift_w, ctrl_other h.ids ec hb' trivial (by simp [Device.branches])] at this
    rw [o1, o2]
    exact this

/-- An update of the merged system is an update of the system. -/
theorem update_lift {Bs : List Bank} {ds : List Device} (h : Good ds) (hB : InAll Bs ds) {ec : String → Prop}
    {fs ϑ : ℝ} {U e e' out : String → ℝ} (hu : Update (mergeAll Bs ds) ec fs ϑ U e e' out) :
    Update ds (ctrl ds ec) fs ϑ U (lift Bs e) (lift Bs e') out where
  states := fun b k hb => by
    rw [lift_x, lift_x, lift_dx]
    refine shareAll_add h hB (fun i hi => ?_) b.id ⟨b, k, rfl, hb⟩
    obtain ⟨c, k', rfl, hc⟩ := hi
    exact hu.states c k' hc
  inputs := fun b hb => by
    rw [lift_u]
    refine hu.inputs b ?_
    rcases hb with hb | hb
    · exact .inl (keep (Bs := Bs) hb trivial)
    · exact .inr (keep (Bs := Bs) hb trivial)
  eqs := by
    obtain ⟨E, F, h1, h2, h3⟩ := hu.eqs
    refine ⟨_, _, step_lift h hB h1, fun b hb => ?_, fun b hb => ?_⟩
    · rw [(other_all h hB hb trivial b (by simp [Device.branches]) E).2.1]
      exact h2 b (keep (Bs := Bs) hb trivial)
    · rw [(other_all h hB hb trivial b (by simp [Device.branches]) F).1]
      exact h3 b (keep (Bs := Bs) hb trivial)

/-- The energy. -/
theorem stored_lift {Bs : List Bank} {ds : List Device} (h : Good ds) (hB : InAll Bs ds) (e : String → ℝ) :
    stored ds (fun i => lift Bs e ("x" ++ i)) = stored (mergeAll Bs ds) fun i => e ("x" ++ i) := by
  simp only [lift_x]
  exact storedAll h hB _

end Arc
end Pyphs
