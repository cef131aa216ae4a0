/-
Storages of flux in parallel (capacitors, masses…): what a single equivalent storage means. Nothing here
refers to graphs, trees or cores.
-/
import Verif.System.Spec
import Mathlib.Algebra.BigOperators.Group.List.Basic
import Mathlib.Algebra.BigOperators.Ring.List
import Mathlib.Algebra.Order.BigOperators.Group.List
import Mathlib.Data.List.Nodup
import Mathlib.Data.List.Perm.Lattice
import Mathlib.Tactic.Ring
import Mathlib.Tactic.FieldSimp
import Mathlib.Tactic.Linarith
import Mathlib.Tactic.LinearCombination

namespace Pyphs
namespace Arc
open System

/-- A storage, and whether its branch goes from the first node to the second one. -/
structure Part where
  b : Branch
  k : ℝ
  straight : Bool

/-- Storages between two nodes. -/
structure Bank where
  t : String
  h : String
  parts : List Part

namespace Bank

/-- Names one after the other. -/
def id (B : Bank) : String := String.ofList (B.parts.flatMap fun p => p.b.id.toList)

/-- The coefficient of the equivalent storage: capacitances are added. -/
noncomputable def K (B : Bank) : ℝ := ((B.parts.map fun p => p.k⁻¹).sum)⁻¹

def ids (B : Bank) : List String := B.parts.map (·.b.id)

/-- The storage is one of the bank. -/
def has (B : Bank) : Device → Bool
  | .fluxStorage b _ => decide (b.id ∈ B.ids)
  | _ => false

/-- The equivalent storage. -/
noncomputable def device (B : Bank) : Device := .fluxStorage ⟨B.id, B.t, B.h⟩ B.K

/-- The components once the equivalent storage has replaced those of the bank. -/
noncomputable def merge (B : Bank) (ds : List Device) : List Device := ds.filter (fun d => !B.has d) ++ [B.device]

/-- The bank is made of components of the system, which join its two nodes. -/
structure In (B : Bank) (ds : List Device) : Prop where
  two : 2 ≤ B.parts.length
  nodup : B.ids.Nodup
  mem : ∀ p ∈ B.parts, .fluxStorage p.b p.k ∈ ds
  ends : ∀ p ∈ B.parts, p.b.tail = (if p.straight then B.t else B.h) ∧
    p.b.head = (if p.straight then B.h else B.t)

end Bank

def Part.sgn (p : Part) : ℝ := if p.straight then 1 else -1

theorem Part.sgn_sq (p : Part) : p.sgn * p.sgn = 1 := by
  unfold Part.sgn
  split <;> norm_num

namespace Bank

/-- A state or a flux of the equivalent storage, shared between the storages according to their
capacitances. -/
noncomputable def share (B : Bank) (x : String → ℝ) (i : String) : ℝ :=
  match B.parts.find? fun p => decide (p.b.id = i) with
  | some p => p.sgn * (B.K / p.k) * x B.id
  | none => x i

/-- The effort of the equivalent storage is the effort of each storage. -/
noncomputable def copy (B : Bank) (E : String → ℝ) (i : String) : ℝ :=
  match B.parts.find? fun p => decide (p.b.id = i) with
  | some p => p.sgn * E B.id
  | none => E i

/-- The total of the states or of the fluxes of the storages. -/
noncomputable def gather (B : Bank) (x : String → ℝ) (i : String) : ℝ :=
  if i = B.id then (B.parts.map fun p => p.sgn * x p.b.id).sum else x i

/-- The effort of the first storage. -/
noncomputable def first (B : Bank) (E : String → ℝ) (i : String) : ℝ :=
  if i = B.id then ((B.parts.head?.map fun p => p.sgn * E p.b.id).getD 0) else E i

theorem find_part {B : Bank} (hn : B.ids.Nodup) {p : Part} (hp : p ∈ B.parts) :
    (B.parts.find? fun q => decide (q.b.id = p.b.id)) = some p := by
  unfold ids at hn
  cases h : B.parts.find? fun q => decide (q.b.id = p.b.id) with
  | none =>
    rw [List.find?_eq_none] at h
    exact (h p hp (by simp)).elim
  | some q =>
    have h1 : q.b.id = p.b.id := by simpa using List.find?_some h
    rw [List.inj_on_of_nodup_map hn (List.mem_of_find?_eq_some h) hp h1]

theorem find_other {B : Bank} {i : String} (h : i ∉ B.ids) :
    (B.parts.find? fun q => decide (q.b.id = i)) = none := by
  rw [List.find?_eq_none]
  intro q hq
  simp only [decide_eq_true_eq]
  rintro rfl
  exact h (List.mem_map_of_mem hq)

theorem share_part {B : Bank} (hn : B.ids.Nodup) {p : Part} (hp : p ∈ B.parts) (x : String → ℝ) :
    B.share x p.b.id = p.sgn * (B.K / p.k) * x B.id := by
  unfold share
  rw [find_part hn hp]

theorem share_other {B : Bank} {i : String} (h : i ∉ B.ids) (x : String → ℝ) : B.share x i = x i := by
  unfold share
  rw [find_other h]

theorem copy_part {B : Bank} (hn : B.ids.Nodup) {p : Part} (hp : p ∈ B.parts) (x : String → ℝ) :
    B.copy x p.b.id = p.sgn * x B.id := by
  unfold copy
  rw [find_part hn hp]

theorem copy_other {B : Bank} {i : String} (h : i ∉ B.ids) (x : String → ℝ) : B.copy x i = x i := by
  unfold copy
  rw [find_other h]

end Bank

/-! ### The components and those of the bank -/

/-- Two components with a branch of the same name are the same. -/
theorem same_device {ds : List Device} (hn : ((ds.flatMap Device.branches).map (·.id)).Nodup) {d d' : Device}
    (hd : d ∈ ds) (hd' : d' ∈ ds) {b b' : Branch} (hb : b ∈ d.branches) (hb' : b' ∈ d'.branches)
    (h : b.id = b'.id) : d = d' := by
  induction ds with
  | nil => cases hd
  | cons a ds ih =>
    rw [List.flatMap_cons, List.map_append, List.nodup_append] at hn
    have hin : ∀ {e : Device} {c : Branch}, e ∈ ds → c ∈ e.branches →
        c.id ∈ (ds.flatMap Device.branches).map (·.id) := fun he hc =>
      List.mem_map_of_mem (List.mem_flatMap.2 ⟨_, he, hc⟩)
    rcases List.mem_cons.1 hd with rfl | h1
    · rcases List.mem_cons.1 hd' with rfl | h2
      · rfl
      · exact (hn.2.2 _ (List.mem_map_of_mem hb) _ (hin h2 hb') h).elim
    · rcases List.mem_cons.1 hd' with rfl | h2
      · exact (hn.2.2 _ (List.mem_map_of_mem hb') _ (hin h1 hb) h.symm).elim
      · exact ih hn.2.1 h1 h2

theorem has_iff {B : Bank} {ds : List Device} (hn : ((ds.flatMap Device.branches).map (·.id)).Nodup)
    (hB : B.In ds) {d : Device} (hd : d ∈ ds) :
    B.has d = true ↔ ∃ p ∈ B.parts, d = .fluxStorage p.b p.k := by
  constructor
  · intro h
    cases d with
    | fluxStorage b k =>
      simp only [Bank.has, decide_eq_true_eq, Bank.ids, List.mem_map] at h
      obtain ⟨p, hp, h⟩ := h
      exact ⟨p, hp, same_device hn hd (hB.mem p hp) (by simp [Device.branches]) (by simp [Device.branches]) h.symm⟩
    | _ => simp [Bank.has] at h
  · rintro ⟨p, hp, rfl⟩
    simp only [Bank.has, decide_eq_true_eq]
    exact List.mem_map_of_mem hp

theorem not_has {B : Bank} {ds : List Device} (hn : ((ds.flatMap Device.branches).map (·.id)).Nodup)
    (hB : B.In ds) {d : Device} (hd : d ∈ ds) (h : B.has d = false) {b : Branch} (hb : b ∈ d.branches) :
    b.id ∉ B.ids := by
  intro hm
  obtain ⟨p, hp, hp'⟩ := List.mem_map.1 hm
  have := same_device hn hd (hB.mem p hp) hb (by simp [Device.branches]) hp'.symm
  rw [Bool.eq_false_iff] at h
  exact h ((has_iff hn hB hd).2 ⟨p, hp, this⟩)

theorem devices_nodup {ds : List Device} (hn : ((ds.flatMap Device.branches).map (·.id)).Nodup) : ds.Nodup := by
  induction ds with
  | nil => exact List.nodup_nil
  | cons d ds ih =>
    rw [List.flatMap_cons, List.map_append, List.nodup_append] at hn
    refine List.nodup_cons.2 ⟨fun hm => ?_, ih hn.2.1⟩
    have hne : ∃ b, b ∈ d.branches := by cases d <;> exact ⟨_, List.mem_cons_self⟩
    obtain ⟨b, hb⟩ := hne
    exact hn.2.2 b.id (List.mem_map_of_mem hb) b.id
      (List.mem_map_of_mem (List.mem_flatMap.2 ⟨d, hm, hb⟩)) rfl

/-- The storages of the bank among the components. -/
theorem bank_perm {B : Bank} {ds : List Device} (hn : ((ds.flatMap Device.branches).map (·.id)).Nodup)
    (hB : B.In ds) :
    ds.Perm (ds.filter (fun d => !B.has d) ++ B.parts.map fun p => .fluxStorage p.b p.k) := by
  have h1 : (ds.filter B.has).Perm (B.parts.map fun p => .fluxStorage p.b p.k) := by
    rw [List.perm_ext_iff_of_nodup]
    · intro d
      rw [List.mem_filter]
      constructor
      · rintro ⟨hd, h⟩
        obtain ⟨p, hp, rfl⟩ := (has_iff hn hB hd).1 h
        exact List.mem_map.2 ⟨p, hp, rfl⟩
      · intro h
        obtain ⟨p, hp, rfl⟩ := List.mem_map.1 h
        exact ⟨hB.mem p hp, (has_iff hn hB (hB.mem p hp)).2 ⟨p, hp, rfl⟩⟩
    · exact (devices_nodup hn).filter _
    · refine List.Nodup.of_map (fun d => d.branches.map (·.id)) ?_
      rw [List.map_map]
      have := hB.nodup
      unfold Bank.ids at this
      rw [show (B.parts.map ((fun d : Device => d.branches.map (·.id)) ∘ fun p => Device.fluxStorage p.b p.k)) =
        (B.parts.map (·.b.id)).map fun i => [i] by
          rw [List.map_map]; rfl]
      exact this.map fun a b h => by simpa using h
  exact ((List.filter_append_perm B.has ds).symm.trans List.perm_append_comm).trans (h1.append_left _)

theorem mem_merge {B : Bank} {ds : List Device} {d : Device} :
    d ∈ B.merge ds ↔ (d ∈ ds ∧ B.has d = false) ∨ d = B.device := by
  unfold Bank.merge
  simp

/-! ### The equations -/

/-- A law concerns the values of the branches. -/
theorem law_congr {ec : String → Prop} {fs ϑ : ℝ} {x dx u E F x' dx' u' E' F' : String → ℝ} {d : Device}
    (h : ∀ b ∈ d.branches, x b.id = x' b.id ∧ dx b.id = dx' b.id ∧ u b.id = u' b.id ∧ E b.id = E' b.id ∧
      F b.id = F' b.id) (hl : d.Law ec fs ϑ x dx u E F) : d.Law ec fs ϑ x' dx' u' E' F' := by
  cases d with
  | fluxStorage b k =>
    obtain ⟨h1, h2, h3, h4, h5⟩ := h b (by simp [Device.branches])
    simp only [Device.Law] at hl ⊢
    rw [← h1, ← h2, ← h4, ← h5]; exact hl
  | effortStorage b k =>
    obtain ⟨h1, h2, h3, h4, h5⟩ := h b (by simp [Device.branches])
    simp only [Device.Law] at hl ⊢
    rw [← h1, ← h2, ← h4, ← h5]; exact hl
  | resistance b k =>
    obtain ⟨h1, h2, h3, h4, h5⟩ := h b (by simp [Device.branches])
    simp only [Device.Law] at hl ⊢
    rw [← h4, ← h5]; exact hl
  | effortSource b =>
    obtain ⟨h1, h2, h3, h4, h5⟩ := h b (by simp [Device.branches])
    simp only [Device.Law] at hl ⊢
    rw [← h3, ← h4]; exact hl
  | fluxSource b =>
    obtain ⟨h1, h2, h3, h4, h5⟩ := h b (by simp [Device.branches])
    simp only [Device.Law] at hl ⊢
    rw [← h3, ← h5]; exact hl
  | gyrator a b k =>
    obtain ⟨h1, h2, h3, h4, h5⟩ := h a (by simp [Device.branches])
    obtain ⟨g1, g2, g3, g4, g5⟩ := h b (by simp [Device.branches])
    simp only [Device.Law] at hl ⊢
    rw [← h4, ← h5, ← g4, ← g5]; exact hl
  | transformer a b k =>
    obtain ⟨h1, h2, h3, h4, h5⟩ := h a (by simp [Device.branches])
    obtain ⟨g1, g2, g3, g4, g5⟩ := h b (by simp [Device.branches])
    simp only [Device.Law] at hl ⊢
    rw [← h4, ← h5, ← g4, ← g5]; exact hl

/-- What a branch takes from a node. -/
def atNode (n : String) (F : String → ℝ) (b : Branch) : ℝ :=
  (if b.tail = n then F b.id else 0) - (if b.head = n then F b.id else 0)

theorem atNode_part {B : Bank} {p : Part} (h : p.b.tail = (if p.straight then B.t else B.h) ∧
    p.b.head = (if p.straight then B.h else B.t)) (n : String) (F : String → ℝ) :
    atNode n F p.b = p.sgn * F p.b.id * ((if B.t = n then 1 else 0) - (if B.h = n then 1 else 0)) := by
  unfold atNode Part.sgn
  rw [h.1, h.2]
  cases p.straight <;> simp only [Bool.false_eq_true, if_true, if_false] <;> split_ifs <;> ring

theorem K_inv {B : Bank} {ds : List Device} (hB : B.In ds) (hpos : ∀ d ∈ ds, d.Positive) :
    0 < (B.parts.map fun p => p.k⁻¹).sum ∧ ∀ p ∈ B.parts, 0 < p.k := by
  have h1 : ∀ p ∈ B.parts, 0 < p.k := fun p hp => hpos _ (hB.mem p hp)
  refine ⟨List.sum_pos _ ?_ ?_, h1⟩
  · intro y hy
    obtain ⟨p, hp, rfl⟩ := List.mem_map.1 hy
    exact inv_pos.2 (h1 p hp)
  · have := hB.two
    intro h
    rw [List.map_eq_nil_iff] at h
    rw [h] at this
    simp at this

theorem K_pos {B : Bank} {ds : List Device} (hB : B.In ds) (hpos : ∀ d ∈ ds, d.Positive) : 0 < B.K :=
  inv_pos.2 (K_inv hB hpos).1

/-- The flux balance of the components, from that of the bank. -/
theorem sum_merge {B : Bank} {ds : List Device} (hn : ((ds.flatMap Device.branches).map (·.id)).Nodup)
    (hB : B.In ds) (n : String) (F F' : String → ℝ) (h1 : ∀ i, i ∉ B.ids → i ≠ B.id → F i = F' i)
    (hid : B.id ∉ (ds.flatMap Device.branches).map (·.id))
    (h2 : (B.parts.map fun p => p.sgn * F p.b.id).sum = F' B.id) :
    ((ds.flatMap Device.branches).map (atNode n F)).sum =
      (((B.merge ds).flatMap Device.branches).map (atNode n F')).sum := by
  have hp := (((bank_perm hn hB).flatMap_right Device.branches).map (atNode n F)).sum_eq
  rw [hp]
  unfold Bank.merge
  rw [List.flatMap_append, List.flatMap_append, List.map_append, List.map_append, List.sum_append, List.sum_append]
  have e1 : (((ds.filter fun d => !B.has d).flatMap Device.branches).map (atNode n F)) =
      (((ds.filter fun d => !B.has d).flatMap Device.branches).map (atNode n F')) := by
    refine List.map_congr_left fun b hb => ?_
    obtain ⟨d, hd, hb⟩ := List.mem_flatMap.1 hb
    obtain ⟨hd, hh⟩ := List.mem_filter.1 hd
    unfold atNode
    rw [h1 b.id (not_has hn hB hd (by simpa using hh) hb)]
    intro hc
    exact hid (hc ▸ List.mem_map_of_mem (List.mem_flatMap.2 ⟨d, hd, hb⟩))
  rw [e1]
  congr 1
  rw [List.flatMap_map]
  have e2 : ∀ l : List Part, (∀ p ∈ l, p ∈ B.parts) →
      ((l.flatMap fun p => Device.branches (.fluxStorage p.b p.k)).map (atNode n F)).sum =
      (l.map fun p => p.sgn * F p.b.id).sum * ((if B.t = n then 1 else 0) - (if B.h = n then 1 else 0)) := by
    intro l hl
    induction l with
    | nil => simp
    | cons p l ih =>
      rw [List.flatMap_cons, List.map_append, List.sum_append, ih fun q hq => hl q (by simp [hq])]
      simp only [Device.branches, List.map_cons, List.map_nil, List.sum_cons, List.sum_nil]
      rw [atNode_part (hB.ends p (hl p (by simp)))]
      ring
  rw [e2 _ fun _ h => h, h2]
  simp only [Bank.device, List.flatMap_cons, Device.branches, List.flatMap_nil, List.append_nil, List.map_cons,
    List.map_nil, List.sum_cons, List.sum_nil, atNode]
  split_ifs <;> ring

/-- The equations of the merged system give those of the system. -/
theorem unmerge {B : Bank} {ds : List Device} (hn : ((ds.flatMap Device.branches).map (·.id)).Nodup)
    (hpos : ∀ d ∈ ds, d.Positive) (hB : B.In ds) (hid : B.id ∉ (ds.flatMap Device.branches).map (·.id))
    {ec : String → Prop} {fs ϑ : ℝ} {x dx u E F : String → ℝ} (h : Equations (B.merge ds) ec fs ϑ x dx u E F) :
    Equations ds ec fs ϑ (B.share x) (B.share dx) u (B.copy E) (B.share F) := by
  obtain ⟨hk, hkp⟩ := K_inv hB hpos
  obtain ⟨l1, l2⟩ : F B.id = fs * dx B.id ∧ E B.id = B.K * (x B.id + ϑ * dx B.id) :=
    h.laws B.device (mem_merge.2 (Or.inr rfl))
  refine ⟨?_, ?_, ?_⟩
  · intro n hng
    have := sum_merge hn hB n (B.share F) F (fun i hi _ => Bank.share_other hi F) hid (by
      rw [show (B.parts.map fun p => p.sgn * B.share F p.b.id) = B.parts.map fun p => p.k⁻¹ * (B.K * F B.id) from
        List.map_congr_left fun p hp => by
          rw [Bank.share_part hB.nodup hp]
          have := p.sgn_sq
          calc p.sgn * (p.sgn * (B.K / p.k) * F B.id) = (p.sgn * p.sgn) * (B.K / p.k) * F B.id := by ring
            _ = _ := by rw [this]; ring]
      rw [List.sum_map_mul_right]
      unfold Bank.K
      rw [← mul_assoc, mul_inv_cancel₀ hk.ne', one_mul])
    unfold atNode at this
    rw [this]
    exact h.flux n hng
  · obtain ⟨p, hp⟩ := h.effort
    refine ⟨p, fun b hb => ?_⟩
    obtain ⟨d, hd, hb⟩ := List.mem_flatMap.1 hb
    by_cases hh : B.has d = true
    · obtain ⟨q, hq, rfl⟩ := (has_iff hn hB hd).1 hh
      obtain rfl : b = q.b := by simpa [Device.branches] using hb
      have he : E B.id = p B.t - p B.h :=
        hp ⟨B.id, B.t, B.h⟩ (List.mem_flatMap.2 ⟨B.device, mem_merge.2 (Or.inr rfl), by simp [Bank.device, Device.branches]⟩)
      rw [Bank.copy_part hB.nodup hq, he, (hB.ends q hq).1, (hB.ends q hq).2]
      unfold Part.sgn
      cases q.straight <;> simp
    · have hh' : B.has d = false := by simpa using hh
      rw [Bank.copy_other (not_has hn hB hd hh' hb)]
      exact hp b (List.mem_flatMap.2 ⟨d, mem_merge.2 (Or.inl ⟨hd, hh'⟩), hb⟩)
  · intro d hd
    by_cases hh : B.has d = true
    · obtain ⟨q, hq, rfl⟩ := (has_iff hn hB hd).1 hh
      have hq0 := (hkp q hq).ne'
      simp only [Device.Law]
      rw [Bank.share_part hB.nodup hq, Bank.share_part hB.nodup hq, Bank.share_part hB.nodup hq,
        Bank.copy_part hB.nodup hq, l1, l2]
      refine ⟨by ring, ?_⟩
      field_simp
    · have hh' : B.has d = false := by simpa using hh
      refine law_congr (fun b hb => ?_) (h.laws d (mem_merge.2 (Or.inl ⟨hd, hh'⟩)))
      have := not_has hn hB hd hh' hb
      rw [Bank.share_other this, Bank.share_other this, Bank.share_other this, Bank.copy_other this]
      exact ⟨rfl, rfl, rfl, rfl, rfl⟩

/-- The equations of the system give those of the merged system, for the total of the states. -/
theorem remerge {B : Bank} {ds : List Device} (hn : ((ds.flatMap Device.branches).map (·.id)).Nodup)
    (hpos : ∀ d ∈ ds, d.Positive) (hB : B.In ds) (hid : B.id ∉ (ds.flatMap Device.branches).map (·.id))
    {ec : String → Prop} {fs ϑ : ℝ} {x dx u E F : String → ℝ} (h : Equations ds ec fs ϑ x dx u E F) :
    Equations (B.merge ds) ec fs ϑ (B.gather x) (B.gather dx) u (B.first E) (B.gather F) := by
  obtain ⟨hk, hkp⟩ := K_inv hB hpos
  obtain ⟨p, hp⟩ := h.effort
  have hother : ∀ d ∈ ds, ∀ b ∈ d.branches, b.id ≠ B.id := fun d hd b hb hc =>
    hid (hc ▸ List.mem_map_of_mem (List.mem_flatMap.2 ⟨d, hd, hb⟩))
  have hE : ∀ q ∈ B.parts, q.sgn * E q.b.id = p B.t - p B.h := by
    intro q hq
    rw [hp q.b (List.mem_flatMap.2 ⟨_, hB.mem q hq, by simp [Device.branches]⟩), (hB.ends q hq).1, (hB.ends q hq).2]
    unfold Part.sgn
    cases q.straight <;> simp
  have hEB : B.first E B.id = p B.t - p B.h := by
    unfold Bank.first
    rw [if_pos rfl]
    cases hl : B.parts with
    | nil =>
      have := hB.two
      rw [hl] at this
      simp at this
    | cons q l =>
      simpa using hE q (by rw [hl]; simp)
  have hlaw : ∀ q ∈ B.parts, F q.b.id = fs * dx q.b.id ∧ E q.b.id = q.k * (x q.b.id + ϑ * dx q.b.id) :=
    fun q hq => h.laws _ (hB.mem q hq)
  have hgx : ∀ y, B.gather y B.id = (B.parts.map fun p => p.sgn * y p.b.id).sum := fun y => if_pos rfl
  refine ⟨?_, ?_, ?_⟩
  · intro n hng
    have := sum_merge hn hB n F (B.gather F) (fun i _ hi => by unfold Bank.gather; rw [if_neg hi]) hid
      (hgx F).symm
    unfold atNode at this
    rw [← this]
    exact h.flux n hng
  · refine ⟨p, fun b hb => ?_⟩
    obtain ⟨d, hd, hb⟩ := List.mem_flatMap.1 hb
    rcases mem_merge.1 hd with ⟨hd, -⟩ | rfl
    · unfold Bank.first
      rw [if_neg (hother d hd b hb)]
      exact hp b (List.mem_flatMap.2 ⟨d, hd, hb⟩)
    · obtain rfl : b = ⟨B.id, B.t, B.h⟩ := by simpa [Bank.device, Device.branches] using hb
      exact hEB
  · intro d hd
    rcases mem_merge.1 hd with ⟨hd, -⟩ | rfl
    · refine law_congr (fun b hb => ?_) (h.laws d hd)
      unfold Bank.first Bank.gather
      rw [if_neg (hother d hd b hb), if_neg (hother d hd b hb), if_neg (hother d hd b hb),
        if_neg (hother d hd b hb)]
      exact ⟨rfl, rfl, rfl, rfl, rfl⟩
    · simp only [Bank.device, Device.Law]
      rw [hgx, hgx, hgx, hEB]
      constructor
      · rw [← List.sum_map_mul_left]
        refine congrArg _ (List.map_congr_left fun q hq => ?_)
        rw [(hlaw q hq).1]
        ring
      · rw [← List.sum_map_mul_left, ← List.sum_map_add]
        rw [show (B.parts.map fun q => q.sgn * x q.b.id + ϑ * (q.sgn * dx q.b.id)) =
          B.parts.map fun q => q.k⁻¹ * (p B.t - p B.h) from List.map_congr_left fun q hq => by
            rw [← hE q hq, (hlaw q hq).2]
            have := (hkp q hq).ne'
            field_simp]
        rw [List.sum_map_mul_right]
        unfold Bank.K
        rw [← mul_assoc, inv_mul_cancel₀ hk.ne', one_mul]

/-- The energies are the same. -/
theorem stored_share {B : Bank} {ds : List Device} (hn : ((ds.flatMap Device.branches).map (·.id)).Nodup)
    (hpos : ∀ d ∈ ds, d.Positive) (hB : B.In ds) (x : String → ℝ) :
    stored ds (B.share x) = stored (B.merge ds) x := by
  obtain ⟨hk, hkp⟩ := K_inv hB hpos
  unfold stored
  rw [((bank_perm hn hB).map _).sum_eq]
  unfold Bank.merge
  rw [List.map_append, List.map_append, List.sum_append, List.sum_append]
  congr 1
  · refine congrArg _ (List.map_congr_left fun d hd => ?_)
    obtain ⟨hd, hh⟩ := List.mem_filter.1 hd
    have := fun b hb => not_has hn hB hd (by simpa using hh) (b := b) hb
    cases d with
    | fluxStorage b k =>
      simp only [Device.energy]
      rw [Bank.share_other (this b (by simp [Device.branches]))]
    | effortStorage b k =>
      simp only [Device.energy]
      rw [Bank.share_other (this b (by simp [Device.branches]))]
    | _ => rfl
  · rw [List.map_map]
    rw [show (B.parts.map (Device.energy (B.share x) ∘ fun p => .fluxStorage p.b p.k)) =
      B.parts.map fun p => p.k⁻¹ * (B.K ^ 2 * x B.id ^ 2 / 2) from List.map_congr_left fun q hq => by
        simp only [Function.comp, Device.energy]
        rw [Bank.share_part hB.nodup hq]
        have := (hkp q hq).ne'
        have h2 := q.sgn_sq
        calc q.k * (q.sgn * (B.K / q.k) * x B.id) ^ 2 / 2
            = (q.sgn * q.sgn) * (q.k * (B.K / q.k * x B.id) ^ 2 / 2) := by ring
          _ = _ := by rw [h2]; field_simp]
    rw [List.sum_map_mul_right]
    simp only [Bank.device, List.map_cons, List.map_nil, List.sum_cons, List.sum_nil, Device.energy]
    have : (B.parts.map fun p => p.k⁻¹).sum * B.K = 1 := mul_inv_cancel₀ hk.ne'
    linear_combination (B.K * x B.id ^ 2 / 2) * this

end Arc
end Pyphs
