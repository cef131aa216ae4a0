/-
The names of merged components, and successive mergings.
-/
import Verif.Arc.Bank
import Mathlib.Data.List.Flatten

namespace Pyphs
namespace Arc
open System

/-- Names one after the other. -/
def cat (l : List String) : List Char := l.flatMap String.toList

/-- Names that can be put one after the other without ambiguity, and without the pattern by which the edges of
the terminals of a subgraph are recognised. -/
structure Names (ids : List String) : Prop where
  decode : ∀ l1 l2, (∀ i ∈ l1, i ∈ ids) → (∀ i ∈ l2, i ∈ ids) → cat l1 = cat l2 → l1 = l2
  out : ∀ l, (∀ i ∈ l, i ∈ ids) → ¬ "_out_".toList <:+: cat l

theorem Names.fresh {ids g : List String} (hN : Names ids) (hg : ∀ i ∈ g, i ∈ ids) (h2 : 2 ≤ g.length) :
    String.ofList (cat g) ∉ ids := by
  intro h
  have := hN.decode g [String.ofList (cat g)] hg (by simpa using h) (by simp [cat])
  rw [this] at h2
  simp at h2

theorem Names.merge {ids g rest : List String} (hN : Names ids) (hg : ∀ i ∈ g, i ∈ ids) (h2 : 2 ≤ g.length)
    (hr : ∀ i ∈ rest, i ∈ ids ∧ i ∉ g) : Names (rest ++ [String.ofList (cat g)]) := by
  have hf := hN.fresh hg h2
  let ex : String → List String := fun n => if n = String.ofList (cat g) then g else [n]
  have hcat : ∀ l, cat (l.flatMap ex) = cat l := by
    intro l
    induction l with
    | nil => rfl
    | cons n l ih =>
      simp only [cat, List.flatMap_cons, List.flatMap_append] at ih ⊢
      rw [ih]
      congr 1
      simp only [ex]
      split
      · rename_i h
        rw [h, String.toList_ofList]
        rfl
      · simp
  have hmem : ∀ l : List String, (∀ i ∈ l, i ∈ rest ++ [String.ofList (cat g)]) → ∀ i ∈ l.flatMap ex, i ∈ ids := by
    intro l hl i hi
    obtain ⟨n, hn, hi⟩ := List.mem_flatMap.1 hi
    simp only [ex] at hi
    split at hi
    · exact hg i hi
    · rename_i hne
      obtain rfl : i = n := by simpa using hi
      rcases List.mem_append.1 (hl i hn) with h | h
      · exact (hr i h).1
      · exact (hne (by simpa using h)).elim
  obtain ⟨g0, gs, rfl⟩ : ∃ a l, g = a :: l := by
    cases g with
    | nil => simp at h2
    | cons a l => exact ⟨a, l, rfl⟩
  constructor
  · intro l1 l2 h1 h2' hc
    have he : l1.flatMap ex = l2.flatMap ex :=
      hN.decode _ _ (hmem l1 h1) (hmem l2 h2') (by rw [hcat, hcat, hc])
    clear hc
    have hex : ∀ n, ∃ a l, ex n = a :: l := by
      intro n
      simp only [ex]
      split
      · exact ⟨_, _, rfl⟩
      · exact ⟨_, _, rfl⟩
    induction l1 generalizing l2 with
    | nil =>
      cases l2 with
      | nil => rfl
      | cons n l =>
        obtain ⟨a, k, h⟩ := hex n
        rw [List.flatMap_cons, h] at he
        simp at he
    | cons m l1 ih =>
      cases l2 with
      | nil =>
        obtain ⟨a, k, h⟩ := hex m
        rw [List.flatMap_cons, h] at he
        simp at he
      | cons n l2 =>
        have hmn : m = n := by
          rw [List.flatMap_cons, List.flatMap_cons] at he
          by_cases q1 : m = String.ofList (cat (g0 :: gs)) <;> by_cases q2 : n = String.ofList (cat (g0 :: gs))
          · rw [q1, q2]
          · exfalso
            simp only [ex, if_pos q1, if_neg q2, List.cons_append] at he
            injection he with he _
            rcases List.mem_append.1 (h2' n (by simp)) with h | h
            · exact (hr n h).2 (by simp [← he])
            · exact q2 (by simpa using h)
          · exfalso
            simp only [ex, if_pos q2, if_neg q1, List.cons_append] at he
            injection he with he _
            rcases List.mem_append.1 (h1 m (by simp)) with h | h
            · exact (hr m h).2 (by simp [he])
            · exact q1 (by simpa using h)
          · simp only [ex, if_neg q1, if_neg q2, List.cons_append] at he
            injection he with he _
        subst hmn
        rw [List.flatMap_cons, List.flatMap_cons] at he
        rw [ih l2 (fun i hi => h1 i (by simp [hi])) (fun i hi => h2' i (by simp [hi]))
          (List.append_cancel_left he)]
  · intro l hl
    rw [← hcat l]
    exact hN.out _ (hmem l hl)

/-- The names of the branches. -/
def idsOf (ds : List Device) : List String := (ds.flatMap Device.branches).map (·.id)

/-- Systems in which merging is safe. -/
structure Good (ds : List Device) : Prop where
  ids : (idsOf ds).Nodup
  positive : ∀ d ∈ ds, d.Positive
  names : Names (idsOf ds)

theorem bank_id (B : Bank) : B.id = String.ofList (cat B.ids) := by
  unfold Bank.id cat Bank.ids
  rw [List.flatMap_map]

theorem In.ids_mem {B : Bank} {ds : List Device} (hB : B.In ds) : ∀ i ∈ B.ids, i ∈ idsOf ds := by
  intro i hi
  obtain ⟨p, hp, rfl⟩ := List.mem_map.1 hi
  exact List.mem_map_of_mem (List.mem_flatMap.2 ⟨_, hB.mem p hp, by simp [Device.branches]⟩)

theorem Good.fresh {B : Bank} {ds : List Device} (h : Good ds) (hB : B.In ds) : B.id ∉ idsOf ds := by
  rw [bank_id]
  exact h.names.fresh (In.ids_mem hB) (by unfold Bank.ids; rw [List.length_map]; exact hB.two)

theorem idsOf_merge (B : Bank) (ds : List Device) :
    idsOf (B.merge ds) = idsOf (ds.filter fun d => !B.has d) ++ [B.id] := by
  unfold idsOf Bank.merge
  rw [List.flatMap_append, List.map_append]
  rfl

theorem Good.merge {B : Bank} {ds : List Device} (h : Good ds) (hB : B.In ds) : Good (B.merge ds) := by
  have hsub : ∀ i ∈ idsOf (ds.filter fun d => !B.has d), i ∈ idsOf ds ∧ i ∉ B.ids := by
    intro i hi
    obtain ⟨b, hb, rfl⟩ := List.mem_map.1 hi
    obtain ⟨d, hd, hb⟩ := List.mem_flatMap.1 hb
    obtain ⟨hd, hh⟩ := List.mem_filter.1 hd
    exact ⟨List.mem_map_of_mem (List.mem_flatMap.2 ⟨d, hd, hb⟩), not_has h.ids hB hd (by simpa using hh) hb⟩
  constructor
  · rw [idsOf_merge, List.nodup_append]
    refine ⟨?_, by simp, ?_⟩
    · have : (idsOf (ds.filter fun d => !B.has d)).Sublist (idsOf ds) :=
        (List.Sublist.flatMap (List.filter_sublist (l := ds)) Device.branches).map _
      exact this.nodup h.ids
    · intro a ha b hb hab
      obtain rfl : b = B.id := by simpa using hb
      subst hab
      exact h.fresh hB (hsub _ ha).1
  · intro d hd
    rcases mem_merge.1 hd with ⟨hd, -⟩ | rfl
    · exact h.positive d hd
    · exact K_pos hB h.positive
  · rw [idsOf_merge, bank_id]
    exact h.names.merge (In.ids_mem hB) (by unfold Bank.ids; rw [List.length_map]; exact hB.two) hsub

/-! ### Successive mergings -/

noncomputable def mergeAll (Bs : List Bank) (ds : List Device) : List Device := Bs.foldl (fun ds B => B.merge ds) ds

/-- Each bank is made of components of the system when it is merged. -/
def InAll : List Bank → List Device → Prop
  | [], _ => True
  | B :: Bs, ds => B.In ds ∧ InAll Bs (B.merge ds)

/-- The states or the fluxes of all the components. -/
noncomputable def shareAll : List Bank → (String → ℝ) → String → ℝ
  | [], x => x
  | B :: Bs, x => B.share (shareAll Bs x)

/-- The efforts of all the components. -/
noncomputable def copyAll : List Bank → (String → ℝ) → String → ℝ
  | [], E => E
  | B :: Bs, E => B.copy (copyAll Bs E)

noncomputable def gatherAll (Bs : List Bank) (x : String → ℝ) : String → ℝ := Bs.foldl (fun x B => B.gather x) x

noncomputable def firstAll (Bs : List Bank) (E : String → ℝ) : String → ℝ := Bs.foldl (fun E B => B.first E) E

theorem inAll_append {Bs Bs' : List Bank} : ∀ {ds : List Device}, InAll Bs ds → InAll Bs' (mergeAll Bs ds) →
    InAll (Bs ++ Bs') ds := by
  induction Bs with
  | nil => intro ds _ h; exact h
  | cons B Bs ih => intro ds h h'; exact ⟨h.1, ih h.2 h'⟩

theorem mergeAll_append (Bs Bs' : List Bank) (ds : List Device) :
    mergeAll (Bs ++ Bs') ds = mergeAll Bs' (mergeAll Bs ds) := List.foldl_append

theorem Good.mergeAll {Bs : List Bank} : ∀ {ds : List Device}, Good ds → InAll Bs ds → Good (mergeAll Bs ds) := by
  induction Bs with
  | nil => intro ds h _; exact h
  | cons B Bs ih => intro ds h hB; exact ih (h.merge hB.1) hB.2

/-- The equations of the merged system give those of the system, and the same energy. -/
theorem unmergeAll {Bs : List Bank} : ∀ {ds : List Device}, Good ds → InAll Bs ds → ∀ {ec : String → Prop}
    {fs ϑ : ℝ} {x dx u E F : String → ℝ}, Equations (mergeAll Bs ds) ec fs ϑ x dx u E F →
    Equations ds ec fs ϑ (shareAll Bs x) (shareAll Bs dx) u (copyAll Bs E) (shareAll Bs F) := by
  induction Bs with
  | nil => intro ds _ _ ec fs ϑ x dx u E F h; exact h
  | cons B Bs ih =>
    intro ds h hB ec fs ϑ x dx u E F he
    exact unmerge h.ids h.positive hB.1 (h.fresh hB.1) (ih (h.merge hB.1) hB.2 he)

theorem remergeAll {Bs : List Bank} : ∀ {ds : List Device}, Good ds → InAll Bs ds → ∀ {ec : String → Prop}
    {fs ϑ : ℝ} {x dx u E F : String → ℝ}, Equations ds ec fs ϑ x dx u E F →
    Equations (mergeAll Bs ds) ec fs ϑ (gatherAll Bs x) (gatherAll Bs dx) u (firstAll Bs E) (gatherAll Bs F) := by
  induction Bs with
  | nil => intro ds _ _ ec fs ϑ x dx u E F h; exact h
  | cons B Bs ih =>
    intro ds h hB ec fs ϑ x dx u E F he
    exact ih (h.merge hB.1) hB.2 (remerge h.ids h.positive hB.1 (h.fresh hB.1) he)

theorem storedAll {Bs : List Bank} : ∀ {ds : List Device}, Good ds → InAll Bs ds → ∀ x : String → ℝ,
    stored ds (shareAll Bs x) = stored (mergeAll Bs ds) x := by
  induction Bs with
  | nil => intro ds _ _ x; rfl
  | cons B Bs ih =>
    intro ds h hB x
    exact (stored_share h.ids h.positive hB.1 _).trans (ih (h.merge hB.1) hB.2 x)

end Arc
end Pyphs
