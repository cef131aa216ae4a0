/-
C76: the labels of the edges of a beam are distinct if it has at most ten contacts or at most ten modes,
and are not if it has twelve contacts and eleven modes.
-/
import Verif.Beam.Props

namespace Pyphs
namespace Beam
open Graph Frac

theorem repr_length {n : ℕ} (h : n < 10) : n.repr.toList.length = 1 := by
  interval_cases n <;> decide

theorem transName_cancel {label : String} {n i n' i' : ℕ} (h : transName label n i = transName label n' i') :
    n.repr.toList ++ i.repr.toList = n'.repr.toList ++ i'.repr.toList := by
  unfold transName at h
  have h1 : label ++ ("T" ++ (n.repr ++ i.repr)) = label ++ ("T" ++ (n'.repr ++ i'.repr)) := by
    simpa only [String.append_assoc] using h
  have h2 := append_left_cancel (append_left_cancel h1)
  simpa only [String.toList_append] using congrArg String.toList h2

theorem transName_inj_small {label : String} {n i n' i' : ℕ}
    (hs : (n < 10 ∧ n' < 10) ∨ (i < 10 ∧ i' < 10))
    (h : transName label n i = transName label n' i') : n = n' ∧ i = i' := by
  have h1 := transName_cancel h
  rcases hs with ⟨a, b⟩ | ⟨a, b⟩
  · obtain ⟨e1, e2⟩ := List.append_inj h1 (by rw [repr_length a, repr_length b])
    exact ⟨Nat.repr_inj.1 (String.toList_inj.1 e1), Nat.repr_inj.1 (String.toList_inj.1 e2)⟩
  · obtain ⟨e1, e2⟩ := List.append_inj' h1 (by rw [repr_length a, repr_length b])
    exact ⟨Nat.repr_inj.1 (String.toList_inj.1 e1), Nat.repr_inj.1 (String.toList_inj.1 e2)⟩

theorem first_ne {a b : String} {x y : String} (h : x.toList.head? ≠ y.toList.head?)
    (hx : x.toList ≠ []) (hy : y.toList ≠ []) : x ++ a ≠ y ++ b := by
  intro e
  have := congrArg (fun s : String => s.toList.head?) e
  simp only [String.toList_append, List.head?_append] at this
  obtain ⟨c, l, hc⟩ := List.exists_cons_of_ne_nil hx
  obtain ⟨d, m, hd⟩ := List.exists_cons_of_ne_nil hy
  rw [hc, hd] at this h
  exact h (by simpa using this)

theorem last_ne {a b : String} : a ++ "1" ≠ b ++ "2" := by
  intro e
  have := congrArg (fun s : String => s.toList.getLast?) e
  simp [String.toList_append] at this

variable {K : Type} [Field K]

/-- C76. The labels of the edges of the beam are distinct if it has at most ten contacts or at most ten
modes. -/
theorem C76_names (label : String) (contacts : List String) (Mb Kb : K) (ks as : List K)
    (omega : ℕ → K → K) (hs : contacts.length ≤ 10 ∨ ks.length ≤ 10) :
    ((edgesOf (beam label contacts Mb Kb ks as omega)).map (·.label)).Nodup := by
  have hinj : ∀ n < contacts.length, ∀ i < ks.length, ∀ n' < contacts.length, ∀ i' < ks.length,
      transName label n i = transName label n' i' → n = n' ∧ i = i' := by
    intro n hn i hi n' hn' i' hi'
    exact transName_inj_small (by omega)
  have e : (edgesOf (beam label contacts Mb Kb ks as omega)).map (·.label) =
      (List.range ks.length).map (fun i => "x" ++ (label ++ "K" ++ i.repr)) ++
      ((List.range ks.length).map (fun i => "x" ++ (label ++ "M" ++ i.repr)) ++
      ((List.range ks.length).map (fun i => "w" ++ (label ++ "A" ++ i.repr)) ++
      (List.range contacts.length).flatMap fun n => (List.range ks.length).flatMap fun i =>
        ["y" ++ transName label n i ++ "1", "y" ++ transName label n i ++ "2"])) := by
    simp [beam, edgesOf, List.flatMap_append, List.flatMap_map, List.map_flatMap, List.flatMap_assoc,
      stiffness, mass, damper, transfo, Frac.Part.edges, edgeS, edgeD, edgeA, edgeB, List.map_eq_flatMap]
  rw [e]
  have single : ∀ (x y : String), ((List.range ks.length).map fun i => x ++ (label ++ y ++ i.repr)).Nodup := by
    intro x y
    refine List.Nodup.map (fun i j h => ?_) List.nodup_range
    exact Nat.repr_inj.1 (append_left_cancel (append_left_cancel h))
  have mid : ∀ (x y y' : String) (i j : ℕ), y.toList.head? ≠ y'.toList.head? → y.toList ≠ [] →
      y'.toList ≠ [] → x ++ (label ++ y ++ i.repr) ≠ x ++ (label ++ y' ++ j.repr) := by
    intro x y y' i j h1 h2 h3 h
    have := append_left_cancel h
    simp only [String.append_assoc] at this
    exact first_ne h1 h2 h3 (append_left_cancel this)
  have isY : ∀ s, s ∈ ((List.range contacts.length).flatMap fun n => (List.range ks.length).flatMap fun i =>
      ["y" ++ transName label n i ++ "1", "y" ++ transName label n i ++ "2"]) → ∃ t, s = "y" ++ t := by
    intro s hs
    obtain ⟨n, -, hs⟩ := List.mem_flatMap.1 hs
    obtain ⟨i, -, hs⟩ := List.mem_flatMap.1 hs
    simp only [List.mem_cons, List.not_mem_nil, or_false] at hs
    rcases hs with rfl | rfl
    · exact ⟨_, String.append_assoc ..⟩
    · exact ⟨_, String.append_assoc ..⟩
  refine List.nodup_append.2 ⟨single _ _, List.nodup_append.2 ⟨single _ _, List.nodup_append.2
    ⟨single _ _, ?_, ?_⟩, ?_⟩, ?_⟩
  · refine List.nodup_flatMap.2 ⟨?_, ?_⟩
    · intro n hn
      refine List.nodup_flatMap.2 ⟨?_, ?_⟩
      · intro i _
        simp only [List.nodup_cons, List.mem_singleton, List.not_mem_nil, not_false_eq_true,
          List.nodup_nil, and_true]
        exact last_ne
      · refine List.Pairwise.imp_of_mem ?_ List.nodup_range
        intro i j hi hj hij s h1 h2
        simp only [List.mem_cons, List.not_mem_nil, or_false] at h1 h2
        rcases h1 with rfl | rfl <;> rcases h2 with h2 | h2
        · exact hij (hinj n (List.mem_range.1 hn) i (List.mem_range.1 hi) n (List.mem_range.1 hn) j
            (List.mem_range.1 hj) (append_left_cancel (append_right_cancel h2))).2
        · exact last_ne h2
        · exact last_ne h2.symm
        · exact hij (hinj n (List.mem_range.1 hn) i (List.mem_range.1 hi) n (List.mem_range.1 hn) j
            (List.mem_range.1 hj) (append_left_cancel (append_right_cancel h2))).2
    · refine List.Pairwise.imp_of_mem ?_ List.nodup_range
      intro n m hn hm hnm s h1 h2
      obtain ⟨i, hi, h1⟩ := List.mem_flatMap.1 h1
      obtain ⟨j, hj, h2⟩ := List.mem_flatMap.1 h2
      simp only [List.mem_cons, List.not_mem_nil, or_false] at h1 h2
      rcases h1 with rfl | rfl <;> rcases h2 with h2 | h2
      · exact hnm (hinj n (List.mem_range.1 hn) i (List.mem_range.1 hi) m (List.mem_range.1 hm) j
          (List.mem_range.1 hj) (append_left_cancel (append_right_cancel h2))).1
      · exact last_ne h2
      · exact last_ne h2.symm
      · exact hnm (hinj n (List.mem_range.1 hn) i (List.mem_range.1 hi) m (List.mem_range.1 hm) j
          (List.mem_range.1 hj) (append_left_cancel (append_right_cancel h2))).1
  · rintro a ha b hb rfl
    obtain ⟨i, -, rfl⟩ := List.mem_map.1 ha
    obtain ⟨t, ht⟩ := isY _ hb
    exact first_ne (by decide) (by decide) (by decide) ht
  · rintro a ha b hb rfl
    obtain ⟨i, -, rfl⟩ := List.mem_map.1 ha
    rcases List.mem_append.1 hb with hb | hb
    · obtain ⟨j, -, hj⟩ := List.mem_map.1 hb
      exact first_ne (by decide) (by decide) (by decide) hj
    · obtain ⟨t, ht⟩ := isY _ hb
      exact first_ne (by decide) (by decide) (by decide) ht
  · rintro a ha b hb rfl
    obtain ⟨i, -, rfl⟩ := List.mem_map.1 ha
    rcases List.mem_append.1 hb with hb | hb
    · obtain ⟨j, -, hj⟩ := List.mem_map.1 hb
      exact mid "x" "M" "K" _ _ (by decide) (by decide) (by decide) hj
    rcases List.mem_append.1 hb with hb | hb
    · obtain ⟨j, -, hj⟩ := List.mem_map.1 hb
      exact first_ne (by decide) (by decide) (by decide) hj
    · obtain ⟨t, ht⟩ := isY _ hb
      exact first_ne (by decide) (by decide) (by decide) ht

/-- C76. With twelve contacts and eleven modes two edges have the same label: `T` `1` `10` and
`T` `11` `0`. -/
theorem C76_collision (label : String) (contacts : List String) (Mb Kb : K) (ks as : List K)
    (omega : ℕ → K → K) (h1 : 12 ≤ contacts.length) (h2 : 11 ≤ ks.length) :
    ¬ ((edgesOf (beam label contacts Mb Kb ks as omega)).map (·.label)).Nodup := by
  intro h
  have e : transName label 1 10 = transName label 11 0 := by
    unfold transName
    simp only [String.append_assoc]
    have : Nat.repr 1 ++ Nat.repr 10 = Nat.repr 11 ++ Nat.repr 0 := by decide
    rw [this]
  have := transName_inj h (by omega) (by omega) (by omega) (by omega) e
  omega

end Beam
end Pyphs
