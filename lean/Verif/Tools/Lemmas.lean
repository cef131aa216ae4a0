import Verif.Tools.Model
import Mathlib.Data.List.Range
import Mathlib.Data.List.Perm.Basic
import Mathlib.Data.List.InsertIdx
import Mathlib.Data.List.Nodup
import Mathlib.Tactic.Common
import Mathlib.Tactic.Ring

namespace Pyphs

theorem slice_length {α : Type*} (l : List α) (a b : ℕ) :
    (slice l a b).length = min b l.length - a := by
  simp [slice]

/-- Entry `k` of `myrange N i j` when `j < N`. -/
def mrIdx (i j k : ℕ) : ℕ :=
  if k = j then i
  else if i ≤ k ∧ k < j then k + 1
  else if j < k ∧ k ≤ i then k - 1
  else k

theorem myrange_eq_map (N i j : ℕ) (hi : i < N) :
    myrange N i j = some ((List.range N).map (mrIdx i (min j (N - 1)))) := by
  have hget : (List.range N)[i]? = some i := by simp [hi]
  unfold myrange
  simp only [hget]
  split_ifs with h1 h2
  · congr 1
    apply List.ext_getElem?
    intro k
    simp only [slice, List.getElem?_append, List.getElem?_map, List.length_append,
      List.length_take, List.length_drop, List.length_range, List.getElem?_take,
      List.getElem?_drop, List.getElem?_range, List.length_cons, List.length_nil,
      List.getElem?_cons]
    by_cases hk : k < N
    · simp only [List.getElem?_range, hk, Option.map_some, mrIdx]
      split_ifs <;> first | omega | (simp [List.getElem?_eq_some_iff]; done) | (simp [List.getElem?_eq_some_iff]; omega)
    · simp only [List.getElem?_eq_none_iff.2 (show (List.range N).length ≤ k by simpa using hk),
        Option.map_none]
      split_ifs <;> first | omega | rfl | (simp; omega)
  · congr 1
    apply List.ext_getElem?
    intro k
    simp only [slice, List.getElem?_append, List.getElem?_map, List.length_append,
      List.length_take, List.length_drop, List.length_range, List.getElem?_take,
      List.getElem?_drop, List.getElem?_range, List.length_cons, List.length_nil,
      List.getElem?_cons]
    by_cases hk : k < N
    · simp only [List.getElem?_range, hk, Option.map_some, mrIdx]
      split_ifs <;> first | omega | (simp [List.getElem?_eq_some_iff]; done) | (simp [List.getElem?_eq_some_iff]; omega)
    · simp only [List.getElem?_eq_none_iff.2 (show (List.range N).length ≤ k by simpa using hk),
        Option.map_none]
      split_ifs <;> first | omega | rfl | (simp; omega)
  · have : i = j := by omega
    subst this
    congr 1
    apply List.ext_getElem?
    intro k
    by_cases hk : k < N
    · simp [hk, mrIdx]
      split_ifs <;> omega
    · simp [hk]

theorem mrIdx_lt {N i j k : ℕ} (hi : i < N) (hj : j < N) (hk : k < N) : mrIdx i j k < N := by
  unfold mrIdx; split_ifs <;> omega

theorem mrIdx_inv (i j k : ℕ) : mrIdx j i (mrIdx i j k) = k := by
  unfold mrIdx; split_ifs <;> omega

theorem mrIdx_injective (i j : ℕ) : Function.Injective (mrIdx i j) :=
  fun a b h => by rw [← mrIdx_inv i j a, h, mrIdx_inv]

theorem perm_range_of_inj {N : ℕ} {f : ℕ → ℕ} (hf : Function.Injective f)
    (hlt : ∀ k < N, f k < N) : ((List.range N).map f).Perm (List.range N) := by
  have hnd : ((List.range N).map f).Nodup := List.nodup_range.map hf
  have hsub : (List.range N).map f ⊆ List.range N := by
    intro a ha
    simp only [List.mem_map, List.mem_range] at *
    obtain ⟨k, hk, rfl⟩ := ha
    exact hlt k hk
  exact (List.subperm_of_subset hnd hsub).perm_of_length_le (by simp)

theorem myrange_perm {N i j : ℕ} {l : List ℕ} (h : myrange N i j = some l) (hi : i < N) :
    l.Perm (List.range N) := by
  rw [myrange_eq_map N i j hi] at h
  obtain rfl := Option.some.inj h
  exact perm_range_of_inj (mrIdx_injective _ _) fun k hk => mrIdx_lt hi (by omega) hk

theorem myrange_none_iff (N i j : ℕ) : myrange N i j = none ↔ N ≤ i ∧ i ≠ j := by
  by_cases hi : i < N
  · rw [myrange_eq_map N i j hi]; simp; omega
  · have hget : (List.range N)[i]? = none := by simp; omega
    unfold myrange
    simp only [hget]
    split_ifs <;> simp <;> omega

end Pyphs
