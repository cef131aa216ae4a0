/-
Names and sums for the fractional components.
-/
import Verif.Frac.Model
import Std.Data.String.ToNat
import Mathlib.Algebra.BigOperators.Intervals
import Mathlib.Algebra.BigOperators.Ring.Finset

namespace Pyphs
namespace Frac
open Graph Finset

/-! ### Names -/

theorem append_left_cancel {a b c : String} (h : a ++ b = a ++ c) : b = c := by
  have := congrArg String.toList h
  simp only [String.toList_append, List.append_cancel_left_eq] at this
  exact String.toList_inj.1 this

theorem append_right_cancel {a b c : String} (h : b ++ a = c ++ a) : b = c := by
  have := congrArg String.toList h
  simp only [String.toList_append, List.append_cancel_right_eq] at this
  exact String.toList_inj.1 this

theorem name_inj {pre suf : String} {n m : ℕ} (h : pre ++ n.repr ++ suf = pre ++ m.repr ++ suf) :
    n = m := Nat.repr_inj.1 (append_left_cancel (append_right_cancel h))

theorem name_suffix {a b : String} : a ++ "_1" ≠ b ++ "_2" := by
  intro h
  have := congrArg (fun s : String => s.toList.getLast?) h
  simp only [String.toList_append, List.getLast?_append] at this
  simp at this

theorem takeWhile_digits (n : ℕ) (t : List Char) :
    (n.repr.toList ++ 't' :: t).takeWhile Char.isDigit = n.repr.toList := by
  have h : ∀ c ∈ n.repr.toList, c.isDigit = true := by
    intro c hc
    rw [Nat.toList_repr] at hc
    exact Nat.isDigit_of_mem_toDigits (by decide) (by decide) hc
  rw [List.takeWhile_append_of_pos h]
  simp

theorem chain_inj {pre : String} {n m : ℕ}
    (h : pre ++ n.repr ++ "to" ++ (n + 1).repr = pre ++ m.repr ++ "to" ++ (m + 1).repr) : n = m := by
  have h1 : n.repr ++ ("to" ++ (n + 1).repr) = m.repr ++ ("to" ++ (m + 1).repr) := by
    apply append_left_cancel (a := pre)
    simpa only [String.append_assoc] using h
  have h2 := congrArg (fun s : String => s.toList.takeWhile Char.isDigit) h1
  simp only [String.toList_append] at h2
  have e : "to".toList = 't' :: "o".toList := by decide
  rw [e, List.cons_append, takeWhile_digits, List.cons_append, takeWhile_digits] at h2
  exact Nat.repr_inj.1 (String.toList_inj.1 h2)

/-! ### Sums -/

variable {K : Type} [Field K]

/-- Flow leaving node `v` through the edges `es`. -/
def leaving (es : List (Edge K)) (F : String → K) (v : String) : K :=
  (es.map fun d => (sign d v : K) * F d.label).sum

omit [Field K] in
theorem edgesOf_append (a b : List (Part K)) : edgesOf (a ++ b) = edgesOf a ++ edgesOf b :=
  List.flatMap_append

theorem leaving_append (a b : List (Edge K)) (F : String → K) (v : String) :
    leaving (a ++ b) F v = leaving a F v + leaving b F v := by
  simp [leaving]

theorem leaving_cells (cell : ℕ → List (Part K)) (F : String → K) (v : String) (N : ℕ) :
    leaving (edgesOf ((List.range N).flatMap cell)) F v =
      ∑ n ∈ range N, leaving (edgesOf (cell n)) F v := by
  induction N with
  | zero => rfl
  | succ N ih =>
    rw [List.range_succ, List.flatMap_append, edgesOf_append, leaving_append, ih,
      Finset.sum_range_succ]
    simp

theorem leaving_zero {es : List (Edge K)} {F : String → K} {v : String}
    (h : ∀ d ∈ es, d.tail ≠ v ∧ d.head ≠ v) : leaving es F v = 0 := by
  unfold leaving
  refine List.sum_eq_zero ?_
  intro x hx
  obtain ⟨d, hd, rfl⟩ := List.mem_map.1 hx
  have := h d hd
  simp [sign, Ne.symm this.1, Ne.symm this.2]

end Frac
end Pyphs
