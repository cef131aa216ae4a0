/-
What a fractional integrator or derivator computes (diffusive representation with real poles), with
no reference to graphs.
-/
import Mathlib.Algebra.BigOperators.Ring.Finset
import Mathlib.Algebra.Order.BigOperators.Ring.Finset
import Mathlib.Algebra.Field.Rat
import Mathlib.Algebra.Order.Ring.Rat
import Mathlib.Tactic.FieldSimp
import Mathlib.Tactic.LinearCombination
import Mathlib.Tactic.Linarith
import Mathlib.Tactic.Positivity

namespace Pyphs
namespace Frac
open Finset

section field
variable {K : Type} [Field K]

/-- Weight number `n`. -/
def muAt (poles : List (K × K)) (n : ℕ) : K := (poles.getD n (0, 0)).1
/-- Pole number `n`. -/
def xiAt (poles : List (K × K)) (n : ℕ) : K := (poles.getD n (0, 0)).2

/-- First-order filters `dq = u - ξ q` driven by the same input. -/
def Filters (poles : List (K × K)) (u : K) (q dq : ℕ → K) : Prop :=
  ∀ n < poles.length, dq n = u - xiAt poles n * q n

/-- `y = g ∑ μ q`: integrator of gain `g`. -/
def Integrator (g : K) (poles : List (K × K)) (u y : K) (q dq : ℕ → K) : Prop :=
  y = ∑ n ∈ range poles.length, g * muAt poles n * q n ∧ Filters poles u q dq

/-- `y = g ∑ μ dq`: derivator of gain `g`. -/
def Derivator (g : K) (poles : List (K × K)) (u y : K) (q dq : ℕ → K) : Prop :=
  y = ∑ n ∈ range poles.length, g * muAt poles n * dq n ∧ Filters poles u q dq

/-- `g ∑ μ / (s + ξ)`, the approximation of `g s^(-β)` that is optimised
(fractional_integrators.py:170-194). -/
def intTransfer (g : K) (poles : List (K × K)) (s : K) : K :=
  ∑ n ∈ range poles.length, g * muAt poles n / (s + xiAt poles n)

/-- `g ∑ μ s / (s + ξ)`, the approximation of `g s^α` that is optimised
(fractional_derivators.py:182-210). -/
def derTransfer (g : K) (poles : List (K × K)) (s : K) : K :=
  ∑ n ∈ range poles.length, g * muAt poles n * s / (s + xiAt poles n)

theorem Filters.regime {poles : List (K × K)} {u : K} {q dq : ℕ → K} (h : Filters poles u q dq) {s : K}
    (hs : ∀ n < poles.length, dq n = s * q n) (h0 : ∀ n < poles.length, s + xiAt poles n ≠ 0)
    {n : ℕ} (hn : n < poles.length) : q n = u / (s + xiAt poles n) := by
  rw [eq_div_iff (h0 n hn)]
  have h1 := h n hn
  rw [hs n hn] at h1
  linear_combination h1

/-- C61. In the regime `exp (s t)`, an integrator multiplies its input by its transfer function. -/
theorem C61_integrator_transfer {g : K} {poles : List (K × K)} {u y : K} {q dq : ℕ → K}
    (h : Integrator g poles u y q dq) {s : K} (hs : ∀ n < poles.length, dq n = s * q n)
    (h0 : ∀ n < poles.length, s + xiAt poles n ≠ 0) : y = intTransfer g poles s * u := by
  rw [h.1, intTransfer, Finset.sum_mul]
  refine Finset.sum_congr rfl fun n hn => ?_
  rw [h.2.regime hs h0 (mem_range.1 hn)]
  ring

/-- C61. In the regime `exp (s t)`, a derivator multiplies its input by its transfer function. -/
theorem C61_derivator_transfer {g : K} {poles : List (K × K)} {u y : K} {q dq : ℕ → K}
    (h : Derivator g poles u y q dq) {s : K} (hs : ∀ n < poles.length, dq n = s * q n)
    (h0 : ∀ n < poles.length, s + xiAt poles n ≠ 0) : y = derTransfer g poles s * u := by
  rw [h.1, derTransfer, Finset.sum_mul]
  refine Finset.sum_congr rfl fun n hn => ?_
  rw [hs n (mem_range.1 hn), h.2.regime hs h0 (mem_range.1 hn)]
  ring

end field

section order
variable {K : Type} [Field K] [LinearOrder K] [IsStrictOrderedRing K]

/-- C61. The power received is at least the derivative of `∑ g μ q² / 2`. -/
theorem C61_integrator_passive {g : K} {poles : List (K × K)} {u y : K} {q dq : ℕ → K}
    (h : Integrator g poles u y q dq) (hg : 0 ≤ g)
    (hm : ∀ n < poles.length, 0 ≤ muAt poles n ∧ 0 ≤ xiAt poles n) :
    ∑ n ∈ range poles.length, g * muAt poles n * q n * dq n ≤ u * y := by
  rw [h.1, Finset.mul_sum]
  refine Finset.sum_le_sum fun n hn => ?_
  have hn := mem_range.1 hn
  have e : u = dq n + xiAt poles n * q n := by rw [h.2 n hn]; ring
  have h1 := (hm n hn).1
  have h2 := (hm n hn).2
  have h3 : 0 ≤ g * muAt poles n * xiAt poles n * (q n * q n) :=
    mul_nonneg (mul_nonneg (mul_nonneg hg h1) h2) (mul_self_nonneg _)
  rw [e]
  nlinarith

/-- C61. The power received is at least the derivative of `∑ g μ ξ q² / 2`. -/
theorem C61_derivator_passive {g : K} {poles : List (K × K)} {u y : K} {q dq : ℕ → K}
    (h : Derivator g poles u y q dq) (hg : 0 ≤ g)
    (hm : ∀ n < poles.length, 0 ≤ muAt poles n) :
    ∑ n ∈ range poles.length, g * muAt poles n * xiAt poles n * q n * dq n ≤ u * y := by
  rw [h.1, Finset.mul_sum]
  refine Finset.sum_le_sum fun n hn => ?_
  have hn := mem_range.1 hn
  have e : u = dq n + xiAt poles n * q n := by rw [h.2 n hn]; ring
  have h3 : 0 ≤ g * muAt poles n * (dq n * dq n) :=
    mul_nonneg (mul_nonneg hg (hm n hn)) (mul_self_nonneg _)
  rw [e]
  nlinarith

end order

example : Integrator (2 : ℚ) [(1, 1), (3, 4)] 5 8 (fun _ => 1) (fun n => if n = 0 then 4 else 1) := by
  refine ⟨by decide +kernel, ?_⟩
  intro n hn
  have : n = 0 ∨ n = 1 := by simp at hn; omega
  rcases this with rfl | rfl <;> decide +kernel

example : intTransfer (2 : ℚ) [(1, 1), (3, 4)] 1 = 11 / 5 ∧ derTransfer (2 : ℚ) [(1, 1), (3, 4)] 2 = 10 / 3 := by
  decide +kernel

end Frac
end Pyphs
