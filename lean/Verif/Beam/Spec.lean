/-
The modal equations of a beam with contacts, with no reference to graphs.
-/
import Mathlib.Algebra.BigOperators.Ring.Finset
import Mathlib.Algebra.Order.BigOperators.Ring.Finset
import Mathlib.Algebra.Field.Rat
import Mathlib.Algebra.Order.Ring.Rat
import Mathlib.Tactic.FieldSimp
import Mathlib.Tactic.LinearCombination
import Mathlib.Tactic.Linarith
import Mathlib.Tactic.Positivity

namespace Pyphs
namespace Beam
open Finset

section field
variable {K : Type} [Field K]

/-- `N` modes of mass `m`, stiffnesses `k` and dampings `a`, with displacements `q` and velocities `v`,
driven at `C` contacts with shapes `ω n i` (contact `n`, mode `i`). `V n` is the velocity of the beam at
contact `n` and `f n` the force that it receives there. -/
structure Modal (N C : ℕ) (m : K) (k a : ℕ → K) (ω : ℕ → ℕ → K) (q v dq dv V f : ℕ → K) : Prop where
  disp : ∀ i < N, dq i = v i
  force : ∀ i < N, m * dv i + a i * v i + k i * q i = ∑ n ∈ range C, ω n i * f n
  vel : ∀ n < C, V n = ∑ i ∈ range N, ω n i * v i

variable {N C : ℕ} {m : K} {k a : ℕ → K} {ω : ℕ → ℕ → K} {q v dq dv V f : ℕ → K}

/-- C76. The power received at the contacts is the derivative of the energy
`∑ (m v² + k q²) / 2` plus the dissipated power `∑ a v²`. -/
theorem C76_power (h : Modal N C m k a ω q v dq dv V f) :
    ∑ n ∈ range C, f n * V n =
      ∑ i ∈ range N, (m * v i * dv i + k i * q i * dq i) + ∑ i ∈ range N, a i * v i ^ 2 := by
  have e : ∑ n ∈ range C, f n * V n = ∑ i ∈ range N, v i * ∑ n ∈ range C, ω n i * f n := by
    simp only [Finset.mul_sum]
    rw [Finset.sum_comm]
    refine Finset.sum_congr rfl fun n hn => ?_
    rw [h.vel n (mem_range.1 hn), Finset.mul_sum]
    exact Finset.sum_congr rfl fun i _ => by ring
  rw [e, ← Finset.sum_add_distrib]
  refine Finset.sum_congr rfl fun i hi => ?_
  have hi := mem_range.1 hi
  rw [← h.force i hi, h.disp i hi]
  ring

/-- Mobility between contacts `n` and `n'` at the complex frequency `s`. -/
def mobility (N : ℕ) (m : K) (k a : ℕ → K) (ω : ℕ → ℕ → K) (s : K) (n n' : ℕ) : K :=
  ∑ i ∈ range N, ω n i * ω n' i * s / (m * s ^ 2 + a i * s + k i)

omit [Field K] in
/-- C76. In the regime `exp (s t)`, the velocities at the contacts are the forces multiplied by the
modal mobilities. -/
theorem C76_mobility [Field K] {N C : ℕ} {m : K} {k a : ℕ → K} {ω : ℕ → ℕ → K} {q v dq dv V f : ℕ → K}
    (h : Modal N C m k a ω q v dq dv V f) {s : K}
    (hq : ∀ i < N, dq i = s * q i) (hv : ∀ i < N, dv i = s * v i)
    (h0 : ∀ i < N, m * s ^ 2 + a i * s + k i ≠ 0) {n : ℕ} (hn : n < C) :
    V n = ∑ n' ∈ range C, mobility N m k a ω s n n' * f n' := by
  rw [h.vel n hn]
  simp only [mobility, Finset.sum_mul]
  rw [Finset.sum_comm]
  refine Finset.sum_congr rfl fun i hi => ?_
  have hi := mem_range.1 hi
  have e1 := h.force i hi
  have e2 := h.disp i hi
  rw [hq i hi] at e2
  rw [hv i hi] at e1
  have e3 : v i = s * (∑ n ∈ range C, ω n i * f n) / (m * s ^ 2 + a i * s + k i) := by
    rw [eq_div_iff (h0 i hi), ← e1, ← e2]
    ring
  rw [e3, Finset.mul_sum, div_eq_mul_inv, Finset.sum_mul, Finset.mul_sum]
  refine Finset.sum_congr rfl fun n' _ => ?_
  ring

/-- C76. Reciprocity of the contacts. -/
theorem C76_reciprocal (N : ℕ) (m : K) (k a : ℕ → K) (ω : ℕ → ℕ → K) (s : K) (n n' : ℕ) :
    mobility N m k a ω s n n' = mobility N m k a ω s n' n :=
  Finset.sum_congr rfl fun i _ => by ring

end field

section order
variable {K : Type} [Field K] [LinearOrder K] [IsStrictOrderedRing K]
variable {N C : ℕ} {m : K} {k a : ℕ → K} {ω : ℕ → ℕ → K} {q v dq dv V f : ℕ → K}

/-- C76. With dampings that are not negative the beam is passive. -/
theorem C76_passive (h : Modal N C m k a ω q v dq dv V f) (ha : ∀ i < N, 0 ≤ a i) :
    ∑ i ∈ range N, (m * v i * dv i + k i * q i * dq i) ≤ ∑ n ∈ range C, f n * V n := by
  rw [C76_power h]
  have : 0 ≤ ∑ i ∈ range N, a i * v i ^ 2 :=
    Finset.sum_nonneg fun i hi => mul_nonneg (ha i (mem_range.1 hi)) (sq_nonneg _)
  linarith

end order

end Beam
end Pyphs
