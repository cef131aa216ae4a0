/-
Specification vocabulary on matrices: symmetry, quadratic form, sign.
-/
import Verif.Mat.Lemmas
import Mathlib.Algebra.Order.BigOperators.Group.Finset
import Mathlib.Algebra.Order.Field.Basic

namespace Pyphs
namespace Mat
open Finset
variable {K : Type*} [Field K]

/-- Square and `A = -Aᵀ`. -/
def IsSkew (A : Mat K) : Prop := A.r = A.c ∧ ∀ i < A.r, ∀ j < A.r, A.e i j = - A.e j i

/-- Square and `A = Aᵀ`. -/
def IsSym (A : Mat K) : Prop := A.r = A.c ∧ ∀ i < A.r, ∀ j < A.r, A.e i j = A.e j i

/-- Inner product of two vectors of length `n`. -/
def dot (n : ℕ) (a b : ℕ → K) : K := ∑ i ∈ range n, a i * b i

/-- Power `aᵀ (A a)`. -/
def quad (A : Mat K) (a : ℕ → K) : K := dot A.r a (A.mv a)

/-- `aᵀ A a ≤ 0` for every vector: the structure `b = A a` is passive (never generates
power). -/
def Passive [LinearOrder K] [IsStrictOrderedRing K] (A : Mat K) : Prop :=
  A.r = A.c ∧ ∀ a : ℕ → K, A.quad a ≤ 0

/-- Symmetric with `aᵀ A a ≥ 0`. -/
def PSD [LinearOrder K] [IsStrictOrderedRing K] (A : Mat K) : Prop :=
  A.IsSym ∧ ∀ a : ℕ → K, 0 ≤ A.quad a

theorem dot_congr {n : ℕ} {a b a' b' : ℕ → K} (h1 : ∀ i < n, a i = a' i)
    (h2 : ∀ i < n, b i = b' i) : dot n a b = dot n a' b' :=
  Finset.sum_congr rfl fun i hi => by rw [h1 i (mem_range.1 hi), h2 i (mem_range.1 hi)]

theorem quad_eq (A : Mat K) (a : ℕ → K) :
    A.quad a = ∑ i ∈ range A.r, ∑ j ∈ range A.c, a i * A.e i j * a j := by
  unfold quad dot mv
  refine Finset.sum_congr rfl fun i _ => ?_
  rw [Finset.mul_sum]
  exact Finset.sum_congr rfl fun j _ => by ring

theorem quad_tr (A : Mat K) (h : A.r = A.c) (a : ℕ → K) : A.tr.quad a = A.quad a := by
  rw [quad_eq, quad_eq, Finset.sum_comm]
  simp only [tr]
  exact Finset.sum_congr rfl fun i _ => Finset.sum_congr rfl fun j _ => by ring

/-- Unit vectors. -/
def unitV (p : ℕ) : ℕ → K := fun i => if i = p then 1 else 0

theorem mv_unitV (A : Mat K) {p : ℕ} (hp : p < A.c) (i : ℕ) : A.mv (unitV p) i = A.e i p := by
  simp [mv, unitV, hp]

theorem dot_unitV {n p : ℕ} (hp : p < n) (b : ℕ → K) : dot n (unitV p) b = b p := by
  simp [dot, unitV, hp]

theorem dot_add_left (n : ℕ) (a a' b : ℕ → K) :
    dot n (fun i => a i + a' i) b = dot n a b + dot n a' b := by
  simp [dot, add_mul, Finset.sum_add_distrib]

theorem dot_add_right (n : ℕ) (a b b' : ℕ → K) :
    dot n a (fun i => b i + b' i) = dot n a b + dot n a b' := by
  simp [dot, mul_add, Finset.sum_add_distrib]

/-- A square matrix is skew-symmetric exactly when its quadratic form vanishes (characteristic
different from 2). -/
theorem isSkew_iff_quad (h2 : (2 : K) ≠ 0) (A : Mat K) (h : A.r = A.c) :
    A.IsSkew ↔ ∀ a, A.quad a = 0 := by
  constructor
  · rintro ⟨_, hs⟩ a
    have h1 : A.tr.quad a = - A.quad a := by
      rw [quad_eq, quad_eq, ← Finset.sum_neg_distrib]
      simp only [tr]
      rw [← h]
      refine Finset.sum_congr rfl fun i hi => ?_
      rw [← Finset.sum_neg_distrib]
      refine Finset.sum_congr rfl fun j hj => ?_
      rw [hs j (mem_range.1 hj) i (mem_range.1 hi)]; ring
    rw [quad_tr A h] at h1
    have : (2 : K) * A.quad a = 0 := by linear_combination h1
    exact (mul_eq_zero.1 this).resolve_left h2
  · intro hq
    refine ⟨h, fun p hp q hq' => ?_⟩
    have hd : ∀ p < A.r, A.e p p = 0 := by
      intro p hp
      have := hq (unitV p)
      rwa [quad, dot_unitV hp, mv_unitV A (h ▸ hp)] at this
    have := hq (fun i => unitV p i + unitV q i)
    unfold quad at this
    rw [dot_add_left, dot_unitV hp, dot_unitV hq', mv_add, mv_add,
      mv_unitV A (p := p) (h ▸ hp), mv_unitV A (p := p) (h ▸ hp),
      mv_unitV A (p := q) (h ▸ hq'), mv_unitV A (p := q) (h ▸ hq'),
      hd p hp, hd q hq'] at this
    linear_combination this

end Mat
end Pyphs
