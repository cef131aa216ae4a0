import Verif.Mat.Model
import Mathlib.LinearAlgebra.Matrix.NonsingularInverse
import Mathlib.LinearAlgebra.Matrix.Adjugate
import Mathlib.Tactic.Ring
import Mathlib.Tactic.FieldSimp
import Mathlib.Tactic.LinearCombination

namespace Pyphs
namespace Mat
open Finset
variable {K : Type*} [Field K]

/-- View of the top-left `n × m` entries as a Mathlib matrix. -/
def toM (n m : ℕ) (f : ℕ → ℕ → K) : Matrix (Fin n) (Fin m) K := fun i j => f i j

theorem detN_eq (n : ℕ) (f : ℕ → ℕ → K) : detN n f = (toM n n f).det := by
  induction n generalizing f with
  | zero => simp [detN]
  | succ n ih =>
    rw [detN, Matrix.det_succ_row_zero, Finset.sum_range]
    apply Finset.sum_congr rfl
    intro j _
    rw [ih]
    congr 2
    ext i k
    simp only [toM, Matrix.submatrix_apply, Fin.val_succ]
    congr 1
    simp only [Fin.succAbove, Fin.lt_def]
    split_ifs <;> simp_all <;> omega

/-- Two-sided inverse, the specification of `inverse`. -/
def IsInv (A B : Mat K) : Prop :=
  A.r = A.c ∧ B.r = A.r ∧ B.c = A.r ∧
  (∀ i < A.r, ∀ j < A.r, ∑ k ∈ range A.r, A.e i k * B.e k j = if i = j then 1 else 0) ∧
  (∀ i < A.r, ∀ j < A.r, ∑ k ∈ range A.r, B.e i k * A.e k j = if i = j then 1 else 0)

theorem toM_mul (n : ℕ) (f g : ℕ → ℕ → K) (i j : Fin n) :
    (toM n n f * toM n n g) i j = ∑ k ∈ range n, f i k * g k j := by
  rw [Matrix.mul_apply, Finset.sum_range]; rfl

theorem isInv_iff_toM (A B : Mat K) (h : A.r = A.c) (hr : B.r = A.r) (hc : B.c = A.r) :
    IsInv A B ↔ toM A.r A.r A.e * toM A.r A.r B.e = 1 := by
  constructor
  · rintro ⟨_, _, _, h1, _⟩
    ext i j
    rw [toM_mul, h1 i i.2 j j.2, Matrix.one_apply]
    simp [Fin.ext_iff]
  · intro h1
    have h2 := mul_eq_one_comm.1 h1
    refine ⟨h, hr, hc, fun i hi j hj => ?_, fun i hi j hj => ?_⟩
    · have := toM_mul A.r A.e B.e ⟨i, hi⟩ ⟨j, hj⟩
      rw [h1, Matrix.one_apply] at this
      simpa [Fin.ext_iff] using this.symm
    · have := toM_mul A.r B.e A.e ⟨i, hi⟩ ⟨j, hj⟩
      rw [h2, Matrix.one_apply] at this
      simpa [Fin.ext_iff] using this.symm

theorem inv_toM [DecidableEq K] (n : ℕ) (f : ℕ → ℕ → K) :
    toM n n (fun i j => (-1) ^ (i + j) * detN (n - 1) (minor f j i) / detN n f)
      = (toM n n f)⁻¹ := by
  rw [Matrix.inv_def, ← detN_eq]
  ext i j
  cases n with
  | zero => exact i.elim0
  | succ n =>
    rw [Matrix.smul_apply, Matrix.adjugate_fin_succ_eq_det_submatrix, Ring.inverse_eq_inv',
      smul_eq_mul]
    show (-1) ^ ((i : ℕ) + (j : ℕ)) * detN (n + 1 - 1) (minor f j i) / detN (n+1) f = _
    rw [Nat.add_sub_cancel, detN_eq n]
    have : toM n n (minor f j i) = (toM (n+1) (n+1) f).submatrix j.succAbove i.succAbove := by
      ext a b
      simp only [toM, minor, Matrix.submatrix_apply, Fin.succAbove, Fin.lt_def]
      congr 1 <;> split_ifs <;> simp_all <;> omega
    rw [this, add_comm (i : ℕ) (j : ℕ)]
    ring

/-- `inverse` returns a two-sided inverse whenever it returns, and raises only when there is
none: the mathematical specification of the library call. -/
theorem inv_spec [DecidableEq K] (A : Mat K) :
    match inv A with
    | some B => IsInv A B
    | none => ∀ B, ¬ IsInv A B := by
  unfold inv
  split_ifs with h1 h2
  · simp only
    intro B hB; exact h1 hB.1
  · simp only
    intro B hB
    have := (isInv_iff_toM A B hB.1 hB.2.1 hB.2.2.1).1 hB
    have hd := congrArg Matrix.det this
    rw [Matrix.det_mul, ← detN_eq, h2, zero_mul, Matrix.det_one] at hd
    exact zero_ne_one hd
  · simp only
    push Not at h1
    refine (isInv_iff_toM A _ h1 (by rfl) (by rfl)).2 ?_
    simp only
    rw [inv_toM]
    apply Matrix.mul_nonsing_inv
    rw [← detN_eq]
    exact isUnit_iff_ne_zero.2 h2

theorem inv_isInv [DecidableEq K] {A B : Mat K} (h : inv A = some B) : IsInv A B := by
  have := inv_spec A
  rw [h] at this
  exact this

theorem inv_eq_none_iff [DecidableEq K] {A : Mat K} : inv A = none ↔ ∀ B, ¬ IsInv A B := by
  have := inv_spec A
  constructor
  · intro h; rw [h] at this; exact this
  · intro h
    cases h' : inv A with
    | none => rfl
    | some B => rw [h'] at this; exact absurd this (h B)

/-! ### Matrix-vector products -/

theorem mv_congr {A : Mat K} {v w : ℕ → K} (h : ∀ j < A.c, v j = w j) (i : ℕ) :
    A.mv v i = A.mv w i :=
  Finset.sum_congr rfl fun j hj => by rw [h j (Finset.mem_range.1 hj)]

theorem mv_mul (A B : Mat K) (v : ℕ → K) (i : ℕ) :
    (A.mul B).mv v i = A.mv (B.mv v) i := by
  simp only [mv, mul, Finset.sum_mul, Finset.mul_sum]
  rw [Finset.sum_comm]
  refine Finset.sum_congr rfl fun k _ => Finset.sum_congr rfl fun j _ => by ring

theorem mv_add_mat (A B : Mat K) (h : A.c = B.c) (v : ℕ → K) (i : ℕ) :
    (A.add B).mv v i = A.mv v i + B.mv v i := by
  simp only [mv, add, ← h, ← Finset.sum_add_distrib, add_mul]

theorem mv_sub_mat (A B : Mat K) (h : A.c = B.c) (v : ℕ → K) (i : ℕ) :
    (A.sub B).mv v i = A.mv v i - B.mv v i := by
  simp only [mv, sub, ← h, ← Finset.sum_sub_distrib, sub_mul]

theorem mv_add (A : Mat K) (v w : ℕ → K) (i : ℕ) :
    A.mv (fun j => v j + w j) i = A.mv v i + A.mv w i := by
  simp only [mv, mul_add, Finset.sum_add_distrib]

theorem mv_sub (A : Mat K) (v w : ℕ → K) (i : ℕ) :
    A.mv (fun j => v j - w j) i = A.mv v i - A.mv w i := by
  simp only [mv, mul_sub, Finset.sum_sub_distrib]

theorem mv_neg (A : Mat K) (v : ℕ → K) (i : ℕ) :
    A.mv (fun j => - v j) i = - A.mv v i := by
  simp only [mv, mul_neg, Finset.sum_neg_distrib]

theorem mv_smul (A : Mat K) (k : K) (v : ℕ → K) (i : ℕ) :
    A.mv (fun j => k * v j) i = k * A.mv v i := by
  simp only [mv, Finset.mul_sum]
  exact Finset.sum_congr rfl fun j _ => by ring

theorem mv_neg_mat (A : Mat K) (v : ℕ → K) (i : ℕ) : (A.neg).mv v i = - A.mv v i := by
  simp only [mv, neg, neg_mul, Finset.sum_neg_distrib]

theorem mv_smul_mat (k : K) (A : Mat K) (v : ℕ → K) (i : ℕ) :
    (A.smul k).mv v i = k * A.mv v i := by
  simp only [mv, smul, Finset.mul_sum, mul_assoc]

theorem mv_eye (n : ℕ) (v : ℕ → K) (i : ℕ) (hi : i < n) : (eye n).mv v i = v i := by
  simp [mv, eye, hi]

theorem mv_zeros (n m : ℕ) (v : ℕ → K) (i : ℕ) : (zeros n m : Mat K).mv v i = 0 := by
  simp [mv, zeros]

theorem IsInv.mv_left {A B : Mat K} (h : IsInv A B) (v : ℕ → K) {i : ℕ} (hi : i < A.r) :
    A.mv (B.mv v) i = v i := by
  obtain ⟨h1, h2, h3, h4, h5⟩ := h
  rw [← mv_mul]
  have : (A.mul B).mv v i = (eye A.r).mv v i := by
    simp only [mv, mul, eye, h3]
    refine Finset.sum_congr rfl fun j hj => ?_
    rw [← h1, h4 i hi j (Finset.mem_range.1 hj)]
  rw [this, mv_eye _ _ _ hi]

theorem IsInv.symm {A B : Mat K} (h : IsInv A B) : IsInv B A := by
  obtain ⟨h1, h2, h3, h4, h5⟩ := h
  refine ⟨by rw [h2, h3], h2.symm, by rw [← h1, h2], ?_, ?_⟩
  · rw [h2]; exact h5
  · rw [h2]; exact h4

theorem IsInv.mv_right {A B : Mat K} (h : IsInv A B) (v : ℕ → K) {i : ℕ} (hi : i < A.r) :
    B.mv (A.mv v) i = v i :=
  h.symm.mv_left v (by rw [h.2.1]; exact hi)

/-- Solving a linear system with the inverse. -/
theorem IsInv.solve {A B : Mat K} (h : IsInv A B) (x y : ℕ → K) :
    (∀ i < A.r, A.mv x i = y i) ↔ (∀ i < A.r, x i = B.mv y i) := by
  have hc := h.1
  constructor
  · intro hx i hi
    rw [← h.mv_right x hi]
    exact mv_congr (fun j hj => hx j (by rw [h.2.2.1] at hj; exact hj)) i
  · intro hx i hi
    rw [← h.mv_left y hi]
    exact mv_congr (fun j hj => hx j (by rw [hc]; exact hj)) i

/-- Splitting a product by column blocks. -/
theorem sum_range_split (f : ℕ → K) (a n : ℕ) (h : a ≤ n) :
    ∑ j ∈ range n, f j = ∑ j ∈ range a, f j + ∑ j ∈ range (n - a), f (a + j) := by
  obtain ⟨b, rfl⟩ := Nat.exists_eq_add_of_le h
  rw [Nat.add_sub_cancel_left, Finset.sum_range_add]

theorem Same.refl (A : Mat K) : Same A A := ⟨rfl, rfl, fun _ _ _ _ => rfl⟩

theorem Same.symm {A B : Mat K} (h : Same A B) : Same B A :=
  ⟨h.1.symm, h.2.1.symm, fun i hi j hj =>
    (h.2.2 i (by rw [h.1]; exact hi) j (by rw [h.2.1]; exact hj)).symm⟩

theorem Same.trans {A B C : Mat K} (h : Same A B) (h' : Same B C) : Same A C :=
  ⟨h.1.trans h'.1, h.2.1.trans h'.2.1, fun i hi j hj =>
    (h.2.2 i hi j hj).trans (h'.2.2 i (by rw [← h.1]; exact hi) j (by rw [← h.2.1]; exact hj))⟩

end Mat
end Pyphs
