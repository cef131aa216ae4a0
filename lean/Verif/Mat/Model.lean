/-
Shaped matrices: the model of the sympy/numpy matrices manipulated by pyphs.
A matrix has a number of rows, a number of columns, and entries given by a function of
natural indices; only the entries inside the shape are meaningful. `Mat.Same` is
equality of shape and of all entries inside the shape.
-/
import Mathlib.Algebra.BigOperators.Group.Finset.Basic
import Mathlib.Algebra.Field.Basic
import Verif.Tools.Model

namespace Pyphs

open Finset

/-- A matrix with explicit shape `(r, c)` (`sympy.SparseMatrix`, pyphs/core/tools/_types.py
`matrix_types`). Entries are scalars of an arbitrary field: numbers, or rational functions
of the symbols. -/
structure Mat (K : Type*) where
  r : ℕ
  c : ℕ
  e : ℕ → ℕ → K

namespace Mat

variable {K : Type*}

/-- Python equality of matrices: same shape, same entries. -/
def Same (A B : Mat K) : Prop :=
  A.r = B.r ∧ A.c = B.c ∧ ∀ i < A.r, ∀ j < A.c, A.e i j = B.e i j

/-- `M.T`. -/
def tr (A : Mat K) : Mat K := ⟨A.c, A.r, fun i j => A.e j i⟩

/-- `M[a:b, c:d]` with python clamping of the slice bounds. -/
def slice (A : Mat K) (a b c d : ℕ) : Mat K :=
  ⟨min b A.r - a, min d A.c - c, fun i j => A.e (a + i) (c + j)⟩

/-- `M[rows, cols]` with lists of indices; `none` models `IndexError`. -/
def select (A : Mat K) (rows cols : List ℕ) : Option (Mat K) :=
  if (∀ i ∈ rows, i < A.r) ∧ (∀ j ∈ cols, j < A.c) then
    some ⟨rows.length, cols.length, fun i j => A.e (rows.getD i 0) (cols.getD j 0)⟩
  else none

section ops
variable [Field K]

/-- `sympy.zeros(n)` / `sympy.zeros(n, m)`. -/
def zeros (n m : ℕ) : Mat K := ⟨n, m, fun _ _ => 0⟩

/-- `sympy.eye(n)`. -/
def eye (n : ℕ) : Mat K := ⟨n, n, fun i j => if i = j then 1 else 0⟩

/-- `A + B` (`none` on shape mismatch is handled by the callers, which only add matrices of
the same shape; the shape of the result is that of `A`). -/
def add (A B : Mat K) : Mat K := ⟨A.r, A.c, fun i j => A.e i j + B.e i j⟩

/-- `A - B`. -/
def sub (A B : Mat K) : Mat K := ⟨A.r, A.c, fun i j => A.e i j - B.e i j⟩

/-- `-A`. -/
def neg (A : Mat K) : Mat K := ⟨A.r, A.c, fun i j => - A.e i j⟩

/-- `k * A`. -/
def smul (k : K) (A : Mat K) : Mat K := ⟨A.r, A.c, fun i j => k * A.e i j⟩

/-- `A * B` (matrix product). -/
def mul (A B : Mat K) : Mat K :=
  ⟨A.r, B.c, fun i j => ∑ k ∈ range A.c, A.e i k * B.e k j⟩

/-- Product with a vector given by its entries:
pyphs/core/maths/_matrices.py:26-48 `matvecprod`. -/
def mv (A : Mat K) (v : ℕ → K) (i : ℕ) : K := ∑ j ∈ range A.c, A.e i j * v j

/-- `hstack(A, B)`. -/
def hcat (A B : Mat K) : Mat K :=
  ⟨A.r, A.c + B.c, fun i j => if j < A.c then A.e i j else B.e i (j - A.c)⟩

/-- `vstack(A, B)`. -/
def vcat (A B : Mat K) : Mat K :=
  ⟨A.r + B.r, A.c, fun i j => if i < A.r then A.e i j else B.e (i - A.r) j⟩

/-- `sympy.diag(A, B)`: block diagonal stacking. -/
def diag (A B : Mat K) : Mat K :=
  ⟨A.r + B.r, A.c + B.c, fun i j =>
    if i < A.r then (if j < A.c then A.e i j else 0)
    else (if j < A.c then 0 else B.e (i - A.r) (j - A.c))⟩

/-- `M[a:b, c:d] = V` where `V` has the shape `(b-a, d-c)` of the assigned block. -/
def setBlock (A : Mat K) (a b c d : ℕ) (V : Mat K) : Mat K :=
  ⟨A.r, A.c, fun i j =>
    if a ≤ i ∧ i < b ∧ c ≤ j ∧ j < d then V.e (i - a) (j - c) else A.e i j⟩

/-- `M.is_zero`. -/
def IsZero (A : Mat K) : Prop := ∀ i < A.r, ∀ j < A.c, A.e i j = 0

instance [DecidableEq K] (A : Mat K) : Decidable A.IsZero := by
  unfold IsZero; infer_instance

/-- Determinant by expansion along the first row (any correct algorithm does; sympy's is not
modelled beyond its mathematical meaning). -/
def detN : ℕ → (ℕ → ℕ → K) → K
  | 0, _ => 1
  | n + 1, f => ∑ j ∈ range (n + 1),
      (-1) ^ j * f 0 j * detN n (fun i k => f (i + 1) (if k < j then k else k + 1))

/-- Entries of the matrix without row `a` and column `b`. -/
def minor (f : ℕ → ℕ → K) (a b : ℕ) : ℕ → ℕ → K :=
  fun i k => f (if i < a then i else i + 1) (if k < b then k else k + 1)

/-- `inverse(Mat)`, pyphs/core/maths/_matrices.py:13-23. `none` models the `ValueError` raised
by sympy for a singular or a non-square matrix; otherwise the (mathematical) inverse. The
empty matrix is its own inverse (lines 17-18). -/
def inv [DecidableEq K] (A : Mat K) : Option (Mat K) :=
  if A.r ≠ A.c then none
  else if detN A.r A.e = 0 then none
  else some ⟨A.r, A.r, fun i j =>
    (-1) ^ (i + j) * detN (A.r - 1) (minor A.e j i) / detN A.r A.e⟩

end ops
end Mat
end Pyphs
