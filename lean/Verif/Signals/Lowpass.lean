/-
Model of the low-pass filter (/repo/pyphs/misc/signals/processing.py).

Numbers are real numbers: the rounding of floats is not modelled.
-/
import Mathlib.Analysis.SpecialFunctions.Trigonometric.Basic
import Mathlib.Algebra.Order.Floor.Ring

open Real

namespace Pyphs
namespace Signals
namespace Lowpass

inductive Err
  /-- `ZeroDivisionError`: the transition band has no width. -/
  | zeroDivision
  /-- `ValueError` of `numpy.convolve`: one of the sequences is empty. -/
  | empty
  /-- No exception, but every value is `nan`. -/
  | nan
  deriving DecidableEq, Repr

/-- `numpy.sinc`. -/
noncomputable def npSinc (x : ℝ) : ℝ := if x = 0 then 1 else sin (π * x) / (π * x)

/-- processing.py:33-35: the number of coefficients, made odd. -/
noncomputable def ntaps (b : ℝ) : ℤ :=
  let N := ⌈4 / b⌉
  if N % 2 = 0 then N + 1 else N

/-- processing.py:40-41: coefficient `n` of the window. -/
noncomputable def window (N n : ℕ) : ℝ :=
  0.42 - 0.5 * cos (2 * π * n / ((N : ℝ) - 1)) + 0.08 * cos (4 * π * n / ((N : ℝ) - 1))

/-- processing.py:36-43: the coefficients before they are normalised. -/
noncomputable def raw (fc : ℝ) (N : ℕ) : List ℝ :=
  (List.range N).map fun n : ℕ => npSinc (2 * fc * ((n : ℝ) - ((N : ℝ) - 1) / 2)) * window N n

/-- Sample `i` of the full convolution of two sequences. -/
noncomputable def conv (a v : List ℝ) (i : ℕ) : ℝ :=
  ((List.range (i + 1)).map fun j => a.getD j 0 * v.getD (i - j) 0).sum

/-- `numpy.convolve(a, v, 'same')`: the shorter sequence is taken as second argument, the result has
the length of the longer one and is the middle of the full convolution. -/
noncomputable def convolveSame (a v : List ℝ) : Except Err (List ℝ) :=
  let (a, v) := if a.length < v.length then (v, a) else (a, v)
  if a.length = 0 then .error .empty
  else if v.length = 0 then .error .empty
  else .ok ((List.range a.length).map fun i => conv a v (i + (v.length - 1) / 2))

open Classical in
/-- processing.py:9-47. With one coefficient the window is `0/0`; with coefficients of sum zero the
normalisation is a division by zero: the values are `nan`. -/
noncomputable def lowpass (s : List ℝ) (fc : ℝ) (tbw : ℝ := 0.01) : Except Err (List ℝ) :=
  let b := tbw * fc
  let fc := fc - b
  if b = 0 then .error .zeroDivision
  else
    let N := (ntaps b).toNat
    let h := raw fc N
    if s.length = 0 ∨ N = 0 then .error .empty
    else if N = 1 ∨ h.sum = 0 then .error .nan
    else convolveSame s (h.map (· / h.sum))

end Lowpass
end Signals
end Pyphs
