import Verif.H5.Data
import Mathlib.Algebra.Field.Rat
import Mathlib.Algebra.Order.Ring.Rat

/-!
# Computed signals of the data file

Model of the readers of `h5data.py` that are not columns of the file: `t` 791-829, `_hstack` 833-862,
`_expression` 864-906 with `args` 908-942, `o` 946-970, `args_o` 974-998, and the powers `ps`
and `dtE` (option `'DxhDtx'`), with the vectorised functions of `numerics/tools/_evaluation.py`
(`pyphs_vectorize` 16-28, `scalar_expr_to_numeric` 186-223, `vector_expr_to_numeric` 225-237).

A time selection with a step below 1 is an error here (h5py refuses it; `numpy.arange` alone accepts
negative steps).
-/

namespace Pyphs
namespace H5

variable {α : Type}

/-- h5data.py:791-829 `t` -/
def times (w : Window) (fs : ℚ) (t : TSel) : Except Err (List ℚ) :=
  if 1 ≤ (tslice w t).2.2 then
    .ok ((arange (tslice w t).1 (tslice w t).2.1 (tslice w t).2.2.toNat).map fun i : ℤ => (i : ℚ) / fs)
  else .error .value

/-- `numpy.hstack` of two-dimensional arrays, as lists of rows: the numbers of rows must agree. -/
def hstack : List (List (List α)) → Except Err (List (List α))
  | [] => .error .value
  | [a] => .ok a
  | a :: b :: l => do
    let r ← hstack (b :: l)
    if a.length = r.length then .ok (List.zipWith (· ++ ·) a r) else .error .value

/-- The readers of a list of stored names, in order. -/
def readAll (L : Layout) (w : Window) (ds : Ds α) (t : TSel) :
    List String → Except Err (List (List (List α)))
  | [] => .ok []
  | n :: ns => do
    let a ← read L w ds n t .none
    let l ← readAll L w ds t ns
    .ok (a :: l)

/-- The selection with all its bounds, as given by `_tslice` to the readers. -/
def full (w : Window) (t : TSel) : TSel :=
  .slice (some (tslice w t).1) (some (tslice w t).2.1) (some (tslice w t).2.2)

/-- h5data.py:833-862 `_hstack` on stored names. -/
def stack (L : Layout) (w : Window) (ds : Ds α) (names : List String) (t : TSel) :
    Except Err (List (List α)) := do
  let l ← readAll L w ds (full w t) names
  hstack l

/-- h5data.py:908-942 `args` -/
def args (L : Layout) (w : Window) (ds : Ds α) (t : TSel) : Except Err (List (List α)) :=
  stack L w ds ["x", "dx", "w", "u", "p"] t

/-- A numerical evaluation (`_evaluation.py`): positions of its arguments, and functions of
their values. -/
inductive Eval (α : Type)
  | scalar (inds : List ℕ) (f : List α → α)
  | vector (inds : List ℕ) (fs : List (List α → α))

/-- Values of `_expression`: an array as a list of rows (one column for a scalar), or an array of `n`
generators that have not been run. -/
inductive Out (α : Type)
  | rows (l : List (List α))
  | gens (n : ℕ)

/-- h5data.py:881: the expected number of samples. -/
def expectedNt (w : Window) (t : TSel) : ℤ :=
  ((tslice w t).2.1 - (tslice w t).1) / (tslice w t).2.2

/-- `numpy.zeros((expectedNt, c))`: a negative dimension is refused. -/
def zeroRows (w : Window) (t : TSel) (row : List α) : Except Err (Out α) :=
  if 0 ≤ expectedNt w t then .ok (.rows (List.replicate (expectedNt w t).toNat row))
  else .error .value

/-- h5data.py:885-895, from the values of the arguments `argv`. -/
def evalRows (w : Window) (t : TSel) (argv : Except Err (List (List α))) :
    Eval α → Except Err (Out α)
  | .scalar [] f => zeroRows w t [f []]
  | .scalar (i :: inds) f => do
    let rows ← argv
    if rows = [] then zeroRows w t []
    else
      match rows.mapM (fun row => (i :: inds).mapM fun k => row[k]?) with
      | none => .error .index
      | some vals => .ok (.rows (vals.map fun v => [f v]))
  | .vector [] fs => zeroRows w t (fs.map fun f => f [])
  | .vector (i :: inds) fs => do
    let rows ← argv
    match rows.mapM (fun row => (i :: inds).mapM fun k => row[k]?) with
    | none => .error .index
    | some _ => if fs = [] then zeroRows w t [] else .ok (.gens fs.length)

/-- h5data.py:864-906 `_expression` -/
def expression (w : Window) (t : TSel) (argv : Except Err (List (List α))) (e : Eval α) :
    Except Err (Out α) :=
  if 1 ≤ (tslice w t).2.2 then evalRows w t argv e else .error .value

/-- h5data.py:974-998 `args_o`: arguments and observers. The column of generators obtained for the
observers with arguments has as many rows as there are observers; if this is the number of samples
the result is an array of objects, reported here as an error too. -/
def argsO (L : Layout) (w : Window) (ds : Ds α) (obs : Eval α) (t : TSel) :
    Except Err (List (List α)) := do
  let a ← args L w ds (full w t)
  match ← expression w (full w t) (args L w ds (full w t)) obs with
  | .rows o => hstack [a, o]
  | .gens _ => .error .value

/-- `data.o` -/
def readObs (L : Layout) (w : Window) (ds : Ds α) (obs : Eval α) (t : TSel) : Except Err (Out α) :=
  expression w (full w t) (args L w ds (full w t)) obs

/-- `data.E` and `data.pd`: an expression of the arguments and of the observers. -/
def readExpr (L : Layout) (w : Window) (ds : Ds α) (obs : Eval α) (e : Eval α) (t : TSel) :
    Except Err (Out α) :=
  expression w (full w t) (argsO L w ds obs (full w t)) e

/-- `numpy.einsum('ti,ti->t', a, b)` -/
def rowDots [Add α] [Mul α] [Zero α] (a b : List (List α)) : List α :=
  List.zipWith (fun r s => (List.zipWith (· * ·) r s).foldr (· + ·) 0) a b

/-- h5data.py: `ps` -/
def readPs [Add α] [Mul α] [Zero α] (L : Layout) (w : Window) (ds : Ds α) (t : TSel) :
    Except Err (List α) := do
  let u ← read L w ds "u" t .none
  let y ← read L w ds "y" t .none
  .ok (rowDots u y)

/-- h5data.py: `dtE` with the option `'DxhDtx'` and `dtx` -/
def readDtE [Add α] [Mul α] [Zero α] (L : Layout) (w : Window) (ds : Ds α) (fs : α) (t : TSel) :
    Except Err (List α) := do
  let h ← read L w ds "dxH" (full w t) .none
  let x ← read L w ds "dx" (full w t) .none
  .ok (rowDots h (x.map fun r => r.map (· * fs)))

end H5
end Pyphs
