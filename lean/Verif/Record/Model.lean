/-
A simulation from the numerical object to the signals read in its data file: the loop of
`Simulation._process_py` (pyphs/numerics/simulations/simulation.py:428-469) on `Numeric.update`, and
the reader `dtE` with the option `'deltaH'` (h5data.py:1351-1412).
-/
import Verif.H5.Read
import Verif.Numeric.Program

namespace Pyphs
namespace Record
open Scheme Numeric H5

/-- h5data.py:76, 386-409, 496-516: names and dimensions of the stored variables, for the default
`dnames` (config.py:206). -/
def layout (n : Num) : Layout where
  names := ["u", "p", "x", "dx", "dxH", "w", "z", "y"]
  dimOf := fun s =>
    if s = "u" ∨ s = "y" then n.m.y.length
    else if s = "w" ∨ s = "z" then n.m.w.length
    else if s = "p" then n.p.length
    else n.m.g.x.length

/-- The value of an attribute of the numerical object, as an array. -/
noncomputable def vec (n : Num) (st : St Nm ℝ) (k : Nm) : List ℝ :=
  match n.prog.get st k with
  | some (.v l) => l
  | some (.s c) => [c]
  | _ => []

/-- simulation.py:448-458: update of the numerical object, values that are written. An exception is
represented by a state that is not changed; the theorems are about updates that succeed. -/
noncomputable def machine (n : Num) : Machine (St Nm ℝ) ℝ where
  upd := fun s u p => (n.update (some u) (some p) s).getD s
  vecs := fun s => [("x", vec n s .x), ("dx", vec n s .dx), ("dxH", vec n s .dxH),
    ("w", vec n s .w), ("z", vec n s .z), ("y", vec n s .y)]

/-- `numpy.ediff1d(l, to_end=e)` -/
def ediff1d {α : Type} [Sub α] (l e : List α) : List α :=
  List.zipWith (fun a b => b - a) l l.tail ++ e

/-- h5data.py:1351-1412 `dtE` with the option `'deltaH'`. -/
def readDeltaH {α : Type} [DivisionRing α] (L : Layout) (w : Window) (ds : Ds α) (obs eH : Eval α)
    (fs : α) (t : TSel) : Except Err (List α) := do
  let h ← read L w ds "dxH" (.idx ((tslice w t).2.1 - 1)) .none
  let x ← read L w ds "dx" (.idx ((tslice w t).2.1 - 1)) .none
  let last := (rowDots h (x.map fun r => r.map (· * fs))).map (· / fs)
  match ← readExpr L w ds obs eH (full w t) with
  | .rows E => .ok ((ediff1d E.flatten last).map fun v => v * fs / ((tslice w t).2.2 : α))
  | .gens _ => .error .value

end Record
end Pyphs
