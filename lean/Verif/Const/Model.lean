/-
Sources with a constant value (dictionary/edges/port.py:68-69) and parameters with a value: symbols that
are arguments of the numerical method and keys of `method.subs`.

Every compiled function has these symbols replaced by their values (_lambdify.py:124-125) whereas the slots
of the arguments remain: `update` writes the given inputs in them (_numerical_core.py:189-192), and the data
file holds the given inputs (h5data.py:370-380).
-/
import Verif.Cpp.EquivMethod
import Verif.Record.Model

namespace Pyphs
namespace Numeric
open Scheme

/-- The values of the symbols after the substitution of the constants `fix`. -/
def over (fix : List (String × ℝ)) (e : Env ℝ) : Env ℝ := fun s => (fix.lookup s).getD (e s)

/-- The program of a `Numeric` whose method has the values `fix` for some of its arguments
(_numerical_core.py:242-300, _lambdify.py:119-146). -/
noncomputable def Num.constProg (n : Num) (fix : List (String × ℝ)) : Prog Nm ℝ :=
  { n.prog with func := fun k => (Cpp.fenv n k).map fun g a => g (over fix (n.env a)) }

/-- `Numeric.update`. -/
noncomputable def Num.constUpdate (n : Num) (fix : List (String × ℝ)) (u p : Option (List ℝ))
    (st : St Nm ℝ) : Option (St Nm ℝ) :=
  (n.constProg fix).update n.eps n.maxit n.actions .u .p n.m.y.length n.p.length u p st

end Numeric

namespace Record
open Scheme Numeric H5

/-- simulation.py:448-458: see `machine`. -/
noncomputable def constMachine (n : Num) (fix : List (String × ℝ)) : Machine (St Nm ℝ) ℝ where
  upd := fun s u p => (n.constUpdate fix (some u) (some p) s).getD s
  vecs := (machine n).vecs

end Record
end Pyphs
