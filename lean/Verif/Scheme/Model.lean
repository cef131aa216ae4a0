/-
Model of the symbolic expressions built by the numerical method
(/repo/pyphs/numerics/numerical_method/_discrete_calculus.py, _method.py).

A sympy expression is represented by its meaning: a real function of the values of the
symbols. `diff` is the derivative with respect to one symbol, `subs` the simultaneous
substitution of expressions for symbols (Verif/Sym shows that the sequential substitution of
sympy agrees with it when no replaced symbol occurs in the substituted expressions).
-/
import Verif.Core.Model
import Mathlib.Analysis.Calculus.Deriv.Basic

namespace Pyphs
namespace Scheme

/-- A scalar expression. -/
abbrev Sc := Env ℝ → ℝ

/-- pyphs/core/core.py:370-380 `Core.dx`: the symbol of the increment of a state. -/
def dn (x : String) : String := "d" ++ x

/-- `expr.diff(x).doit()`. -/
noncomputable def pdiff (f : Sc) (x : String) : Sc :=
  fun e => deriv (fun t => f (Function.update e x t)) (e x)

/-- `expr.subs(dict)`. -/
def subs (σ : List (String × Sc)) (f : Sc) : Sc :=
  fun e => f (fun s => match σ.lookup s with
    | some g => g e
    | none => e s)

/-- pyphs/core/maths/_calculus.py:13-48 `gradient`. -/
noncomputable def gradient (H : Sc) (xs : List String) : List Sc := xs.map (pdiff H)

/-- pyphs/core/maths/_calculus.py:85-121 `jacobian`. -/
noncomputable def jacobian (fs : List Sc) (xs : List String) : Mat Sc :=
  ⟨fs.length, xs.length, fun i j => pdiff (fs.getD i fun _ => 0) (xs.getD j "")⟩

/-- pyphs/core/maths/_calculus.py:51-82 `hessian`. -/
noncomputable def hessian (H : Sc) (xs : List String) : Mat Sc := jacobian (gradient H xs) xs

/-- pyphs/core/maths/_matrices.py:26-48 `matvecprod`, on expressions. -/
def matvec (A : Mat Sc) (v : List Sc) : List Sc :=
  (List.range A.r).map fun i => fun e =>
    ∑ j ∈ Finset.range A.c, A.e i j e * (v.getD j fun _ => 0) e

/-- A symbol as an expression. -/
def symb (s : String) : Sc := fun e => e s

/-- pyphs/numerics/numerical_method/_discrete_calculus.py:14-59
`discrete_gradient_monovar`. -/
noncomputable def gradMono (H : Sc) (xs : List String) (numtol : ℝ) : List Sc :=
  xs.map fun x =>
    -- lines 47-50
    let Hpost := subs [(x, fun e => e x + e (dn x))] H
    let dxh : Sc := fun e => (Hpost e - H e) / e (dn x)
    let dxhc := pdiff H x
    let dxh0 : Sc := fun e => dxhc e + 0.5 * pdiff dxhc x e * e (dn x)
    -- lines 51-53
    fun e => if e (dn x) < -numtol then dxh e else if e (dn x) < numtol then dxh0 e else dxh e

/-- The substitution `x -> x + theta*dx` of every state of a list. -/
noncomputable def shift (xs : List String) (theta : ℝ) : List (String × Sc) :=
  xs.map fun x => (x, fun e => e x + theta * e (dn x))

/-- _discrete_calculus.py:117-157 `gradient_theta`. -/
noncomputable def gradTheta (H : Sc) (xs : List String) (theta : ℝ) : List Sc :=
  (gradient H xs).map (subs (shift xs theta))

/-- _discrete_calculus.py:160-200 `gradient_trapez`. -/
noncomputable def gradTrapez (H : Sc) (xs : List String) : List Sc :=
  (gradient H xs).map fun g e => 0.5 * (g e + subs (shift xs 1) g e)

/-- _discrete_calculus.py:62-114 `discrete_gradient_multivar`. -/
noncomputable def gradMulti (H : Sc) (xs : List String) (numtol : ℝ) : List Sc :=
  let g := gradTheta H xs 0.5
  -- lines 99-102
  let n2 : Sc := fun e => (xs.map fun x => e (dn x) ^ 2).sum
  let corr : Sc := fun e =>
    (subs (shift xs 1) H e - H e - ((g.zip xs).map fun p => p.1 e * e (dn p.2)).sum) / n2 e
  -- lines 105-107
  let corr' : Sc := fun e =>
    if n2 e < -numtol ^ 2 then corr e else if n2 e < numtol ^ 2 then 0 else corr e
  -- lines 108-109
  (g.zip xs).map fun p e => p.1 e + corr' e * e (dn p.2)

/-- The states of a method, in the three groups of `build_gradient_evaluation`: `xl`,
`xnl[:xnl_mono]`, `xnl[xnl_mono:]`. -/
structure Groups where
  xl : List String
  mono : List String
  multi : List String

/-- All the states, in the order of `core.x`. -/
def Groups.x (g : Groups) : List String := g.xl ++ g.mono ++ g.multi

/-- pyphs/core/structure/splits.py:117: `Q = hessian(H, xl)`. -/
noncomputable def Qmat (H : Sc) (g : Groups) : Mat Sc := hessian H g.xl

/-- splits.py:119: `bl = gradient(H, xl) - Q.xl`. -/
noncomputable def blVec (H : Sc) (g : Groups) : List Sc :=
  ((gradient H g.xl).zip (matvec (Qmat H g) (g.xl.map symb))).map fun p e => p.1 e - p.2 e

/-- _method.py:691-697: `dxHl = Q.(xl + 0.5*dxl) + bl`. -/
noncomputable def gradLin (H : Sc) (g : Groups) : List Sc :=
  ((matvec (Qmat H g) (g.xl.map fun x e => e x + 0.5 * e (dn x))).zip (blVec H g)).map
    fun p e => p.1 e + p.2 e

/-- The gradient options of a method. -/
inductive Grad | discret | theta | trapez
  deriving DecidableEq, Repr

/-- _method.py:679-727 `build_gradient_evaluation`. -/
noncomputable def buildGradient (H : Sc) (g : Groups) (kind : Grad) (theta epsdg : ℝ) : List Sc :=
  match kind with
  | .discret => gradLin H g ++ gradMono H g.mono epsdg ++ gradMulti H g.multi epsdg
  | .theta => gradTheta H g.x theta
  | .trapez => gradTrapez H g.x

end Scheme
end Pyphs
