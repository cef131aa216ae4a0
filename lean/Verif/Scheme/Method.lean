/-
Model of the implicit equations of the numerical method
(/repo/pyphs/numerics/numerical_method/_method.py, `set_structure`, `set_update_*`).
-/
import Verif.Scheme.Model

namespace Pyphs
namespace Scheme
open Finset

/-- The content of a `Method` after `build_gradient_evaluation` and
`build_structure_evaluation`: groups of states, names of the other variables, number of
linear dissipations, energy, dissipation laws, discrete gradient, structure matrix (as
functions of the values of the symbols) and sample rate. -/
structure Meth where
  g : Groups
  w : List String
  u : List String
  y : List String
  wl : ℕ
  H : Sc
  z : List Sc
  dxH : List Sc
  M : Env ℝ → Mat ℝ
  fs : ℝ

/-- The core of a method (`Method` inherits `Core`) for given values of the symbols. -/
noncomputable def Meth.core (m : Meth) (e : Env ℝ) : Core ℝ :=
  { x := m.g.x, w := m.w, u := m.u, y := m.y, cu := [], cy := [], H := m.H, z := m.z,
    dxH := some m.dxH, M := m.M e, connectors := [], xl := m.g.xl.length, wl := m.wl,
    Zl := Mat.zeros 0 0, forceWnl := [] }

/-- The suffixes `''`, `'l'`, `'nl'` of the getters. -/
inductive Sfx | all | l | nl
  deriving DecidableEq, Repr

/-- Block of the states for a suffix. -/
def Sfx.x : Sfx → Core.Blk
  | .all => .x | .l => .xl | .nl => .xnl

/-- Block of the dissipations for a suffix. -/
def Sfx.w : Sfx → Core.Blk
  | .all => .w | .l => .wl | .nl => .wnl

/-- Elements of a list of states for a suffix, pyphs/core/core.py:1307-1351. -/
def Sfx.pick {α : Type} (s : Sfx) (n : ℕ) (l : List α) : List α :=
  match s with
  | .all => l | .l => l.take n | .nl => l.drop n

/-- _method.py:336-355 `set_getters_v`: the symbols `v = [dx, w]`. -/
def Meth.v (m : Meth) (s : Sfx) : List String :=
  (s.pick m.g.xl.length m.g.x).map dn ++ s.pick m.wl m.w

/-- _method.py:358-377 `set_getters_f`: `f = [dxH, z]`. -/
def Meth.f (m : Meth) (s : Sfx) : List Sc :=
  s.pick m.g.xl.length m.dxH ++ s.pick m.wl m.z

/-- _method.py:397-411: the block matrix `Mv{a}v{b}`. -/
noncomputable def Meth.Mvv (m : Meth) (a b : Sfx) (e : Env ℝ) : Mat ℝ :=
  let c := m.core e
  Mat.vcat (Mat.hcat (c.getMat .M a.x b.x) (c.getMat .M a.x b.w))
    (Mat.hcat (c.getMat .M a.w b.x) (c.getMat .M a.w b.w))

/-- _method.py:413-425: the block matrix `Mv{a}y`. -/
noncomputable def Meth.Mvy (m : Meth) (a : Sfx) (e : Env ℝ) : Mat ℝ :=
  let c := m.core e
  Mat.vcat (c.getMat .M a.x .y) (c.getMat .M a.w .y)

/-- _method.py:544-551 `set_getters_I`: `I = diag(fs*eye(dimx), eye(dimw))`. -/
noncomputable def Meth.I (m : Meth) (s : Sfx) (e : Env ℝ) : Mat ℝ :=
  let c := m.core e
  Mat.diag (Mat.smul m.fs (Mat.eye (c.dim s.x))) (Mat.eye (c.dim s.w))

/-- Values of a list of expressions, as a vector. -/
def vals (l : List Sc) (e : Env ℝ) : ℕ → ℝ := fun i => (l.getD i fun _ => 0) e

/-- Values of a list of symbols, as a vector. -/
def svals (l : List String) (e : Env ℝ) : ℕ → ℝ := fun i => e (l.getD i "")

/-- _method.py:441-488 `set_getters_tempF`: component `i` of
`I.v - Mvv.f - Mvy.u` (suffix `''`), `I.v - Mvvl.fl - Mvvnl.fnl - Mvy.u` (other
suffixes). -/
noncomputable def Meth.F (m : Meth) (s : Sfx) (i : ℕ) : Sc := fun e =>
  match s with
  | .all => (m.I .all e).mv (svals (m.v .all) e) i - (m.Mvv .all .all e).mv (vals (m.f .all) e) i
      - (m.Mvy .all e).mv (svals m.u e) i
  | s => (m.I s e).mv (svals (m.v s) e) i - (m.Mvv s .l e).mv (vals (m.f .l) e) i
      - (m.Mvv s .nl e).mv (vals (m.f .nl) e) i - (m.Mvy s e).mv (svals m.u e) i

/-- _method.py:491-502: component `(i, j)` of the Jacobian of `tempF{a}` with respect to
`v{b}`. -/
noncomputable def Meth.J (m : Meth) (a b : Sfx) (e : Env ℝ) : Mat ℝ :=
  ⟨(m.v a).length, (m.v b).length, fun i j => pdiff (m.F a i) ((m.v b).getD j "") e⟩

/-- _method.py:505-527 `set_getters_G`: `G{a} = tempF{a} - jactempF{a}l.vl`. -/
noncomputable def Meth.G (m : Meth) (a : Sfx) (i : ℕ) : Sc := fun e =>
  m.F a i e - (m.J a .l e).mv (svals (m.v .l) e) i

/-- _method.py:530-541: Jacobian of `G{a}` with respect to `v{b}`. -/
noncomputable def Meth.JG (m : Meth) (a b : Sfx) (e : Env ℝ) : Mat ℝ :=
  ⟨(m.v a).length, (m.v b).length, fun i j => pdiff (m.G a i) ((m.v b).getD j "") e⟩

/-- _method.py:568-582 `set_update_vl`: `ud_vl = inv(jactempFll).(-Gl)`; `none` is the
`LinAlgError` of a singular matrix. -/
noncomputable def Meth.udVl (m : Meth) (e : Env ℝ) : Option (ℕ → ℝ) := do
  let iJ ← (m.J .l .l e).inv
  return iJ.mv fun i => -1 * m.G .l i e

/-- _method.py:588-607: `Fnl = Gnl + jactempFnll.inv(jactempFll).(-Gl)`, or `Gnl` without
linear components. -/
noncomputable def Meth.Fnl (m : Meth) (e : Env ℝ) : Option (ℕ → ℝ) :=
  if 0 < (m.v .l).length then do
    let iJ ← (m.J .l .l e).inv
    return fun i => m.G .nl i e + (m.J .nl .l e).mv (iJ.mv fun i => -1 * m.G .l i e) i
  else some fun i => m.G .nl i e

/-- _method.py:588-607: `jacFnl = jacGnlnl + jactempFnll.inv(jactempFll).(-jacGlnl)`, or
`jacGnlnl` without linear components. -/
noncomputable def Meth.jacFnl (m : Meth) (e : Env ℝ) : Option (Mat ℝ) :=
  if 0 < (m.v .l).length then do
    let iJ ← (m.J .l .l e).inv
    return (m.JG .nl .nl e).add
      ((m.J .nl .l e).mul (iJ.mul (Mat.smul (-1) (m.JG .l .nl e))))
  else some (m.JG .nl .nl e)

/-- pyphs/core/structure/output.py: the outputs of a method. -/
noncomputable def Meth.out (m : Meth) (e : Env ℝ) : List ℝ :=
  (m.core e).output (vals m.dxH e) (vals m.z e) (svals m.u e)

end Scheme
end Pyphs
