/-
The whole way from a graph to the equations of a simulation: `Graph.to_core`
(pyphs/graphs/graph.py:205-300) followed by `Method.__init__`
(pyphs/numerics/numerical_method/_method.py:58-161).
-/
import Verif.Graph.Build
import Verif.Core.Split
import Verif.Scheme.Method

namespace Pyphs
namespace Circuit
open Scheme Core Graph

/-- graph.py:262-290 `to_core` with `connect=True`, `merge_all=False`, on the edges seen by the
analysis: analysis, construction of the core, `connect()` on a copy. `none`: an exception, or no
end within the fuel. -/
def toCore {K : Type} [Field K] [DecidableEq K] (law : String → Env K → K) (fuel : ℕ)
    (nodes : List String) (edges : List (Edge K)) (c : Core K) : Option (Core K) :=
  match analyse fuel nodes edges with
  | .error _ => none
  | .ok st => (buildCore law st c).bind connect

/-- core.py:410-421 `Core.g`: the symbol of a component of the gradient. -/
def gn (x : String) : String := "g" ++ x

/-- _method.py:757-764: the substitutions of `build_structure_evaluation`. -/
noncomputable def structSubs (xs : List String) (dxH : List Sc) (θ : ℝ) : List (String × Sc) :=
  (xs.map gn).zip dxH ++ xs.map fun x => (x, fun e => e x + θ * e (dn x))

/-- _method.py:766-780: the evaluation of one dissipation law. -/
noncomputable def evalLaw (kind : Grad) (θ : ℝ) (xs : List String) (dxH : List Sc) (z : Sc) : Sc :=
  match kind with
  | .trapez => fun e => 0.5 * (z e + subs (structSubs xs dxH 1) z e)
  | _ => subs (structSubs xs dxH θ) z

/-- The answers of sympy used while a method is built: free symbols of the entries of the Hessian
of the energy, of the Jacobian of the laws and of the Jacobian of the implicit equations; entries
of the Hessian which are not the sympy zero; values of the Jacobian of linear laws. -/
structure Sympy where
  hess : Core ℝ → Mat FS
  jacz : Core ℝ → Mat FS
  nz : Core ℝ → Mat Bool
  jacF : Core ℝ → Mat FS
  jac : List Sc → List String → Mat ℝ

/-- The options of a method (config.py:185-192). -/
structure Config where
  split : Bool
  kind : Grad
  θ : ℝ
  epsdg : ℝ
  fs : ℝ

/-- The groups of states of a core with `n` monovariate states (dimensions.py:83-93). -/
def groups (c : Core ℝ) (n : ℕ) : Groups :=
  ⟨c.x.take c.xl, (c.x.drop c.xl).take n, (c.x.drop c.xl).drop n⟩

/-- _method.py:140-144, 156-159: `build_gradient_evaluation`, then `build_structure_evaluation` (the
entries of `M` are numbers, they are not changed). -/
noncomputable def buildEval (o : Config) (n : ℕ) (c : Core ℝ) : Core ℝ :=
  let dxH := buildGradient c.H (groups c n) o.kind o.θ o.epsdg
  { c with dxH := some dxH, z := c.z.map (evalLaw o.kind o.θ c.x dxH) }

/-- The symbols `v = [dx, w]` of the implicit equations. -/
def vars (c : Core ℝ) : List String := c.x.map dn ++ c.w

/-- _method.py:270-283 `explicit_implicit`: the columns of the Jacobian of the implicit equations
are the criterion. -/
noncomputable def explicitImplicit (s : Sympy) (c : Core ℝ) : Option (Core ℝ) :=
  c.linearNonlinear false
    ((s.jacF c).slice 0 (s.jacF c).r 0 c.x.length) (vars c)
    ((s.jacF c).slice 0 (s.jacF c).r c.x.length (s.jacF c).c) (vars c) s.jac

/-- The content of a method, seen as `Verif.Scheme.Method` does. -/
noncomputable def asMeth (o : Config) (n : ℕ) (c : Core ℝ) : Meth :=
  { g := groups c n, w := c.w, u := c.u, y := c.y, wl := c.wl, H := c.H, z := c.z,
    dxH := c.dxH.getD [], M := fun _ => c.M, fs := o.fs }

/-- _method.py:70-75: the core seen by the constructor of a method, before any splitting. -/
def reset (c : Core ℝ) : Core ℝ := { c with xl := 0, wl := 0, Zl := c.Zl.slice 0 0 0 0 }

/-- _method.py:128-132: linear and nonlinear components, with the criterion of
splits.py:66-70. -/
noncomputable def firstSplit (s : Sympy) (o : Config) (c : Core ℝ) : Option (Core ℝ) :=
  if o.split then
    c.linearNonlinear true (s.hess c) (c.x ++ c.x.map dn ++ c.w) (s.jacz c) (vars c) s.jac
  else some c

/-- _method.py:149-161: explicit and implicit components, second evaluation. -/
noncomputable def lastSplit (s : Sympy) (o : Config) (n : ℕ) (c : Core ℝ) : Option (Core ℝ) :=
  if o.split then (explicitImplicit s c).map (buildEval o n) else some c

/-- _method.py:58-161 `Method.__init__`, up to the implicit equations. -/
noncomputable def toMethod (s : Sympy) (o : Config) (c : Core ℝ) : Option Meth :=
  (firstSplit s o (reset c)).bind fun c1 =>
    -- line 135
    (c1.monovarMultivar (s.nz c1)).bind fun r =>
      (lastSplit s o r.2 (buildEval o r.2 r.1)).map (asMeth o r.2)

end Circuit
end Pyphs
