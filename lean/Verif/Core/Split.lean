/-
Model of the splits of storage and dissipation components
(/repo/pyphs/core/structure/splits.py).

The sympy Hessian and Jacobian matrices enter only through the free symbols of their entries
(`linear_nonlinear`) or through which entries are the sympy zero (`monovar_multivar`), so
they are matrices of lists of symbols, respectively of Booleans.
-/
import Verif.Core.Model

namespace Pyphs
namespace Core

/-- Free symbols of one matrix entry (pyphs/core/tools/_free_symbols.py). -/
abbrev FS := List String

/-- The loops `for _ in range(n): if test(k): k += 1 else: move(k)` of
pyphs/core/structure/splits.py:30-40, 82-95 and 101-114. -/
def splitLoop {S : Type} (test : ℕ → S → Bool) (move : ℕ → S → Option S) :
    ℕ → ℕ → S → Option (S × ℕ)
  | 0, k, s => some (s, k)
  | m + 1, k, s =>
    if test k s then splitLoop test move m (k + 1) s
    else (move k s).bind (splitLoop test move m k)

/-- pyphs/core/structure/moves.py:12-47 `movesquarematrixcolnrow`, any type of entries. -/
def moveSquareM {α : Type} (M : Mat α) (indi indf : ℕ) : Option (Mat α) := do
  let new ← myrange M.r indi indf
  M.select new new

/-- pyphs/core/structure/moves.py:50-64 `movematrixcols`. -/
def moveColsM {α : Type} (M : Mat α) (indi indf : ℕ) : Option (Mat α) := do
  let new ← myrange M.c indi indf
  M.select (List.range M.r) new

/-- pyphs/core/structure/splits.py:84-88: the free symbols of column `k` are disjoint from
`arg`. -/
def colFree (h : Mat FS) (arg : List String) (k : ℕ) : Bool :=
  (List.range h.r).all fun i => (h.e i k).all fun s => decide (s ∉ arg)

section field
variable {K : Type} [Field K] [DecidableEq K]

/-- pyphs/core/structure/splits.py:47-123 `linear_nonlinear`. `square` selects `movefunc`
(line 72 or 74); `hess`, `argx`, `jacz`, `argz` are the criterion; `jac` computes the
Jacobian matrix of line 123. `Q` and `bl` (lines 117-121) are in the model of the method. -/
def linearNonlinear (c : Core K) (square : Bool) (hess : Mat FS) (argx : List String)
    (jacz : Mat FS) (argz : List String)
    (jac : List (Env K → K) → List String → Mat K) : Option (Core K) := do
  let mv : Mat FS → ℕ → ℕ → Option (Mat FS) := if square then moveSquareM else moveColsM
  let (s, nxl) ← splitLoop (fun k (s : Core K × Mat FS) => colFree s.2 argx k)
    (fun k s => do
      let c' ← s.1.moveStor k (s.1.x.length - 1)
      let h' ← mv s.2 k (c'.x.length - 1)
      return (c', h')) hess.c 0 (c, hess)
  let (t, nwl) ← splitLoop (fun k (s : Core K × Mat FS) => colFree s.2 argz k)
    (fun k s => do
      let c' ← s.1.moveDiss k (s.1.w.length - 1)
      let h' ← mv s.2 k (c'.w.length - 1)
      return (c', h')) jacz.c 0 (s.1, jacz)
  return { t.1 with xl := nxl, wl := nwl, Zl := jac (t.1.z.take nwl) (t.1.w.take nwl) }

/-- pyphs/core/structure/splits.py:34: the entries of row `k` right of the diagonal are the
sympy zero. `nz` tells which entries are not. -/
def rowZero (nz : Mat Bool) (k : ℕ) : Bool :=
  (List.range nz.c).all fun j => !(decide (k < j) && nz.e k j)

/-- pyphs/core/structure/splits.py:18-43 `monovar_multivar`; the second component is
`dims._xnl_mono`. -/
def monovarMultivar (c : Core K) (nz : Mat Bool) : Option (Core K × ℕ) := do
  let (s, nxs) ← splitLoop (fun k (s : Core K × Mat Bool) => rowZero s.2 k)
    (fun k s => do
      let c' ← s.1.moveStor (s.1.xl + k) (s.1.x.length - 1)
      let h' ← moveSquareM s.2 k (c'.x.length - c'.xl - 1)
      return (c', h')) (c.x.length - c.xl) 0 (c, nz)
  return (s.1, nxs)

end field
end Core
end Pyphs
