/-
Model of the replacement of inverses of parameters
(/repo/pyphs/core/tools/_subsinverse.py, /repo/pyphs/core/core.py:731-743 `Core.subsinverse`).

`sympy.simplify` is an oracle. The dictionary `core.subs` is modified in place, also by calls that raise.
-/
import Verif.Sym.Model
import Mathlib.Order.Defs.LinearOrder
import Mathlib.Algebra.Ring.Defs

namespace Pyphs
namespace Sym

variable {K : Type} [Field K] [LinearOrder K]

/-- Exceptions: fuel of the model, `TypeError`, `ZeroDivisionError`. -/
inductive IErr where
  | fuel | typ | zero
  deriving DecidableEq, Repr

/-- What is asked to sympy: `f` is `sympy.simplify`, `single c` says that the class of the number `c` can be
called without argument (`S.One`, `S.Zero`, ...; the others raise `TypeError`). -/
structure Simp (K : Type) where
  f : Expr K → Expr K
  single : K → Bool

namespace Expr

/-- Symbols and numbers, the only elements of `expr.atoms()`. -/
def isAtom : Expr K → Bool
  | const _ => true
  | sym _ => true
  | _ => false

def isSym : Expr K → Bool
  | sym _ => true
  | _ => false

end Expr

/-- `subs[symb]**-1` (line 28): `0.**-1` raises for python numbers. -/
def invVal : Val K → Option (Val K)
  | .num c => if c = 0 then none else some (.num c⁻¹)
  | .ex a => some (.ex (.op2 "**" a (.const (-1))))

/-- Lines 22-29: the expression is a power of a symbol of `subs` with a negative number as exponent. -/
def invPow (d : Dict (Val K)) (f : String) (b c : Expr K) : Option (String × Val K × K) :=
  match b, c with
  | .sym s, .const k => if f = "**" ∧ k < 0 then (d.lookup s).map fun v => (s, v, k) else none
  | _, _ => none

/-- Result of a call: the value or the exception, and the dictionary. -/
abbrev IRes (K V : Type) := Except IErr V × Dict (Val K)

/-- Line 32-33: atoms are not visited. -/
def visit (rec : Dict (Val K) → Expr K → IRes K (Expr K)) (d : Dict (Val K)) (a : Expr K) :
    IRes K (Expr K) := if a.isAtom then (.ok a, d) else rec d a

/-- _subsinverse.py:13-34 `subsinverse_scalar`. -/
def inverse (S : Simp K) : ℕ → Dict (Val K) → Expr K → IRes K (Expr K)
  | 0, d, _ => (.error .fuel, d)
  | n + 1, d, a =>
    if a.isSym ∨ a.free = [] then (.ok a, d) else
    match S.f a with
    | .const c => (if S.single c then .ok (.const c) else .error .typ, d)
    | .sym _ => (.error .typ, d)
    | .op1 f b =>
      match visit (inverse S n) d b with
      | (.ok b', d') => (.ok (.op1 f b'), d')
      | (.error x, d') => (.error x, d')
    | .op2 f b c =>
      match invPow d f b c with
      | some (s, v, k) =>
        match invVal v with
        | none => (.error .zero, d)
        | some v' => (.ok (.op2 f (.sym ("inv" ++ s)) (.const (-k))), Dict.set d ("inv" ++ s) v')
      | none =>
        match visit (inverse S n) d b with
        | (.error x, d') => (.error x, d')
        | (.ok b', d') =>
          match visit (inverse S n) d' c with
          | (.error x, d'') => (.error x, d'')
          | (.ok c', d'') => (.ok (.op2 f b' c'), d'')

/-- An expression of the core; `caught` for the elements of matrices and dictionaries, where
`AttributeError` and `TypeError` are ignored (lines 78-81, 107-110). -/
structure ICell (K : Type) where
  caught : Bool
  expr : Expr K

/-- Lines 37-184: all the expressions of the core, in the order in which they are met. An exception that is not
caught leaves the remaining ones as they are. -/
def inverseAll (S : Simp K) (n : ℕ) :
    Dict (Val K) → List (ICell K) → List (ICell K) × Dict (Val K) × Option IErr
  | d, [] => ([], d, none)
  | d, c :: l =>
    match inverse S n d c.expr with
    | (.ok a, d') =>
      let r := inverseAll S n d' l
      (⟨c.caught, a⟩ :: r.1, r.2)
    | (.error x, d') =>
      if x = .typ ∧ c.caught = true then
        let r := inverseAll S n d' l
        (c :: r.1, r.2)
      else (c :: l, d', some x)

end Sym
end Pyphs
