/-
Model of symbolic expressions and of the substitution of symbols
(/repo/pyphs/core/tools/_substitutions.py, /repo/pyphs/core/core.py:685-722,
/repo/pyphs/numerics/numerical_method/_method.py:730-780).

Sympy expressions are trees over constants, symbols and named operations of one or two
arguments (n-ary operations of sympy are nested). Automatic simplification of sympy is not
modelled: it does not change values.
-/
import Mathlib.Algebra.Field.Defs
import Mathlib.Data.List.Basic
import Mathlib.Data.List.Sort
import Mathlib.Logic.Function.Iterate

namespace Pyphs
namespace Sym

/-- Symbolic expressions with constants in `K`. -/
inductive Expr (K : Type) where
  | const (c : K)
  | sym (s : String)
  | op1 (f : String) (a : Expr K)
  | op2 (f : String) (a b : Expr K)
  deriving Repr, DecidableEq

/-- Meaning of the operations. -/
structure Interp (K : Type) where
  f1 : String → K → K
  f2 : String → K → K → K

variable {K : Type}

namespace Expr

/-- Value of an expression for given values of the symbols. -/
def eval (I : Interp K) (e : String → K) : Expr K → K
  | const c => c
  | sym s => e s
  | op1 f a => I.f1 f (eval I e a)
  | op2 f a b => I.f2 f (eval I e a) (eval I e b)

/-- `expr.free_symbols` (pyphs/core/tools/_free_symbols.py:46-56). -/
def free : Expr K → List String
  | const _ => []
  | sym s => [s]
  | op1 _ a => free a
  | op2 _ a b => free a ++ free b

/-- Replacement of one symbol (sympy `_subs`). -/
def subs1 (x : String) (r : Expr K) : Expr K → Expr K
  | const c => const c
  | sym s => if s = x then r else sym s
  | op1 f a => op1 f (subs1 x r a)
  | op2 f a b => op2 f (subs1 x r a) (subs1 x r b)

/-- Sequence of replacements. -/
def subsSeq (l : List (String × Expr K)) (a : Expr K) : Expr K :=
  l.foldl (fun a p => subs1 p.1 p.2 a) a

/-- sympy `expr.subs(dict)`: the pairs are sorted by the names of the symbols and the
replacements are made one after the other. -/
def subsDict (l : List (String × Expr K)) (a : Expr K) : Expr K :=
  subsSeq (l.insertionSort fun p q => p.1 ≤ q.1) a

end Expr

/-! ### Dictionaries -/

/-- A python dictionary, in order of insertion. -/
abbrev Dict (V : Type) := List (String × V)

namespace Dict
variable {V : Type}

/-- `d.keys()`. -/
def keys (d : Dict V) : List String := d.map (·.1)

/-- `d[k] = v`. -/
def set (d : Dict V) (k : String) (v : V) : Dict V :=
  if k ∈ keys d then d.map fun p => if p.1 = k then (k, v) else p else d ++ [(k, v)]

/-- `d.update(d')`. -/
def update (d d' : Dict V) : Dict V := d'.foldl (fun d p => set d p.1 p.2) d

/-- `d.pop(k)`, ignoring `KeyError`. -/
def pop (d : Dict V) (k : String) : Dict V := d.filter fun p => p.1 ≠ k

end Dict

/-- A value of a substitution dictionary: a python number or a sympy object. -/
inductive Val (K : Type) where
  | num (c : K)
  | ex (a : Expr K)

/-- `sympify(v)`. -/
def Val.expr : Val K → Expr K
  | num c => .const c
  | ex a => a

/-- The part of a core that substitutions act on: the dictionary `core.subs` and the
expressions, grouped by attribute. -/
structure SCore (K : Type) where
  subs : Dict (Val K)
  attrs : List (List (Expr K))

/-- pyphs/core/core.py:687-692 `subsexprs`: entries that are not python numbers. -/
def SCore.subsexprs (c : SCore K) : Dict (Val K) :=
  c.subs.filter fun p => match p.2 with
    | .num _ => false
    | .ex _ => true

/-- The pairs of a dictionary as expressions. -/
def pairs (d : Dict (Val K)) : List (String × Expr K) := d.map fun p => (p.1, p.2.expr)

/-- _substitutions.py:91-118 `substitute_dict`: python numbers have no method `subs`. -/
def substituteDict (d : Dict (Val K)) (s : Dict (Val K)) : Dict (Val K) :=
  d.map fun p => (p.1, match p.2 with
    | .num c => .num c
    | .ex a => .ex (a.subsDict (pairs s)))

/-- _substitutions.py:202-213: substitution in one attribute, restricted to the symbols that
occur in it. -/
def substituteAttr (s : Dict (Val K)) (a : List (Expr K)) : List (Expr K) :=
  let subs_e := s.filter fun p => decide (p.1 ∈ a.flatMap Expr.free)
  a.map (Expr.subsDict (pairs subs_e))

/-- _substitutions.py:196-222: application of a dictionary to a core. -/
def SCore.apply (c : SCore K) (s : Dict (Val K)) : SCore K :=
  { subs := (Dict.keys s).foldl Dict.pop (substituteDict c.subs s),
    attrs := c.attrs.map (substituteAttr s) }

/-- _substitutions.py:152-222 `substitute_core` (option `simplify` left out). The second
component is the dictionary given by the caller, which is modified. -/
def SCore.substitute (c : SCore K) (s : Dict (Val K)) (selfall selfexprs : Bool) :
    SCore K × Dict (Val K) :=
  if selfall then
    -- line 186: `substitute_core(core, selfexprs=True)`
    let c := c.apply (Dict.update [] c.subsexprs)
    let s := s.update c.subs
    (c.apply s, s)
  else
    let s := if selfexprs then s.update c.subsexprs else s
    (c.apply s, s)

/-! ### Evaluation point of the structure -/

/-- `x + theta*dx`. -/
def shifted (theta : K) (x dx : String) : Expr K :=
  .op2 "+" (.sym x) (.op2 "*" (.const theta) (.sym dx))

/-- _method.py:754-768: substitution built for the theta scheme: the gradient symbols `g`
are replaced by the discrete gradient, the states by `x + theta*dx`. -/
def thetaDict (xs dxs gs : List String) (grad : List (Expr K)) (theta : K) :
    List (String × Expr K) :=
  gs.zip grad ++ (xs.zip dxs).map fun p => (p.1, shifted theta p.1 p.2)

/-- _method.py:764-768: evaluation of one expression of `M` or `z` in the theta scheme. -/
def buildStructure (xs dxs gs : List String) (grad : List (Expr K)) (theta : K)
    (a : Expr K) : Expr K := a.subsDict (thetaDict xs dxs gs grad theta)

/-- _method.py:770-780: trapezoidal rule. `half` is the constant 0.5. -/
def buildStructureTrapez (xs dxs gs : List String) (grad : List (Expr K)) (one half : K)
    (a : Expr K) : Expr K :=
  .op2 "*" (.const half) (.op2 "+" a (a.subsDict (thetaDict xs dxs gs grad one)))

/-- _method.py:127-158: number of times the structure is built, depending on the option
`split`. -/
def builds (split : Bool) : ℕ := if split then 2 else 1

/-- Expression of `M` or `z` at the end of `Method.__init__` (theta scheme). -/
def methodStructure (split : Bool) (xs dxs gs : List String) (grad : List (Expr K)) (theta : K)
    (a : Expr K) : Expr K := (buildStructure xs dxs gs grad theta)^[builds split] a

/-- The same for the trapezoidal rule. -/
def methodStructureTrapez (split : Bool) (xs dxs gs : List String) (grad : List (Expr K))
    (one half : K) (a : Expr K) : Expr K :=
  (buildStructureTrapez xs dxs gs grad one half)^[builds split] a

end Sym
end Pyphs
