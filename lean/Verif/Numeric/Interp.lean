/-
Model of the execution of a numerical method by a `Numeric`
(/repo/pyphs/numerics/numerical_core/_numerical_core.py:69-237, 303-425,
/repo/pyphs/numerics/tools/_operation.py).

Names of arguments, functions and operations are the elements of a type `N`. Numbers are the
elements of an ordered field: floating-point rounding and NaN are not modelled. Exceptions of
numpy (`LinAlgError`, `ValueError`) and missing attributes are `none`.
-/
import Verif.Mat.Model
import Mathlib.Algebra.Order.Field.Basic

namespace Pyphs
namespace Numeric

/-- A numpy array with zero, one or two dimensions. -/
inductive NV (K : Type) where
  | s (c : K)
  | v (l : List K)
  | m (A : Mat K)

variable {K : Type} [Field K] [LinearOrder K]

namespace NV

/-- Elementwise operations of numpy. Arrays with different shapes are only broadcast when one
of them is a scalar; other cases are errors here (they do not occur in a method). -/
def pointwise (f : K → K → K) : NV K → NV K → Option (NV K)
  | s a, s b => some (s (f a b))
  | s a, v b => some (v (b.map (f a)))
  | v a, s b => some (v (a.map fun t => f t b))
  | s a, m B => some (m ⟨B.r, B.c, fun i j => f a (B.e i j)⟩)
  | m A, s b => some (m ⟨A.r, A.c, fun i j => f (A.e i j) b⟩)
  | v a, v b => if a.length = b.length then some (v (a.zipWith f b)) else none
  | m A, m B => if A.r = B.r ∧ A.c = B.c then some (m ⟨A.r, A.c, fun i j => f (A.e i j) (B.e i j)⟩)
      else none
  | _, _ => none

/-- `numpy.dot`. -/
def dot : NV K → NV K → Option (NV K)
  | s a, b => pointwise (· * ·) (s a) b
  | a, s b => pointwise (· * ·) a (s b)
  | v a, v b => if a.length = b.length then some (s (a.zipWith (· * ·) b).sum) else none
  | m A, v b => if A.c = b.length then
      some (v ((List.range A.r).map (A.mv fun j => b.getD j 0))) else none
  | v a, m B => if a.length = B.r then
      some (v ((List.range B.c).map (B.tr.mv fun j => a.getD j 0))) else none
  | m A, m B => if A.c = B.r then some (m (A.mul B)) else none

/-- `numpy.linalg.inv`. -/
def inv : NV K → Option (NV K)
  | m A => (A.inv).map m
  | _ => none

end NV

/-- `Operation` (_operation.py:12-48) with the functions of `PARSER` used by methods. -/
inductive Op (N K : Type) where
  | ref (n : N)
  | num (c : K)
  | add (a b : Op N K)
  | prod (a b : Op N K)
  | dot (a b : Op N K)
  | inv (a : Op N K)
  | norm (a : Op N K)
  | copy (a : Op N K)

/-- What the generators of _numerical_core.py:242-425 build: indices of the arguments in
`nums.args`, operations, compiled functions of `nums.args`; `norm` is
_operators.py:14-34. -/
structure Prog (N K : Type) where
  argInds : N → Option (List ℕ)
  op : N → Option (Op N K)
  func : N → Option (List K → NV K)
  norm : List K → K

/-- The state of a `Numeric`: the array `args` and the attributes `_name`. -/
structure St (N K : Type) where
  args : List K
  vals : N → Option (NV K)

variable {N : Type} [DecidableEq N]

omit [Field K] [LinearOrder K] in
/-- `args[inds] = vs` for arrays of the same length. -/
def assign (args : List K) (inds : List ℕ) (vs : List K) : List K :=
  (inds.zip vs).foldl (fun a p => a.set p.1 p.2) args

/-- numpy `args[inds] = value`: a scalar or an array of length one is broadcast; other
lengths raise a `ValueError`. -/
def setInds (args : List K) (inds : List ℕ) : NV K → Option (List K)
  | .s c => some (assign args inds (List.replicate inds.length c))
  | .v l => if l.length = inds.length then some (assign args inds l)
      else match l with
        | [c] => some (assign args inds (List.replicate inds.length c))
        | _ => none
  | .m _ => none

/-- `getarg_generator`, `getfunc_generator`, lines 338-360 and 393-408: the attribute `name`. -/
def Prog.get (P : Prog N K) (st : St N K) (n : N) : Option (NV K) :=
  match P.argInds n with
  | some inds => some (.v (inds.map fun i => st.args.getD i 0))
  | none => st.vals n

/-- `setarg_generator`, `setfunc_generator`, lines 364-388 and 411-425: the attribute
`set_name`. -/
def Prog.set (P : Prog N K) (st : St N K) (n : N) (val : NV K) : Option (St N K) :=
  match P.argInds n with
  | some inds => (setInds st.args inds val).map fun a => { st with args := a }
  | none => some { st with vals := Function.update st.vals n (some val) }

/-- Lines 303-333 `evalop_generator` and _operation.py:37-48 `__call__`. -/
def Prog.evalOp (P : Prog N K) (st : St N K) : Op N K → Option (NV K)
  | .ref n => P.get st n
  | .num c => some (.s c)
  | .add a b => do NV.pointwise (· + ·) (← evalOp P st a) (← evalOp P st b)
  | .prod a b => do NV.pointwise (· * ·) (← evalOp P st a) (← evalOp P st b)
  | .dot a b => do NV.dot (← evalOp P st a) (← evalOp P st b)
  | .inv a => do NV.inv (← evalOp P st a)
  | .norm a => do match ← evalOp P st a with
    | .v l => some (.s (P.norm l))
    | _ => none
  | .copy a => evalOp P st a

/-- The attribute `name_eval`: lines 149-167 `_build_eval` choose an operation or a function. -/
def Prog.eval (P : Prog N K) (st : St N K) (n : N) : Option (NV K) :=
  match P.op n with
  | some op => P.evalOp st op
  | none => (P.func n).map fun f => f st.args

/-- One command: `name`, or `(name, eval name)`. -/
structure Cmd (N : Type) where
  set : N
  eval : N

/-- Lines 206-215: execution of one command. -/
def Prog.exec (P : Prog N K) (st : St N K) (c : Cmd N) : Option (St N K) := do
  P.set st c.set (← P.eval st c.eval)

/-- Lines 202-215 `_execs`. -/
def Prog.execs (P : Prog N K) (st : St N K) (l : List (Cmd N)) : Option (St N K) :=
  l.foldlM P.exec st

/-- Result of a loop: end, exception, or not ended with the given fuel. -/
inductive Run (α : Type) where
  | ok (a : α)
  | err
  | fuel

/-- Condition of the loop, lines 227-229. `none` is the `TypeError` or `ValueError` of a
comparison with something that is not a scalar. -/
def Prog.cond (P : Prog N K) (eps : K) (maxit : ℕ) (res step : N) (st : St N K) (it : ℕ) :
    Option Bool :=
  match P.get st res with
  | some (.s r) =>
    if r > eps then
      match P.get st step with
      | some (.s t) => some (decide (t > eps) && decide (it < maxit))
      | _ => none
    else some false
  | _ => none

/-- The `while` loop of lines 227-231. -/
def Prog.loop (P : Prog N K) (eps : K) (maxit : ℕ) (cmds : List (Cmd N)) (res step : N) :
    ℕ → ℕ → St N K → Run (St N K × ℕ)
  | 0, _, _ => .fuel
  | fuel + 1, it, st =>
    match P.cond eps maxit res step st it with
    | none => .err
    | some false => .ok (st, it)
    | some true =>
      match P.execs st cmds with
      | none => .err
      | some st' => loop P eps maxit cmds res step fuel (it + 1) st'

/-- Lines 217-237 `_iterexecs`. -/
def Prog.iterexecs (P : Prog N K) (eps : K) (maxit : ℕ) (cmds : List (Cmd N)) (res step : N)
    (fuel : ℕ) (st : St N K) : Run (St N K × ℕ) :=
  match P.set st step (.s 1) with
  | none => .err
  | some st' => P.loop eps maxit cmds res step fuel 0 st'

/-- An element of `method.update_actions`. -/
inductive Action (N : Type) where
  | exec (l : List (Cmd N))
  | iter (l : List (Cmd N)) (res step : N)

/-- Lines 193-200: one action (with the fuel that `C23_terminates` shows to be enough). -/
def Prog.action (P : Prog N K) (eps : K) (maxit : ℕ) (st : St N K) : Action N → Option (St N K)
  | .exec l => P.execs st l
  | .iter l res step =>
    match P.iterexecs eps maxit l res step (maxit + 1) st with
    | .ok (st', _) => some st'
    | _ => none

/-- Lines 169-200 `update`; `nu`, `np` are `dims.y()` and `dims.p()`. -/
def Prog.update (P : Prog N K) (eps : K) (maxit : ℕ) (acts : List (Action N)) (nameU nameP : N)
    (nu np : ℕ) (u p : Option (List K)) (st : St N K) : Option (St N K) := do
  let u := u.getD (List.replicate nu 0)
  let p := p.getD (List.replicate np 0)
  let st ← P.set st nameU (.v u)
  let st ← P.set st nameP (.v p)
  acts.foldlM (P.action eps maxit) st

end Numeric
end Pyphs
