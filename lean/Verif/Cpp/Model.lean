/-
Model of the C++ object generated from a method (/repo/pyphs/numerics/cpp/).

The generated class is modelled by its members and by what each generated member function does to
them; a text that would not compile (shapes that do not match, missing member) is `none`. Numbers
are the elements of a field. `Matrix::inverse` of Eigen is a function `einv` about which nothing is
assumed for singular matrices. The values of the static local variables of the accessors are
recomputed at each call and are not part of the state.
-/
import Verif.Numeric.Interp
import Verif.Numeric.Slots

namespace Pyphs
namespace Cpp
open Numeric

/-- A scalar expression: its value, its free symbols, and the fact that it depends on nothing
else. -/
structure Ent (K : Type) where
  ev : (String → K) → K
  free : List String
  congr : ∀ e e' : String → K, (∀ s ∈ free, e s = e' s) → ev e = ev e'

/-- The expression of a function of a method: a vector or a matrix. -/
inductive FE (K : Type) where
  | vec (n : ℕ) (e : ℕ → Ent K)
  | mat (r c : ℕ) (e : ℕ → ℕ → Ent K)

/-- Number of columns of the C++ matrix of a vector: `Matrix<double, n, 1>`, or
`Matrix<double, 0, 0>` when it is empty (arguments.py:93-97, `sympy.SparseMatrix([])`). -/
def col (n : ℕ) : ℕ := if n = 0 then 0 else 1

namespace FE
variable {K : Type}

def r : FE K → ℕ
  | vec n _ => n
  | mat r _ _ => r

def c : FE K → ℕ
  | vec n _ => col n
  | mat _ c _ => c

def ent : FE K → ℕ → ℕ → Ent K
  | vec _ e => fun i _ => e i
  | mat _ _ e => e

/-- Value in Python. -/
def val (env : String → K) : FE K → NV K
  | vec n e => .v ((List.range n).map fun i => (e i).ev env)
  | mat r c e => .m ⟨r, c, fun i j => (e i j).ev env⟩

end FE

/-- What the generator reads in a method: `args()`, the symbols of each argument, the operations
and functions, `subs` in the order of its keys, `fs`, `update_actions_deps()`. -/
structure Src (N K : Type) where
  all : List String
  syms : N → Option (List String)
  op : N → Option (Op N K)
  fe : N → Option (FE K)
  subs : List (String × K)
  fs : String
  deps : List N

/-- A C++ value: `double` or `Matrix<double, r, c>`. -/
inductive CV (K : Type) where
  | s (c : K)
  | m (A : Mat K)

/-- The generated code: the method, the array `subs` of parameters.cpp, the initial sample rate,
the initial values of the arguments, `sqrt`, `inverse`. -/
structure Gen (N K : Type) where
  src : Src N K
  tab : List (List K)
  fs0 : K
  inits : List (N × List K)
  sqrt : K → K
  einv : Mat K → Mat K

/-- Members of the object: `args`, `sampleRate`, and the members `_name`. -/
structure Obj (N K : Type) where
  args : List K
  sr : K
  fld : N → CV K

variable {K : Type} [Field K] [LinearOrder K] {N : Type} [DecidableEq N]

/-- method2cpp.py:267-271: the index `i` of the pointer `& subs[0][i]` of a parameter. -/
def Src.slot (S : Src N K) (s : String) : Option ℕ :=
  if s ∈ S.subs.map Prod.fst then some ((S.subs.map Prod.fst).idxOf s) else none

/-- The value `*s` of a symbol: `F_S` points to `sampleRate` (method2cpp.py:252-255), parameters to
`subs` (267-271), arguments that are not parameters to `args` (arguments.py:34-50). The value 0 of
other symbols is not used: `init_eval` (method2cpp.py:48-58) raises when there are any. -/
def Gen.env (G : Gen N K) (o : Obj N K) (s : String) : K :=
  if s = G.src.fs then o.sr
  else match G.src.slot s with
    | some i => (G.tab.getD 0 []).getD i 0
    | none => if s ∈ G.src.all then o.args.getD (G.src.all.idxOf s) 0 else 0

/-- functions.py:177-178, 224-225: does the expression contain an argument? -/
def Src.dep (S : Src N K) (e : Ent K) : Bool := e.free.any fun s => decide (s ∈ S.all)

/-- Coefficient of a member. -/
def CV.at (v : CV K) (i j : ℕ) : K :=
  match v with
  | .m A => A.e i j
  | .s _ => 0

/-- functions.py:172-182: `name_update()` of a function. -/
def Gen.fnUpdate (G : Gen N K) (o : Obj N K) (n : N) (f : FE K) : Obj N K :=
  { o with fld := Function.update o.fld n (.m ⟨f.r, f.c, fun i j =>
      if G.src.dep (f.ent i j) then (f.ent i j).ev (G.env o) else (o.fld n).at i j⟩) }

/-- Accessors `name()`, arguments.py:78-105, functions.py and operations.py. -/
def Gen.get (G : Gen N K) (o : Obj N K) (n : N) : CV K :=
  match G.src.syms n with
  | some l => .m ⟨l.length, col l.length, fun i _ => G.env o (l.getD i "")⟩
  | none => o.fld n

/-- `a + b` in C++. -/
def CV.add : CV K → CV K → Option (CV K)
  | s a, s b => some (s (a + b))
  | m A, m B => if A.r = B.r ∧ A.c = B.c then some (m (A.add B)) else none
  | _, _ => none

/-- `a * b` in C++. -/
def CV.mul : CV K → CV K → Option (CV K)
  | s a, s b => some (s (a * b))
  | s a, m B => some (m ⟨B.r, B.c, fun i j => a * B.e i j⟩)
  | m A, s b => some (m ⟨A.r, A.c, fun i j => A.e i j * b⟩)
  | m A, m B => if A.c = B.r then some (m (A.mul B)) else none

/-- operations.py:27-44 `op2cpp`, and the value of the text it returns. `prod` and `dot` give the
same text. -/
def Gen.evalOp (G : Gen N K) (o : Obj N K) : Op N K → Option (CV K)
  | .ref n => some (G.get o n)
  | .num c => some (.s c)
  | .add a b => do CV.add (← evalOp G o a) (← evalOp G o b)
  | .prod a b => do CV.mul (← evalOp G o a) (← evalOp G o b)
  | .dot a b => do CV.mul (← evalOp G o a) (← evalOp G o b)
  | .inv a => do match ← evalOp G o a with
    | .m A => if A.r = A.c then some (.m (G.einv A)) else none
    | .s _ => none
  | .norm a => do match ← evalOp G o a with
    | .m A => if A.c = col A.r then
        some (.s (G.sqrt ((List.range A.r).map fun i => A.e i 0 * A.e i 0).sum)) else none
    | .s _ => none
  | .copy a => evalOp G o a

/-- operations.py:92-98: `name_update()` of an operation. -/
def Gen.opUpdate (G : Gen N K) (o : Obj N K) (n : N) (op : Op N K) : Option (Obj N K) := do
  some { o with fld := Function.update o.fld n (← G.evalOp o op) }

/-- `name_update()`. -/
def Gen.refresh (G : Gen N K) (o : Obj N K) (n : N) : Option (Obj N K) :=
  match G.src.op n with
  | some op => G.opUpdate o n op
  | none => (G.src.fe n).map (G.fnUpdate o n)

/-- arguments.py:128-132: the assignments `*symb = m(i, 0)`, without those of the parameters. -/
def Src.store (S : Src N K) (args : List K) (l : List String) (f : ℕ → K) : List K :=
  (l.zipIdx).foldl (fun a p => if p.1 ∈ S.subs.map Prod.fst then a
    else a.set (S.all.idxOf p.1) (f p.2)) args

/-- arguments.py:108-133: `set_name(m)`. -/
def Gen.setArg (G : Gen N K) (o : Obj N K) (n : N) (v : CV K) : Option (Obj N K) :=
  match G.src.syms n with
  | none => none
  | some l =>
    match v with
    | .s _ => none
    | .m A => if A.r = l.length ∧ A.c = col l.length then
        some { o with args := G.src.store o.args l fun i => A.e i 0 } else none

/-- arguments.py:136-155: `set_name(v)` for a vector `v`. -/
def Gen.setVec (G : Gen N K) (o : Obj N K) (n : N) (w : List K) : Option (Obj N K) :=
  match G.src.syms n with
  | none => none
  | some l => some { o with args := G.src.store o.args l fun i => w.getD i 0 }

/-- method2cpp.py:469-477 `execs`: one command. -/
def Gen.exec (G : Gen N K) (o : Obj N K) (c : Cmd N) : Option (Obj N K) := do
  let o ← G.refresh o c.eval
  if c.set = c.eval then some o else G.setArg o c.set (o.fld c.eval)

/-- method2cpp.py:469-477 `execs`. -/
def Gen.execs (G : Gen N K) (o : Obj N K) (l : List (Cmd N)) : Option (Obj N K) :=
  l.foldlM G.exec o

/-- The condition of the loop, method2cpp.py:484-488. -/
def Gen.cond (G : Gen N K) (eps : K) (maxit : ℕ) (res step : N) (o : Obj N K) (it : ℕ) :
    Option Bool :=
  match G.get o res, G.get o step with
  | .s r, .s t => some (decide (it < maxit) && decide (r > eps) && decide (t > eps))
  | _, _ => none

/-- The loop, method2cpp.py:487-490. -/
def Gen.loop (G : Gen N K) (eps : K) (maxit : ℕ) (cmds : List (Cmd N)) (res step : N) :
    ℕ → ℕ → Obj N K → Run (Obj N K)
  | 0, _, _ => .fuel
  | fuel + 1, it, o =>
    match G.cond eps maxit res step o it with
    | none => .err
    | some false => .ok o
    | some true =>
      match G.execs o cmds with
      | none => .err
      | some o' => loop G eps maxit cmds res step fuel (it + 1) o'

/-- method2cpp.py:480-491 `iterate`. -/
def Gen.iterate (G : Gen N K) (eps : K) (maxit : ℕ) (cmds : List (Cmd N)) (res step : N)
    (fuel : ℕ) (o : Obj N K) : Run (Obj N K) :=
  G.loop eps maxit cmds res step fuel 0 { o with fld := Function.update o.fld step (.s 1) }

/-- method2cpp.py:494-509: one action of `update()`. -/
def Gen.action (G : Gen N K) (eps : K) (maxit : ℕ) (o : Obj N K) : Action N → Option (Obj N K)
  | .exec l => G.execs o l
  | .iter l res step =>
    match G.iterate eps maxit l res step (maxit + 1) o with
    | .ok o' => some o'
    | _ => none

/-- simu2cpp.py:92-101: the inputs are set, then method2cpp.py:494-509 `update()`. -/
def Gen.update (G : Gen N K) (eps : K) (maxit : ℕ) (acts : List (Action N)) (nameU nameP : N)
    (u p : List K) (o : Obj N K) : Option (Obj N K) := do
  let o ← G.setVec o nameU u
  let o ← G.setVec o nameP p
  acts.foldlM (G.action eps maxit) o

/-- functions.py:252-287: the names of `deps` that are functions are updated in order. -/
def Gen.initFns (G : Gen N K) (o : Obj N K) : Obj N K :=
  G.src.deps.foldl (fun o n => match G.src.op n, G.src.fe n with
    | none, some f => G.fnUpdate o n f
    | _, _ => o) o

/-- operations.py:170-178: the operations of `deps` are updated in order. -/
def Gen.initOps (G : Gen N K) (o : Obj N K) : Option (Obj N K) :=
  G.src.deps.foldlM (fun o n => match G.src.op n with
    | some op => G.opUpdate o n op
    | none => some o) o

/-- method2cpp.py:372-378 `init()`: arguments, then functions, then operations. -/
def Gen.init (G : Gen N K) (o : Obj N K) : Option (Obj N K) := do
  let o ← G.inits.foldlM (fun o p => G.setVec o p.1 p.2) o
  G.initOps (G.initFns o)

/-- functions.py:213-233, 270-287: data of a function at construction. -/
def Gen.data (G : Gen N K) (o : Obj N K) (f : FE K) : CV K :=
  .m ⟨f.r, f.c, fun i j => if G.src.dep (f.ent i j) then 0 else (f.ent i j).ev (G.env o)⟩

/-- method2cpp.py:396-408: the constructor, on uninitialised memory `junk`. -/
def Gen.construct (G : Gen N K) (junk : Obj N K) : Option (Obj N K) :=
  let o : Obj N K := { junk with sr := G.fs0 }
  G.init { o with fld := fun n =>
    match G.src.op n, G.src.fe n with
    | none, some f => if n ∈ G.src.deps then G.data o f else junk.fld n
    | _, _ => junk.fld n }

/-- method2cpp.py:259-264 `set_sampleRate`. -/
def Gen.setSampleRate (G : Gen N K) (o : Obj N K) (fs : K) : Option (Obj N K) :=
  G.init { o with sr := fs }

end Cpp
end Pyphs
