/-
The program that a method builds for its numerical evaluation
(/repo/pyphs/numerics/numerical_method/_method.py:200-233, 554-676).
-/
import Verif.Numeric.Interp
import Verif.Numeric.Slots
import Verif.Scheme.Method
import Mathlib.Analysis.Real.Sqrt

namespace Pyphs
namespace Numeric
open Scheme

/-- Names of the arguments, functions and operations of the update. -/
inductive Nm
  | x | dx | w | u | p | o | vl | vnl
  | ud_x | ud_o
  | jactempFll | ijactempFll | Gl | ud_vl
  | jactempFnll | Gnl | Fnl | res_Fnl
  | save_Fnl | jacGlnl | jacGnlnl | jacFnl | ijacFnl | ud_vnl | step_Fnl
  | dxH | z | y
  deriving DecidableEq, Repr

/-- A method with its parameters `p`, its observers (symbols `o`, expressions `obs`), the values
`base` of the symbols that are not arguments (`method.subs`), and the numerical options. -/
structure Num where
  m : Meth
  p : List String
  o : List String
  obs : List Sc
  base : Env ℝ
  eps : ℝ
  maxit : ℕ

/-- _method.py:200-202 `args`. -/
def Num.all (n : Num) : List String :=
  n.m.g.x ++ n.m.g.x.map dn ++ n.m.w ++ n.m.u ++ n.p ++ n.o

/-- _method.py:210-234 `init_args`, `setarg`: the symbols of each argument. -/
def Num.syms (n : Num) : Nm → Option (List String)
  | .x => some n.m.g.x
  | .dx => some (n.m.g.x.map dn)
  | .w => some n.m.w
  | .u => some n.m.u
  | .p => some n.p
  | .o => some n.o
  | .vl => some (n.m.v .l)
  | .vnl => some (n.m.v .nl)
  | _ => none

/-- Number of nonlinear unknowns, `dims.nl()`. -/
def Num.nl (n : Num) : ℕ := (n.m.v .nl).length
/-- Number of linear unknowns, `dims.l()`. -/
def Num.l (n : Num) : ℕ := (n.m.v .l).length

/-- Values of the symbols for the content of `args`. -/
def Num.env (n : Num) (args : List ℝ) : Env ℝ := envOf n.all n.base args

/-- A vector from its components. -/
def vlist (k : ℕ) (f : ℕ → ℝ) : List ℝ := (List.range k).map f

/-- The operations, _method.py:554-558 (`ud_x`), 568-576, 588-628. -/
def Num.op (n : Num) : Nm → Option (Op Nm ℝ)
  | .ud_x => some (.add (.ref .x) (.ref .dx))
  | .ijactempFll => some (.inv (.ref .jactempFll))
  | .ud_vl => some (.dot (.ref .ijactempFll) (.dot (.num (-1)) (.ref .Gl)))
  | .Fnl =>
    if 0 < n.l then
      some (.add (.ref .Gnl) (.dot (.ref .jactempFnll)
        (.dot (.ref .ijactempFll) (.dot (.num (-1)) (.ref .Gl)))))
    else some (.copy (.ref .Gnl))
  | .jacFnl =>
    if 0 < n.l then
      some (.add (.ref .jacGnlnl) (.dot (.ref .jactempFnll)
        (.dot (.ref .ijactempFll) (.dot (.num (-1)) (.ref .jacGlnl)))))
    else some (.copy (.ref .jacGnlnl))
  | .ijacFnl => some (.inv (.ref .jacFnl))
  | .save_Fnl => some (.copy (.ref .Fnl))
  | .res_Fnl => some (.norm (.ref .Fnl))
  | .step_Fnl => some (.norm (.add (.ref .Fnl) (.prod (.num (-1)) (.ref .save_Fnl))))
  | .ud_vnl => some (.add (.ref .vnl) (.prod (.num (-1)) (.dot (.ref .ijacFnl) (.ref .Fnl))))
  | _ => none

/-- The functions (C25: compiled functions have the values of the expressions). -/
noncomputable def Num.func (n : Num) : Nm → Option (List ℝ → NV ℝ)
  | .ud_o => some fun a => .v (n.obs.map fun f => f (n.env a))
  | .jactempFll => some fun a => .m (n.m.J .l .l (n.env a))
  | .jactempFnll => some fun a => .m (n.m.J .nl .l (n.env a))
  | .Gl => some fun a => .v (vlist n.l fun i => n.m.G .l i (n.env a))
  | .Gnl => some fun a => .v (vlist n.nl fun i => n.m.G .nl i (n.env a))
  | .jacGlnl => some fun a => .m (n.m.JG .l .nl (n.env a))
  | .jacGnlnl => some fun a => .m (n.m.JG .nl .nl (n.env a))
  | .dxH => some fun a => .v (n.m.dxH.map fun f => f (n.env a))
  | .z => some fun a => .v (n.m.z.map fun f => f (n.env a))
  | .y => some fun a => .v (n.m.out (n.env a))
  | _ => none

/-- The program. -/
noncomputable def Num.prog (n : Num) : Prog Nm ℝ where
  argInds := fun k => (n.syms k).map fun l => (find l n.all).2
  op := n.op
  func := n.func
  norm := fun l => Real.sqrt ((l.zipWith (· * ·) l).sum)

/-- A command given by one name. -/
def c1 (k : Nm) : Cmd Nm := ⟨k, k⟩

/-- _method.py: the list `preimplicit` after `set_execactions`. -/
def Num.pre (n : Num) : List (Cmd Nm) :=
  [⟨.x, .ud_x⟩, ⟨.o, .ud_o⟩] ++
  (if 0 < n.l then [c1 .jactempFll, c1 .ijactempFll, c1 .Gl] else []) ++
  (if 0 < n.nl then
    (if 0 < n.l then [c1 .jactempFnll] else []) ++ [c1 .Gnl, c1 .Fnl, c1 .res_Fnl]
   else [])

/-- The list `implicit`. -/
def Num.imp (n : Num) : List (Cmd Nm) :=
  [c1 .save_Fnl] ++ (if 0 < n.l then [c1 .jacGlnl] else []) ++
  [c1 .jacGnlnl, c1 .jacFnl, c1 .ijacFnl, ⟨.vnl, .ud_vnl⟩] ++
  (if 0 < n.l then [c1 .Gl] else []) ++ [c1 .Gnl, c1 .Fnl, c1 .res_Fnl, c1 .step_Fnl]

/-- The list `postimplicit`. -/
def Num.post (n : Num) : List (Cmd Nm) :=
  (if 0 < n.l then [⟨.vl, .ud_vl⟩] else []) ++ [c1 .dxH, c1 .z, c1 .y]

/-- _method.py:653-676 `set_execactions`. -/
def Num.actions (n : Num) : List (Action Nm) :=
  [.exec n.pre] ++ (if 0 < n.nl then [.iter n.imp .res_Fnl .step_Fnl] else []) ++ [.exec n.post]

/-- `Numeric.update`. -/
noncomputable def Num.update (n : Num) (u p : Option (List ℝ)) (st : St Nm ℝ) :
    Option (St Nm ℝ) :=
  n.prog.update n.eps n.maxit n.actions .u .p n.m.y.length n.p.length u p st

/-- Values of the symbols in a state. -/
def Num.E (n : Num) (st : St Nm ℝ) : Env ℝ := n.env st.args

end Numeric
end Pyphs
