/-
Model of the components of the dictionary (/repo/pyphs/dictionary).

A component is the set of symbolic expressions and edges that its constructor puts in its
`Core` and its `Graph`. Expressions are those of `Verif.Sym.Model` over the reals, with the
operations that occur in the dictionary. The power `a**b` is the real power `Real.rpow`; for a
negative base with a fractional exponent, numpy yields nan: every theorem that involves such a
power has a nonnegative base.
-/
import Verif.Sym.Props
import Mathlib.Analysis.SpecialFunctions.Pow.Real
import Mathlib.Analysis.SpecialFunctions.Trigonometric.Basic

namespace Pyphs
namespace Compo
open Sym

/-- Symbolic expressions of the dictionary. -/
abbrev E := Expr ℝ

instance : Add E := ⟨.op2 "+"⟩
instance : Sub E := ⟨.op2 "-"⟩
instance : Mul E := ⟨.op2 "*"⟩
instance : Div E := ⟨.op2 "/"⟩
instance : HPow E E E := ⟨.op2 "**"⟩

/-- A symbol. -/
abbrev s (x : String) : E := .sym x

/-- A number. -/
abbrev k (c : ℝ) : E := .const c

/-- Meaning of the operations. `"pos"` is `sp.Piecewise((0., a <= 0.), (b, True))`. -/
noncomputable def realI : Interp ℝ where
  f1 f a :=
    if f = "exp" then Real.exp a
    else if f = "log" then Real.log a
    else if f = "cos" then Real.cos a
    else if f = "sqrt" then Real.sqrt a
    else if f = "tanh" then Real.tanh a
    else 0
  f2 f a b :=
    if f = "+" then a + b
    else if f = "-" then a - b
    else if f = "*" then a * b
    else if f = "/" then a / b
    else if f = "**" then a ^ b
    else if f = "pos" then (if a ≤ 0 then 0 else b)
    else 0

/-- Value of an expression. -/
noncomputable def val (ρ : String → ℝ) (a : E) : ℝ := a.eval realI ρ

/-! ### Arguments of components (dictionary/tools.py) -/

/-- The object given for a parameter: a number, a pair `(name, number)` or a name. -/
inductive Arg where
  | num (v : ℝ)
  | named (x : String) (v : ℝ)
  | str (x : String)

/-- Result of `form` (tools.py:172-217). -/
structure Form where
  symb : String
  sub : Dict ℝ
  par : Option String

/-- tools.py:172-217 `form`. -/
def form (name : String) : Arg → Form
  | .named x v => ⟨x, [(x, v)], none⟩
  | .num v => ⟨name, [(name, v)], none⟩
  | .str x => ⟨x, [], some x⟩

/-- Result of `mappars`, with the parameters added to the core of the graph. -/
structure Mapped where
  dicpars : Dict E
  subs : Dict ℝ
  p : List String

/-- tools.py:221-236 `mappars`. -/
def mappars (label : String) (kwargs : Dict Arg) : Mapped :=
  kwargs.foldl (fun m a =>
    let f := form (label ++ "_" ++ a.1) a.2
    { dicpars := m.dicpars.set a.1 (s f.symb)
      subs := m.subs.update f.sub
      p := match f.par with
        | none => m.p
        | some x => m.p ++ [x] }) ⟨[], [], []⟩

/-! ### Components -/

/-- Type of control of an edge. -/
inductive Ctrl where
  | e | f | q
  deriving DecidableEq

/-- Type of an edge. -/
inductive EType where
  | storage | dissipative | port | connector
  deriving DecidableEq

/-- An edge with its data. `ze` and `zf` are `z['e_ctrl']` and `z['f_ctrl']`. -/
structure Edge where
  n1 : String
  n2 : String
  label : String
  type : EType
  ctrl : Ctrl
  ze : E
  zf : E

/-- What a constructor puts in `self` and `self.core`. -/
structure Comp where
  edges : List Edge
  xs : List String
  H : E
  ws : List String
  zs : List E
  subs : Dict ℝ
  p : List String

/-- The node of reference (config.py `datum`). -/
def datum : String := "#"

/-- edges/dissipatives.py:41-61. -/
def dissipativeLinear (label n1 n2 : String) (coeff : Arg) (inv_coeff : Bool) : Comp :=
  let c := form (label ++ "coeff") coeff
  let w := "w" ++ label
  let z_f := s c.symb * s w
  let z_e := s w / s c.symb
  let z : E × E := if inv_coeff then (z_e, z_f) else (z_f, z_e)
  { edges := [⟨n1, n2, w, .dissipative, .q, z.2, z.1⟩]
    xs := []
    H := k 0
    ws := [w]
    zs := [z.1]
    subs := c.sub
    p := if c.sub = [] then [c.symb] else [] }

/-- edges/dissipatives.py:106-137. -/
def dissipativeNonLinear (label : String) (edges : List Edge) (w : List String) (z : List E)
    (kwargs : Dict Arg) : Comp :=
  let m := mappars label kwargs
  { edges := edges.map fun a =>
      ⟨a.n1, a.n2, a.label, a.type, a.ctrl, a.ze.subsDict m.dicpars, a.zf.subsDict m.dicpars⟩
    xs := []
    H := k 0
    ws := w
    zs := z.map (Expr.subsDict m.dicpars)
    subs := m.subs
    p := m.p }

/-- edges/storages.py:23-46. -/
def storageLinear (label n1 n2 : String) (value : Arg) (inv_coeff : Bool) (ctrl : Ctrl) : Comp :=
  let c := form (label ++ "coeff") value
  let x := "x" ++ label
  let coeff : E := if inv_coeff then s c.symb ^ k (-1) else s c.symb
  { edges := [⟨n1, n2, x, .storage, ctrl, k 0, k 0⟩]
    xs := [x]
    H := coeff * s x ^ k 2 / k 2
    ws := []
    zs := []
    subs := c.sub
    p := if c.sub = [] then [c.symb] else [] }

/-- edges/storages.py:86-99. -/
def storageNonLinear (label : String) (edges : List Edge) (x : String) (H : E)
    (kwargs : Dict Arg) : Comp :=
  let m := mappars label kwargs
  { edges := edges
    xs := [x]
    H := H.subsDict m.dicpars
    ws := []
    zs := []
    subs := m.subs
    p := m.p }

/-! ### Linear components -/

/-- `kwargs[par] is None → 0` in the linear dissipative components. -/
noncomputable def orZero : Option Arg → Arg
  | none => .num 0
  | some a => a

/-- electronics/_resistor.py:18-23 and magnetics/_resistor.py:19-26. -/
noncomputable def resistor (label n1 n2 : String) (R : Option Arg) : Comp :=
  dissipativeLinear label n1 n2 (orZero R) false

/-- mechanics/_damper.py:17-25. -/
noncomputable def damper (label n1 n2 : String) (A : Option Arg) : Comp :=
  dissipativeLinear label n1 n2 (orZero A) true

/-- mechanics_dual/_damper.py:18-26. -/
noncomputable def damperDual (label n1 n2 : String) (A : Option Arg) : Comp :=
  dissipativeLinear label n1 n2 (orZero A) false

/-- electronics/_capacitor.py:33-46. The default value is the string `'1e-9'` (line 55). -/
def capacitor (label n1 n2 : String) (C : Option Arg) : Comp :=
  storageLinear label n1 n2 (C.getD (.str "1e-9")) true .f

/-- electronics/_inductor.py:18-26 (the parameter has to be given). -/
def inductor (label n1 n2 : String) (L : Arg) : Comp :=
  storageLinear label n1 n2 L true .e

/-- mechanics/_mass.py:18-29. -/
def mass (label n : String) (M : Arg) : Comp :=
  storageLinear label datum n M true .f

/-- mechanics/_stiffness.py:17-29. -/
def stiffness (label n1 n2 : String) (K : Arg) : Comp :=
  storageLinear label n1 n2 K false .e

/-- mechanics_dual/_mass.py:18-29. -/
def massDual (label n1 n2 : String) (M : Arg) : Comp :=
  storageLinear label n1 n2 M true .e

/-- mechanics_dual/_stiffness.py:18-25. -/
def stiffnessDual (label n1 n2 : String) (K : Arg) : Comp :=
  storageLinear label n1 n2 K false .f

/-- magnetics/_capacitor.py:21-30. -/
def magCapacitor (label n1 n2 : String) (C : Arg) : Comp :=
  storageLinear label n1 n2 C true .f

/-! ### Nonlinear dissipative components -/

/-- config.py:81. -/
noncomputable def GMIN : ℝ := 1e-12

/-- electronics/_diode.py:90-93. -/
noncomputable def diodeDefaults : Dict Arg :=
  [("Is", .num 2e-9), ("mu", .num 1.7), ("R", .num 0.5), ("v0", .num 26e-3)]

/-- electronics/_diode.py:23-25. -/
noncomputable def diodePars (kwargs : Dict Arg) : Dict Arg :=
  (diodeDefaults.update kwargs).update [("gmin", .named "gmin" GMIN)]

/-- electronics/_diode.py:21-79. -/
noncomputable def diode (label N1 N2 : String) (kwargs : Dict Arg) : Comp :=
  let w0 := "w" ++ label
  let w1 := "w" ++ label ++ "_R"
  let w2 := "w" ++ label ++ "_gmin"
  let zd_e := s "Is" * (.op1 "exp" (s w0 / (s "mu" * s "v0")) - k 1)
  let zd_f := s "mu" * s "v0" * .op1 "log" (s w0 / s "Is" + k 1)
  let z_e := s w1 / s "R"
  let z_f := s "R" * s w1
  let zg_e := s w2 * s "gmin"
  let zg_f := s w2 / s "gmin"
  let iN2 := N2 ++ label
  dissipativeNonLinear label
    [⟨N1, iN2, w0, .dissipative, .q, zd_e, zd_f⟩,
     ⟨iN2, N2, w1, .dissipative, .q, z_e, z_f⟩,
     ⟨N1, iN2, w2, .dissipative, .q, zg_e, zg_f⟩]
    [w0, w1, w2] [zd_f, z_f, zg_f] (diodePars kwargs)

/-- electronics/_bjt.py:93-100. -/
noncomputable def bjtDefaults : Dict Arg :=
  [("Is", .num 1e-12), ("betaR", .num 10), ("betaF", .num 200), ("Vt", .num 26e-3),
   ("mu", .num 1), ("Rb", .num 20), ("Rc", .num 0.1), ("Re", .num 0.1)]

/-- electronics/_bjt.py:22-85. -/
noncomputable def bjt (label Nb Nc Ne : String) (kwargs : Dict Arg) : Comp :=
  let wbc := "w" ++ label ++ "bc"
  let wbe := "w" ++ label ++ "be"
  let f := fun w => s "Is" * (.op1 "exp" (s w / (s "mu" * s "Vt")) - k 1) + k GMIN * s w
  let zbc := (s "betaR" + k 1) / s "betaR" * f wbc + k (-1) * f wbe
  let zbe := k (-1) * f wbc + (s "betaF" + k 1) / s "betaF" * f wbe
  let wrb := "w" ++ label ++ "rb"
  let wrc := "w" ++ label ++ "rc"
  let wre := "w" ++ label ++ "re"
  let iNb := label ++ "_" ++ Nb
  let iNc := label ++ "_" ++ Nc
  let iNe := label ++ "_" ++ Ne
  dissipativeNonLinear label
    [⟨iNb, iNc, wbc, .dissipative, .e, zbc, k 0⟩,
     ⟨iNb, iNe, wbe, .dissipative, .e, zbe, k 0⟩,
     ⟨Nb, iNb, wrb, .dissipative, .q, s wrb / s "Rb", s "Rb" * s wrb⟩,
     ⟨Nc, iNc, wrc, .dissipative, .q, s wrc / s "Rc", s "Rc" * s wrc⟩,
     ⟨Ne, iNe, wre, .dissipative, .q, s wre / s "Re", s "Re" * s wre⟩]
    [wbc, wbe, wrb, wrc, wre]
    [zbc, zbe, s "Rb" * s wrb, s "Rc" * s wrc, s "Re" * s wre]
    (bjtDefaults.update kwargs)

/-- electronics/_potentiometer.py:64-66. -/
noncomputable def potDefaults : Dict Arg :=
  [("R", .num 1e5), ("A", .str "alpha"), ("E", .num 1)]

/-- electronics/_potentiometer.py:19-56. -/
noncomputable def potentiometer (label N1 N2 N3 : String) (kwargs : Dict Arg) : Comp :=
  let w1 := "w" ++ label ++ "1"
  let w2 := "w" ++ label ++ "2"
  let R1 := k 1 + s "R" * s "A" ^ s "E"
  let R2 := k 1 + s "R" * (k 1 - s "A" ^ s "E")
  dissipativeNonLinear label
    [⟨N1, N2, w1, .dissipative, .q, s w1 / R1, R1 * s w1⟩,
     ⟨N2, N3, w2, .dissipative, .q, s w2 / R2, R2 * s w2⟩]
    [w1, w2] [R1 * s w1, R2 * s w2] (potDefaults.update kwargs)

/-- electronics/_triode.py:92-99. -/
noncomputable def triodeDefaults : Dict Arg :=
  [("mu", .num 88), ("Ex", .num 1.4), ("Kg", .num 1060), ("Kp", .num 600), ("Kvb", .num 300),
   ("Vct", .num 0.5), ("Va", .num 0.33), ("Rgk", .num 3000)]

/-- electronics/_triode.py:34-35 `sign`. -/
noncomputable def tsign (a : E) : E := .op1 "tanh" (a / k GMIN)

/-- electronics/_triode.py:21-85. -/
noncomputable def triode (label Nk Np Ng : String) (kwargs : Dict Arg) : Comp :=
  let pk := "w" ++ label ++ "pk"
  let gk := "w" ++ label ++ "gk"
  let igk := (k 1 + tsign (s gk - s "Va")) / k 2 / s "Rgk"
  let e1 := s gk + s "Vct"
  let e2 := .op1 "sqrt" (s "Kvb" + s pk ^ k 2)
  let e3 := s "Kp" * (s "mu" ^ k (-1) + e1 / e2)
  let exprE := s pk / s "Kp" * .op1 "log" (k 1 + .op1 "exp" e3)
  let ipk := exprE ^ s "Ex" * (k 1 + tsign exprE) / s "Kg"
  let z1 := ipk + (s pk + s gk) * k GMIN
  let z2 := igk + (s pk + s gk) * k GMIN
  dissipativeNonLinear label
    [⟨Np, Nk, pk, .dissipative, .e, z1, k 0⟩,
     ⟨Ng, Nk, gk, .dissipative, .e, z2, k 0⟩]
    [pk, gk] [z1, z2] (triodeDefaults.update kwargs)

/-- thermics/_transfers.py:19-60. The temperatures of the nodes are the symbols `gx<node>`. -/
noncomputable def transfer (label N1 N2 : String) (kwargs : Dict Arg) : Comp :=
  let w0 := "w" ++ label ++ "_0"
  let w1 := "w" ++ label ++ "_1"
  let z1 := s "R" * (s w0 - s w1) / s ("gx" ++ N1)
  let z2 := s "R" * (s w1 - s w0) / s ("gx" ++ N2)
  dissipativeNonLinear label
    [⟨datum, N1, w0, .dissipative, .e, z1, k 0⟩,
     ⟨datum, N2, w1, .dissipative, .e, z2, k 0⟩]
    [w0, w1] [z1, z2] kwargs

/-! ### Nonlinear storages -/

/-- mechanics/_springcubic.py:56-58. -/
noncomputable def cubicDefaults : Dict Arg :=
  [("F1", .num 10), ("F3", .num 10), ("xref", .num 1e-2)]

/-- mechanics/_springcubic.py:18-43; mechanics_dual has `ctrl = 'f'`. -/
noncomputable def springcubic (label N1 N2 : String) (ctrl : Ctrl) (kwargs : Dict Arg) : Comp :=
  let x := "x" ++ label
  let H := s "F1" * s x ^ k 2 / (k 2 * s "xref") + s "F3" * s x ^ k 4 / (k 4 * s "xref" ^ k 3)
  storageNonLinear label [⟨N1, N2, x, .storage, ctrl, k 0, k 0⟩] x H (cubicDefaults.update kwargs)

/-- mechanics/_springsat.py:33-35 and magnetics/_capacitorsat.py:28-30: the function `Hsat`
of the variable `x` with the saturation `xsat`. -/
noncomputable def hsat (x xsat : String) : E :=
  let t1 := k Real.pi * s x / (k 2 * s xsat)
  let c1 := k 8 * s xsat / (k Real.pi * (k 4 - k Real.pi))
  c1 * (.op1 "log" (.op1 "cos" t1) + t1 ^ k 2 / k 2)

/-- mechanics/_springsat.py:72-74. -/
noncomputable def satDefaults : Dict Arg :=
  [("K0", .num 1e3), ("Ksat", .num 1e3), ("xsat", .num 1e-2)]

/-- mechanics/_springsat.py:19-51; mechanics_dual has `ctrl = 'f'`. -/
noncomputable def springsat (label N1 N2 : String) (ctrl : Ctrl) (kwargs : Dict Arg) : Comp :=
  let x := "x" ++ label
  let H := s "K0" * (s x ^ k 2 / k 2 - s "Ksat" * hsat x "xsat")
  storageNonLinear label [⟨N1, N2, x, .storage, ctrl, k 0, k 0⟩] x H (satDefaults.update kwargs)

/-- magnetics/_capacitorsat.py:66-68. -/
noncomputable def capsatDefaults : Dict Arg :=
  [("C0", .num 1e3), ("Csat", .num 1e3), ("phisat", .num 1e-1)]

/-- magnetics/_capacitorsat.py:19-46. -/
noncomputable def capacitorsat (label N1 N2 : String) (kwargs : Dict Arg) : Comp :=
  let x := "x" ++ label
  let H := (s x ^ k 2 / k 2 - s "Csat" * hsat x "phisat") / s "C0"
  storageNonLinear label [⟨N1, N2, x, .storage, .f, k 0, k 0⟩] x H (capsatDefaults.update kwargs)

/-- thermics/_capacitor.py:62-63. -/
noncomputable def thermDefaults : Dict Arg := [("C", .num 1e3), ("T0", .num 273.16)]

/-- thermics/_capacitor.py:20-51; `NameError` if the label is not the name of the node. -/
noncomputable def thermCapacitor (label node : String) (kwargs : Dict Arg) : Option Comp :=
  if label ≠ node then none
  else
    let x := "x" ++ label
    let H := s "C" * s "T0" * .op1 "exp" (s x / s "C")
    some (storageNonLinear label [⟨datum, node, x, .storage, .f, k 0, k 0⟩] x H
      (thermDefaults.update kwargs))

/-- mechanics/_felt.py:69-72. -/
noncomputable def feltDefaults : Dict Arg :=
  [("L", .num 1e-2), ("F", .num 10), ("A", .num 1e2), ("B", .num 2.5)]

/-- mechanics/_felt.py:19-53. The component has a storage and a dissipative edge. -/
noncomputable def felt (label N1 N2 : String) (kwargs : Dict Arg) : Comp :=
  let m := mappars label (feltDefaults.update kwargs)
  let x := "q" ++ label
  let w := "dtq" ++ label
  let hnl : E := .op2 "pos" (s x)
    (s "L" * s "F" / (s "B" + k 1) * (s x / s "L") ^ (s "B" + k 1))
  let r : E := .op2 "pos" (s x) (s "A" * s "L" / s "B" * (s x / s "L") ^ (s "B" - k 1))
  let hnl := hnl.subsDict m.dicpars
  let r := r.subsDict m.dicpars
  { edges := [⟨N1, N2, x, .storage, .e, k 0, k 0⟩,
              ⟨N1, N2, w, .dissipative, .e, r * s w, k 0⟩]
    xs := [x]
    H := hnl
    ws := [w]
    zs := [r * s w]
    subs := m.subs
    p := m.p }

end Compo
end Pyphs
