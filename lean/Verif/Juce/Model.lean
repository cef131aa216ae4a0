/-
Model of the audio effects generated by /repo/pyphs/misc/juce/_fx.py: the text of `prepareToPlay` and
`processBlock` that is pasted in a plugin of the JUCE library, on top of the generated C++ object.

The text is modelled by what it computes. `none` is a text that does not compile, an exception of
the generator, or an access to memory that is not defined. Samples, sliders and gains are elements of a
field, `pow` is `x ↦ pow(10., x)`. The sliders do not move during a block. The functions of JUCE do what
their documentation says: `applyGain` multiplies the samples of a channel by a gain, `applyGainRamp` by a
gain that starts at the first value and is incremented after each sample by the difference over the number
of samples. The editor (sliders on the screen) is not modelled.
-/
import Verif.Cpp.Model

namespace Pyphs
namespace Juce

/-- The generated C++ object, as used by the effect: `set_u(value, index)`, `set_p(value, index)`,
`update()`, `y(index)`. -/
structure Plug (σ K : Type) where
  setU : K → ℕ → σ → Option σ
  setP : K → ℕ → σ → Option σ
  update : σ → Option σ
  y : ℕ → σ → Option K

/-- What the snippets are made from: indices of the ports of the inputs and outputs, names and indices
of the controlled parameters. -/
structure Fx where
  ins : List ℕ
  outs : List ℕ
  pars : List (String × ℕ)
  deriving DecidableEq

/-- Position in a list of names; `list.index` raises when the name is absent. -/
def index? (l : List String) (s : String) : Option ℕ := if s ∈ l then some (l.idxOf s) else none

/-- _fx.py:77-103, 284-285: the arguments of `method2jucefx`. Default inputs and outputs are the
first input and the last output; default parameters are all the parameters; more than two inputs or
outputs raise (an exception that is a `TypeError`, as `NotImplemented` cannot be called). -/
def mkFx (u y p : List String) (io : Option (List String × List String))
    (params : Option (List String)) : Option Fx := do
  let io ← match io with
    | some io => some io
    | none => do some ([← u.head?], [← y.getLast?])
  if 2 < io.1.length ∨ 2 < io.2.length then none
  else do
    let ins ← io.1.mapM (index? u)
    let outs ← io.2.mapM (index? y)
    let pars ← (params.getD p).mapM fun s => (index? p s).map fun i => (s, i)
    some ⟨ins, outs, pars⟩

/-- _fx.py:228 -/
def inLabel (i : ℕ) : String := "inputGain" ++ toString (i + 1)

/-- _fx.py:234 -/
def outLabel (i : ℕ) : String := "outputGain" ++ toString (i + 1)

/-- _fx.py:224-246 `audioParametersFloats`: labels of the sliders. -/
def Fx.labels (F : Fx) : List String :=
  (List.range F.ins.length).map inLabel ++ (List.range F.outs.length).map outLabel ++
    F.pars.map Prod.fst

/-- `label[0].upper() + label[1:]`: the end of the names of the members `previous...`. -/
def cap (s : String) : String :=
  match s.toList with
  | [] => ""
  | c :: l => String.ofList (c.toUpper :: l)

/-- _fx.py:284, 373, 393, 413: labels that are not those of parameters. -/
def isGain (s : String) : Bool :=
  "inputGain".toList.isPrefixOf s.toList || "outputGain".toList.isPrefixOf s.toList

/-- The parameters that the text updates. -/
def Fx.active (F : Fx) : List (String × ℕ) := F.pars.filter fun q => !isGain q.1

/-- Members of the processor: the object, and the members `previous...`. -/
structure State (σ K : Type) where
  obj : σ
  prev : String → K

variable {σ K : Type} [Field K] [DecidableEq K]

/-- _fx.py:326-342 `applygain`: the slider `lab` applied on channel `c`. -/
def applyGain (pow : K → K) (val : String → K) (n : ℕ) (lab : String) (c : ℕ)
    (s : (String → K) × List (List K)) : Option ((String → K) × List (List K)) :=
  match s.2[c]? with
  | none => none
  | some ch =>
    if val lab = s.1 (cap lab) then some (s.1, s.2.set c (ch.map (· * pow (val lab))))
    else some (Function.update s.1 (cap lab) (val lab),
      s.2.set c (ch.zipIdx.map fun q => q.1 * (pow (s.1 (cap lab)) +
        q.2 * ((pow (val lab) - pow (s.1 (cap lab))) / n))))

/-- _fx.py:345-353 `applyparameter`, at sample `i`. -/
def applyPar (D : Plug σ K) (val prev : String → K) (n i : ℕ) (o : σ) (q : String × ℕ) : Option σ :=
  D.setP (prev (cap q.1) + (val q.1 - prev (cap q.1)) * (i / n)) q.2 o

/-- Data of the loop: the object, and the channels on which `leftData` and `rightData` point. -/
structure Loop (σ K : Type) where
  obj : σ
  left : List K
  right : Option (List K)

/-- _fx.py:378-406: the loop, sample `i`. `nin` and `nout` are the numbers of channels of the host. -/
def sample (F : Fx) (D : Plug σ K) (val prev : String → K) (nin nout n : ℕ) (l : Loop σ K) (i : ℕ) :
    Option (Loop σ K) :=
  (l.left[i]?).bind fun x =>
  (F.ins[0]?).bind fun a =>
  (D.setU x a l.obj).bind fun o =>
  (if 1 < F.ins.length ∧ nin = 2 then
    l.right.bind fun r => (r[i]?).bind fun x => (F.ins[1]?).bind fun a => D.setU x a o
  else some o).bind fun o =>
  ((if 2 < F.labels.length then F.active else []).foldlM (applyPar D val prev n i) o).bind fun o =>
  (D.update o).bind fun o =>
  (F.outs[0]?).bind fun b =>
  (D.y b o).bind fun y =>
  (if 1 < F.outs.length ∧ nout = 2 then
    l.right.bind fun r => (F.outs[1]?).bind fun b => (D.y b o).map fun y => some (r.set i y)
  else some l.right).map fun r => ⟨o, l.left.set i y, r⟩

/-- The buffer after the loop: `leftData` and `rightData` point in it. -/
def Loop.buffer (l : Loop σ K) (buf : List (List K)) : List (List K) :=
  match l.right with
  | some r => (buf.set 0 l.left).set 1 r
  | none => buf.set 0 l.left

/-- _fx.py:410-415: the end of `processBlock`. The name on the left is the one that remains from the
loop of lines 371-376, which is that of the last parameter. -/
def save (F : Fx) (val prev : String → K) : String → K :=
  if 2 < F.labels.length then
    F.active.foldl (fun pr q => match F.active.getLast? with
      | some last => Function.update pr (cap last.1) (val q.1)
      | none => pr) prev
  else prev

/-- _fx.py:355-417 `processBlock`. The text declares `rightData` when there are two inputs only; it is
not initialised if the host has not two input channels. -/
def processBlock (F : Fx) (D : Plug σ K) (pow : K → K) (val : String → K) (nin nout n : ℕ)
    (s : State σ K) (buf : List (List K)) : Option (State σ K × List (List K)) :=
  if ¬ (F.labels.map cap).Nodup ∨ (F.ins.length ≤ 1 ∧ 1 < F.outs.length) then none
  else
    ((List.range F.ins.length).foldlM (fun t i => applyGain pow val n (inLabel i) i t)
      (s.prev, buf)).bind fun t =>
    (t.2[0]?).bind fun left =>
    (if 1 < F.ins.length ∧ nin = 2 then (t.2[1]?).map some else some none).bind fun right =>
    ((List.range n).foldlM (sample F D val t.1 nin nout n) ⟨s.obj, left, right⟩).bind fun l =>
    ((List.range F.outs.length).foldlM (fun t i => applyGain pow val n (outLabel i) i t)
      (t.1, l.buffer t.2)).bind fun t =>
    some (⟨l.obj, save F val t.1⟩, t.2)

/-- _fx.py:420-428 `prepareToPlay`: the members `previous...` are those of the sliders. -/
def prepare (F : Fx) (val prev : String → K) : String → K :=
  F.labels.foldl (fun pr s => Function.update pr (cap s) (val s)) prev

/-- A block: the values of the sliders and the samples of each channel. -/
structure Block (K : Type) where
  val : String → K
  n : ℕ
  buf : List (List K)

/-- The host calls `processBlock` for each block. -/
def blocks (F : Fx) (D : Plug σ K) (pow : K → K) (nin nout : ℕ) :
    State σ K → List (Block K) → Option (State σ K × List (List (List K)))
  | s, [] => some (s, [])
  | s, b :: bs =>
    (processBlock F D pow b.val nin nout b.n s b.buf).bind fun r =>
    (blocks F D pow nin nout r.1 bs).map fun q => (q.1, r.2 :: q.2)

section Gen
open Numeric Cpp
variable {N : Type} [DecidableEq N] [LinearOrder K]

/-- arguments.py:157-193: `set_name(value, index)`. -/
def setElem (G : Gen N K) (n : N) (v : K) (k : ℕ) (o : Obj N K) : Option (Obj N K) :=
  (G.src.syms n).map fun l => { o with args := l.zipIdx.foldl (fun a q =>
    if q.1 ∈ G.src.subs.map Prod.fst then a
    else if k = q.2 then a.set (G.src.all.idxOf q.1) v else a) o.args }

/-- functions.py:142-150: `name(index)`; an index out of the matrix is undefined. -/
def getElem (G : Gen N K) (n : N) (k : ℕ) (o : Obj N K) : Option K :=
  match o.fld n with
  | .m A => if k < A.r ∧ 0 < A.c then some (A.e k 0) else none
  | .s _ => none

/-- The object of the effect. -/
def plug (G : Gen N K) (eps : K) (maxit : ℕ) (acts : List (Action N)) (nU nP nY : N) :
    Plug (Obj N K) K where
  setU := setElem G nU
  setP := setElem G nP
  update := fun o => acts.foldlM (G.action eps maxit) o
  y := getElem G nY

end Gen
end Juce
end Pyphs
