/-
Model of the Faust programs written by /repo/pyphs/misc/faust/_faust.py with the template
/repo/pyphs/misc/faust/faustfx.template.

The first part is the language of block diagrams (only the constructions that are used), as documented by
Faust: a diagram has a number of inputs and of outputs, and maps signals to signals. A diagram with memory
is executed sample by sample. The second part is the generator: each definition is the diagram that the text
written by the corresponding lines of the generator denotes (priorities `~`, `,`, `:`, then `<:` and `:>`).

Not modelled: the characters of the text, names and their collisions, the text of expressions (`ccode`,
the replacement of `(-` by `(0-`), sliders (parameters have fixed values), floating-point rounding.
-/
import Mathlib.Algebra.BigOperators.Group.Finset.Basic

namespace Pyphs
namespace Faust

/-- Block diagrams. -/
inductive D (K : Type) where
  /-- `_` -/
  | wire
  /-- `!` -/
  | cut
  /-- `0. : !` -/
  | nul
  /-- `\(a1, ..., an).(expr)`, and constants for `n = 0`. -/
  | fn (n : ℕ) (f : List K → K)
  /-- `a, b` -/
  | par (a b : D K)
  /-- `a : b` -/
  | seq (a b : D K)
  /-- `a <: b` -/
  | split (a b : D K)
  /-- `a :> b` -/
  | merge (a b : D K)
  /-- `a ~ b` -/
  | recu (a b : D K)
  /-- `prefix(c, _)` -/
  | pre (c : K)

namespace D
variable {K : Type}

/-- Number of outputs. -/
def outs : D K → ℕ
  | wire => 1
  | cut => 0
  | nul => 0
  | fn _ _ => 1
  | par a b => a.outs + b.outs
  | seq _ b => b.outs
  | split _ b => b.outs
  | merge _ b => b.outs
  | recu a _ => a.outs
  | pre _ => 1

/-- Number of inputs. -/
def ins : D K → ℕ
  | wire => 1
  | cut => 1
  | nul => 0
  | fn n _ => n
  | par a b => a.ins + b.ins
  | seq a _ => a.ins
  | split a _ => a.ins
  | merge a _ => a.ins
  | recu a b => a.ins - b.outs
  | pre _ => 1

/-- The Faust compiler accepts the connections of the diagram. -/
def ok : D K → Prop
  | par a b => a.ok ∧ b.ok
  | seq a b => a.ok ∧ b.ok ∧ a.outs = b.ins
  | split a b => a.ok ∧ b.ok ∧ 0 < a.outs ∧ a.outs ∣ b.ins
  | merge a b => a.ok ∧ b.ok ∧ 0 < b.ins ∧ b.ins ∣ a.outs
  | recu a b => a.ok ∧ b.ok ∧ b.ins ≤ a.outs ∧ b.outs ≤ a.ins
  | _ => True

/-- The memory of a running diagram. -/
inductive Mem (K : Type) where
  | nil
  | val (c : K)
  | two (a b : Mem K)
  | fb (a b : Mem K) (last : List K)

/-- The memory at the first sample: signals are zero before, `prefix(c, _)` holds `c`. -/
def start [Zero K] : D K → Mem K
  | par a b => .two a.start b.start
  | seq a b => .two a.start b.start
  | split a b => .two a.start b.start
  | merge a b => .two a.start b.start
  | recu a b => .fb a.start b.start (List.replicate a.outs 0)
  | pre c => .val c
  | _ => .nil

/-- `k` copies of the outputs of the left side of `<:`. -/
def copies (k : ℕ) (l : List K) : List K := (List.replicate k l).flatten

/-- Sums of the outputs of the left side of `:>`. -/
def sums [AddCommMonoid K] (n : ℕ) (l : List K) : List K :=
  (List.range n).map fun i => ∑ k ∈ Finset.range (l.length / n), l.getD (i + k * n) 0

/-- One sample: next memory and outputs. In `a ~ b`, the inputs of `b` are the first outputs of `a` at the
previous sample and its outputs are the first inputs of `a`; `prefix(c, _)` is a delay of one sample whose
first output is `c`. -/
def step [AddCommMonoid K] : D K → Mem K → List K → Mem K × List K
  | wire, m, i => (m, i.take 1)
  | cut, m, _ => (m, [])
  | nul, m, _ => (m, [])
  | fn _ f, m, i => (m, [f i])
  | par a b, .two ma mb, i =>
    let p := a.step ma (i.take a.ins)
    let q := b.step mb (i.drop a.ins)
    (.two p.1 q.1, p.2 ++ q.2)
  | seq a b, .two ma mb, i =>
    let p := a.step ma i
    let q := b.step mb p.2
    (.two p.1 q.1, q.2)
  | split a b, .two ma mb, i =>
    let p := a.step ma i
    let q := b.step mb (copies (b.ins / a.outs) p.2)
    (.two p.1 q.1, q.2)
  | merge a b, .two ma mb, i =>
    let p := a.step ma i
    let q := b.step mb (sums b.ins p.2)
    (.two p.1 q.1, q.2)
  | recu a b, .fb ma mb last, i =>
    let q := b.step mb (last.take b.ins)
    let p := a.step ma (q.2 ++ i)
    (.fb p.1 q.1 p.2, p.2)
  | pre _, .val c, i => (.val (i.getD 0 0), [c])
  | _, m, _ => (m, [])

/-- Memory before sample `t`. -/
def mem [AddCommMonoid K] (d : D K) (u : ℕ → List K) : ℕ → Mem K
  | 0 => d.start
  | t + 1 => (d.step (mem d u t) (u t)).1

/-- The output signal of a diagram for an input signal. -/
def out [AddCommMonoid K] (d : D K) (u : ℕ → List K) (t : ℕ) : List K :=
  (d.step (d.mem u t) (u t)).2

end D

open D

variable {K : Type}

/-- `a, b, ...` -/
def pars : List (D K) → D K
  | [] => .nul
  | [a] => a
  | a :: b :: l => .par a (pars (b :: l))

/-- _faust.py:60-61 `listToAllPass`; 221-226 `code_pass`. -/
def pass (n : ℕ) : D K := pars (List.replicate n .wire)

/-- _faust.py:64-65 `listToAllTerminate`; 243-248 `code_terminate`. -/
def term (n : ℕ) : D K := pars (List.replicate n .cut)

/-- Numbers of elements of the lists of a method: `xl, xnl, wl, wnl, o, u`. -/
structure Dims where
  xl : ℕ
  xnl : ℕ
  wl : ℕ
  wnl : ℕ
  o : ℕ
  u : ℕ

namespace Dims
variable (d : Dims)

/-- `len(x)` -/
def x : ℕ := d.xl + d.xnl
/-- `len(w)` -/
def w : ℕ := d.wl + d.wnl
/-- `len(vl())` -/
def vl : ℕ := d.xl + d.wl
/-- `len(vnl())` -/
def vnl : ℕ := d.xnl + d.wnl
/-- `len(v())` -/
def v : ℕ := d.x + d.w
/-- Number of arguments `dx, w, x, o, u`. -/
def all : ℕ := d.x + (d.w + (d.x + (d.o + d.u)))
/-- Number of memorised signals, _faust.py:281. -/
def nin : ℕ := d.x * 2 + d.w + d.o

/-- faustfx.template:58: `args = x, w, x, o, u`. -/
def args : D K := .par (pass d.x) (.par (pass d.w) (.par (pass d.x) (.par (pass d.o) (pass d.u))))

/-- faustfx.template:64: `c = x, o, u`. -/
def c : D K := .par (pass d.x) (.par (pass d.o) (pass d.u))

/-- faustfx.template:65: `cT = xT, oT, uT`. -/
def cT : D K := .par (term d.x) (.par (term d.o) (term d.u))

/-- faustfx.template:72: `vlvnl2v`. -/
def vlvnl2v : D K :=
  .split (.par (pass d.vl) (pass d.vnl))
    (.par (.par (pass d.xl) (.par (term d.wl) (term d.vnl)))
    (.par (.par (term d.vl) (.par (pass d.xnl) (term d.wnl)))
    (.par (.par (term d.xl) (.par (pass d.wl) (term d.vnl)))
      (.par (term d.vl) (.par (term d.xnl) (pass d.wnl))))))

/-- faustfx.template:78: `udx`. -/
def udx [AddCommMonoid K] : D K :=
  .split d.args
    (.par (.par (pass d.x) (.par (pass d.w) d.cT))
    (.par (.merge (.par (pass d.x) (.par (term d.w) (.par (pass d.x) (.par (term d.o) (term d.u)))))
        (pass d.x))
      (.par (term d.x) (.par (term d.w) (.par (term d.x) (.par (pass d.o) (term d.u)))))))

/-- _faust.py:38-57 `faust_vector`: a vector of functions of the arguments. -/
def vector (fs : List (List K → K)) : D K :=
  if fs.length = 0 then .nul else .split d.args (pars (fs.map (.fn d.all)))

/-- faustfx.template:99: `iterationL`. -/
def iterationL (udvl : List (List K → K)) : D K :=
  .seq (.seq (.split d.args (.par (d.vector udvl) (.par (term d.vl) (.par (pass d.vnl) d.c))))
    (.par d.vlvnl2v d.c)) d.args

/-- faustfx.template:105: `iterationNL`. -/
def iterationNL (udvnl : List (List K → K)) : D K :=
  .seq (.seq (.split d.args (.par (.par (pass d.vl) (.par (term d.vnl) d.cT))
      (.par (d.vector udvnl) (.par (term d.v) d.c))))
    (.par d.vlvnl2v d.c)) d.args

/-- `${udNL} ${udL}`: _faust.py:265, 273. -/
def solve (nIt : ℕ) (udvl udvnl : List (List K → K)) : D K :=
  let last := if 0 < d.vl then d.iterationL udvl else d.args
  if 0 < d.vnl then (List.replicate nIt (d.iterationNL udvnl)).foldr .seq last else last

/-- faustfx.template:110: `iteration`, with `${udXY}` of _faust.py:276. -/
def iteration [AddCommMonoid K] (nIt : ℕ) (udvl udvnl y : List (List K → K)) : D K :=
  .split (d.solve nIt udvl udvnl) (if 0 < d.x then .par d.udx (d.vector y) else d.vector y)

/-- _faust.py:82-125 `multirecursive`: `rest` is the list of the initial values from rank `i`. -/
def recursive (ny : ℕ) : List K → D K → D K
  | [], s => s
  | c :: rest, s =>
    recursive ny rest (.split (.recu s (.pre c)) (pars (.cut :: List.replicate (rest.length + ny) .wire)))

/-- _faust.py:93-121: the initial values of the memorised signals `dx, w, x, o`. Those of the observers are
taken in the initial values of the inputs (for more observers than inputs the indices are out of the list, or
negative: not modelled). -/
def initials (dx w x u : List K) : List K := (dx ++ (w ++ (x ++ u))).take d.nin

/-- _faust.py:281-283: the process `recursion`. -/
def recursion [AddCommMonoid K] (nIt : ℕ) (udvl udvnl y : List (List K → K)) (inits : List K) : D K :=
  recursive y.length inits (d.iteration nIt udvl udvnl y)

/-- _faust.py:163-167, 190-211: `cinputs`; an element is `none` for a signal, `some c` for a constant input. -/
def inputs (l : List (Option K)) : D K :=
  pars (l.map fun a => match a with
    | none => .wire
    | some c => .fn 0 fun _ => c)

/-- faustfx.template:14: `process`. -/
def process [AddCommMonoid K] [Mul K] (gIn gOut : K) (l : List (Option K)) (nIt : ℕ)
    (udvl udvnl y : List (List K → K)) (inits : List K) : D K :=
  let gi : D K := .fn 1 fun a => a.getD 0 0 * gIn
  let go : D K := .fn 1 fun a => a.getD 0 0 * gOut
  .split (.merge (.par gi gi) (.seq (inputs l) (d.recursion nIt udvl udvnl y inits))) (.par go go)

end Dims
end Faust
end Pyphs
