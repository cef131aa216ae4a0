/-
Model of the signals (/repo/pyphs/misc/signals/synthesis/synthesis_array.py, waves.py).

Numbers are those of an ordered field with integer parts; `numpy` functions that compute the values of
a waveform or of a random noise are given functions. What is modelled is which samples are produced,
in which order, and which exceptions are raised.
-/
import Mathlib.Algebra.Order.Floor.Ring
import Mathlib.Algebra.Order.Field.Basic
import Mathlib.Data.Rat.Floor

namespace Pyphs
namespace Signals

variable {K : Type} [Field K] [LinearOrder K] [IsStrictOrderedRing K] [FloorRing K]

/-- `int(q)`: truncation. -/
def pint (q : K) : ℤ := if 0 ≤ q then ⌊q⌋ else ⌈q⌉

inductive SErr
  /-- `ValueError`: negative dimensions are not allowed. -/
  | value
  /-- `UnboundLocalError`: no cycle has been computed. -/
  | unbound
  /-- `NotImplementedError`: unknown kind of signal. -/
  | kind
  deriving DecidableEq, Repr

/-- The arguments of `signalgenerator`, with the defaults of `build_parameters`. -/
structure Par (K : Type) where
  which : String
  tsig : K
  ncycles : ℤ
  tdeb : K
  tend : K
  fs : K
  cycleRatio : K
  attackRatio : K
  decayRatio : K
  rampOn : Bool
  offset : K

/-- synthesis_array.py:20. -/
def names : List String := ["zero", "const", "sin", "cos", "noise", "step", "sweep"]

namespace Par

/-- synthesis_array.py:383. -/
def nsig (p : Par K) : ℤ := pint (p.tsig * p.fs)
/-- synthesis_array.py:384. -/
def ndeb (p : Par K) : ℤ := pint (p.tdeb * p.fs)
/-- synthesis_array.py:385. -/
def nend (p : Par K) : ℤ := pint (p.tend * p.fs)
/-- synthesis_array.py:386. -/
def non (p : Par K) : ℤ := pint (p.nsig * p.cycleRatio)
/-- synthesis_array.py:387. -/
def noff (p : Par K) : ℤ := p.nsig - p.non
/-- synthesis_array.py:389. -/
def na (p : Par K) : ℤ := pint (p.attackRatio * p.non)
/-- synthesis_array.py:390. -/
def nd (p : Par K) : ℤ := pint (p.decayRatio * p.non)

end Par

/-- synthesis_array.py:266-268 `clamp_signal`, one sample. -/
def clamp (x lo hi : K) : K := min (max x lo) hi

/-- synthesis_array.py:270-274 `ramp`. -/
def ramp (p : Par K) (i : ℤ) : K :=
  if p.rampOn then (i : K) / ((p.ncycles * p.nsig - 1 : ℤ) : K) else 1

/-- synthesis_array.py:276-287 `env`. -/
def env (p : Par K) (i : ℤ) : K :=
  (if 0 < p.nd then clamp (((p.non - i : ℤ) : K) / (p.nd : K)) 0 1 else 1) *
    (if 0 < p.na then clamp ((i : K) / (p.na : K)) 0 1 else 1)

/-- An array of `n` samples (`zeros(n)`, `ones(n)`, `uniform(-A, A, n)`, `linspace(0, T, n)`). -/
def array (n : ℤ) (f : ℕ → K) : Except SErr (List K) :=
  if n < 0 then .error .value else .ok ((List.range n.toNat).map f)

/-- synthesis_array.py:306-339: the samples of a waveform. `arange(n)`, used by the sine and the cosine,
is empty for a negative `n`; the others raise. -/
def waveform (p : Par K) (wave : ℕ → K) : Except SErr (List K) :=
  if p.which = "sin" ∨ p.which = "cos" then .ok ((List.range p.non.toNat).map wave)
  else array p.non wave

/-- synthesis_array.py:306-350: one cycle; `noise c` are the samples of the two background noises of cycle
`c`. -/
def cycle (p : Par K) (wave : ℕ → ℕ → K) (noise : ℕ → Bool → ℕ → K) (c : ℕ) :
    Except SErr (List K × List K) := do
  let s ← waveform p (wave c)
  let on := s.zipIdx.map fun q =>
    ramp p (q.2 + c * p.nsig) * env p q.2 * q.1 + noise c false q.2
  let off ← array p.noff (noise c true)
  .ok (if p.offset ≠ 0 then (on.map (· + p.offset), off.map (· + p.offset)) else (on, off))

/-- The loop over the cycles: each one replaces the variables `cycle_deb`, `cycle_end`. -/
def cycles (p : Par K) (wave : ℕ → ℕ → K) (noise : ℕ → Bool → ℕ → K) :
    List ℕ → Option (List K × List K) → Except SErr (Option (List K × List K))
  | [], acc => .ok acc
  | c :: l, _ => do
    let r ← cycle p wave noise c
    cycles p wave noise l (some r)

/-- synthesis_array.py:190-355 `signalgenerator`. `deb`, `fin` are the samples of the background noise
before and after the cycles. -/
def generate (p : Par K) (wave : ℕ → ℕ → K) (noise : ℕ → Bool → ℕ → K) (deb fin : ℕ → K) :
    Except SErr (List K) :=
  if p.which ∉ names then .error .kind
  else do
    let d ← array p.ndeb deb
    let r ← cycles p wave noise (List.range p.ncycles.toNat) none
    let e ← array p.nend fin
    match r with
    | none => .error .unbound
    | some (on, off) => .ok (d ++ on ++ off ++ e)

/-! ### WAV files -/

inductive WErr
  /-- `struct.error` of `pack('h', data)`. -/
  | pack
  /-- `ValueError`: maximum of an empty signal. -/
  | value
  /-- Division by zero, or conversion of its result to an integer. -/
  | zero
  deriving DecidableEq, Repr

/-- waves.py:15 `_maxVol`. -/
def maxVol : K := 2 ^ 15 - 1

/-- waves.py:56-58: fades. -/
def fades (nsig : ℕ) (nf : ℤ) : List K :=
  (List.range nf.toNat).map (fun n : ℕ => (n : K) / (nf : K)) ++
    List.replicate ((nsig : ℤ) - 2 * nf).toNat 1 ++
    (List.range nf.toNat).map (fun n : ℕ => ((nf - 1 - n : ℤ) : K) / (nf : K))

/-- waves.py:53-60. -/
def fade (sig : List K) (fs timefades : K) : List K :=
  if 2 * pint (timefades * fs) ≤ (sig.length : ℤ) then
    List.zipWith (· * ·) sig (fades sig.length (pint (timefades * fs)))
  else sig

/-- `pack('h', data)`: two bytes, the least significant first. -/
def pack (d : ℤ) : Except WErr (ℕ × ℕ) :=
  if -32768 ≤ d ∧ d ≤ 32767 then .ok (((d % 65536) % 256).toNat, ((d % 65536) / 256).toNat)
  else .error .pack

/-- `scipy.io.wavfile.read` of 16 bits samples. -/
def unpack (b : ℕ × ℕ) : ℤ :=
  if b.2 < 128 then (b.1 + 256 * b.2 : ℕ) else (b.1 + 256 * b.2 : ℕ) - 65536

/-- `np.max(np.abs(sig))`. -/
def maxAbs (sig : List K) : K := sig.foldr (fun a m => max |a| m) 0

/-- The parameter `normalize` of `wavwrite`. -/
inductive Norm (K : Type)
  | none
  | yes
  | scale (s : K)

/-- waves.py:74-81. -/
def Norm.value (n : Norm K) (sig : List K) : Except WErr K :=
  match n with
  | .none => .ok 1
  | .yes => if sig = [] then .error .value else .ok (if maxAbs sig = 0 then 1 else maxAbs sig)
  | .scale s => .ok s

/-- waves.py:84-85: one frame. -/
def frame (scale v : K) : Except WErr (ℕ × ℕ) :=
  if scale = 0 then .error .zero else pack (pint (maxVol * v / scale))

/-- waves.py:45-86 `wavwrite` without resampling: the frames of the file. -/
def wavwrite (sig : List K) (fs : K) (norm : Norm K) (timefades : K) :
    Except WErr (List (ℕ × ℕ)) := do
  let sig := fade sig fs timefades
  let scale ← norm.value sig
  sig.mapM (frame scale)

/-- waves.py:38-42 `wavread`: the samples. -/
def wavread (frames : List (ℕ × ℕ)) : List K := frames.map fun b => ((unpack b : ℤ) : K) / maxVol

end Signals
end Pyphs
