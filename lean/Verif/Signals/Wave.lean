/-
Model of the waveforms of `signalgenerator` (/repo/pyphs/misc/signals/synthesis/synthesis_array.py:40-187,
306-339), over the real numbers. `chirp` follows `scipy.signal.chirp`.
-/
import Verif.Signals.Model
import Mathlib.Analysis.SpecialFunctions.Trigonometric.Basic
import Mathlib.Analysis.SpecialFunctions.Log.Basic
import Mathlib.Analysis.SpecialFunctions.Pow.Real

open Real

namespace Pyphs
namespace Signals
namespace Wave

inductive Err
  /-- `ValueError` of `chirp`: unknown method, or frequencies it refuses. -/
  | chirp
  /-- Division by the duration of a sweep of one sample: an exception or `nan`. -/
  | duration
  /-- `TypeError`: the sweep needs a final frequency. -/
  | type
  /-- An exception of `signalgenerator`. -/
  | signal (e : SErr)

/-- The arguments of `signalgenerator` used by the waveforms. -/
structure WPar where
  A : ℝ
  A1 : ℝ
  f0 : ℝ
  /-- `None` for no second sine. -/
  f1 : Option ℝ
  /-- in degrees -/
  phi : ℝ
  method : String

/-- synthesis_array.py:64-67 `sine`. -/
noncomputable def sine (fs f0 A : ℝ) (f1 : Option ℝ) (A1 : ℝ) (i : ℕ) : ℝ :=
  A * sin (2 * π * f0 * i / fs) + match f1 with
    | some f1 => A1 * sin (2 * π * f1 * i / fs)
    | none => 0

/-- synthesis_array.py:95-98 `cosine`. -/
noncomputable def cosine (fs f0 A : ℝ) (f1 : Option ℝ) (A1 : ℝ) (i : ℕ) : ℝ :=
  A * cos (2 * π * f0 * i / fs) + match f1 with
    | some f1 => A1 * cos (2 * π * f1 * i / fs)
    | none => 0

open Classical in
/-- `scipy.signal._waveforms._chirp_phase`. -/
noncomputable def chirpPhase (method : String) (f0 f1 t1 t : ℝ) : Except Err ℝ :=
  if method ∈ ["linear", "lin", "li"] then
    .ok (2 * π * (f0 * t + 0.5 * ((f1 - f0) / t1) * t * t))
  else if method ∈ ["quadratic", "quad", "q"] then
    .ok (2 * π * (f0 * t + (f1 - f0) / t1 ^ 2 * t ^ 3 / 3))
  else if method ∈ ["logarithmic", "log", "lo"] then
    if f0 * f1 ≤ 0 then .error .chirp
    else if f0 = f1 then .ok (2 * π * f0 * t)
    else .ok (2 * π * (t1 / log (f1 / f0)) * f0 * ((f1 / f0) ^ (t / t1) - 1))
  else if method ∈ ["hyperbolic", "hyp"] then
    if f0 = 0 ∨ f1 = 0 then .error .chirp
    else if f0 = f1 then .ok (2 * π * f0 * t)
    else
      let sing := -f1 * t1 / (f0 - f1)
      .ok (2 * π * (-sing * f0) * log |1 - t / sing|)
  else .error .chirp

/-- synthesis_array.py:182-187 `sweep_cosine`: sample `i` of `n`. -/
noncomputable def sweep (n : ℤ) (fs f0 f1 A phi : ℝ) (method : String) (i : ℕ) : Except Err ℝ :=
  let T := ((n : ℝ) - 1) / fs
  match chirpPhase method f0 f1 T (i * T / ((n : ℝ) - 1)) with
  | .ok ph => .ok (A * cos (ph + phi * π / 180))
  | .error e => .error e

/-- synthesis_array.py:306-339: the samples of a cycle; `rnd` are the values of the random generator. -/
noncomputable def wave (p : Par ℝ) (q : WPar) (rnd : ℕ → ℝ) (i : ℕ) : Except Err ℝ :=
  match p.which with
  | "zero" => .ok 0
  | "const" => .ok q.A
  | "sin" => .ok (sine p.fs q.f0 q.A q.f1 q.A1 i)
  | "cos" => .ok (cosine p.fs q.f0 q.A none 1 i)
  | "noise" => .ok (rnd i)
  | "step" => .ok q.A
  | "sweep" => match q.f1 with
    | none => .error .type
    | some f1 => if p.non = 1 then .error .duration else sweep p.non p.fs q.f0 f1 q.A q.phi q.method i
  | _ => .ok 0

/-- `signalgenerator` with its waveforms. -/
noncomputable def signal (p : Par ℝ) (q : WPar) (rnd : ℕ → ℕ → ℝ) (noise : ℕ → Bool → ℕ → ℝ)
    (deb fin : ℕ → ℝ) : Except Err (List ℝ) := do
  let ws ← (List.range p.ncycles.toNat).mapM fun c => (List.range p.non.toNat).mapM (wave p q (rnd c))
  match generate p (fun c i => (ws.getD c []).getD i 0) noise deb fin with
  | .ok s => .ok s
  | .error e => .error (.signal e)

end Wave
end Signals
end Pyphs
