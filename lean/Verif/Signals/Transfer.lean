/-
Model of `transferFunction` (/repo/pyphs/misc/signals/analysis.py:126-184).

Numbers are real and complex numbers. `welch` follows the source of `scipy.signal.welch` with the arguments
of the call: window of Hann, detrending by the mean, one-sided spectrum, scaling `'spectrum'`, mean over
the segments. Spectra of different lengths raise; the case where one of them has a single value, which
numpy accepts, is not modelled.
-/
import Verif.Signals.Lowpass
import Mathlib.Analysis.SpecialFunctions.Exp
import Mathlib.Analysis.SpecialFunctions.Complex.Circle

open Real

namespace Pyphs
namespace Signals
namespace Transfer

inductive Err
  /-- `ValueError`: segments of no sample, or overlapping entirely, or spectra of different lengths. -/
  | value
  /-- `IndexError`: no signal, or no frequency above the lower limit. -/
  | index
  /-- The exceptions of the low-pass filter. -/
  | filter (e : Lowpass.Err)

/-- `scipy.signal.get_window('hann', L)`. -/
noncomputable def hann (L n : ℕ) : ℝ := if L ≤ 1 then 1 else 0.5 - 0.5 * cos (2 * π * n / L)

/-- Mean of a segment of `L` samples. -/
noncomputable def mean (L : ℕ) (x : ℕ → ℝ) : ℝ := (∑ n ∈ Finset.range L, x n) / L

/-- Coefficient `k` of the discrete Fourier transform of a segment, detrended and windowed. -/
noncomputable def dft (L : ℕ) (x : ℕ → ℝ) (k : ℕ) : ℂ :=
  ∑ n ∈ Finset.range L, ((hann L n * (x n - mean L x) : ℝ) : ℂ) *
    Complex.exp (-(2 * π * Complex.I * k * n / L))

/-- Value `k` of the spectrum of one segment: the values other than the first, and than the last when `L`
is even, are doubled. -/
noncomputable def power (L : ℕ) (x : ℕ → ℝ) (k : ℕ) : ℝ :=
  (if k = 0 ∨ 2 * k = L then 1 else 2) * (Complex.normSq (dft L x k) /
    (∑ n ∈ Finset.range L, hann L n) ^ 2)

/-- Number of segments. -/
def segments (len L overlap : ℕ) : ℕ := (len - overlap) / (L - overlap)

/-- Value `k` of the spectrum: mean over the segments. -/
noncomputable def spectrum (s : List ℝ) (L overlap k : ℕ) : ℝ :=
  (∑ i ∈ Finset.range (segments s.length L overlap),
    power L (fun n => s.getD (i * (L - overlap) + n) 0) k) / segments s.length L overlap

/-- `scipy.signal.welch(s, fs, nperseg=nfft, scaling='spectrum', noverlap=noverlap)`. -/
noncomputable def welch (s : List ℝ) (fs : ℝ) (nfft : ℕ) (noverlap : Option ℕ) :
    Except Err (List ℝ × List ℝ) :=
  if s.length = 0 then .ok ([], [])
  else if nfft = 0 then .error .value
  else
    let L := min nfft s.length
    let overlap := noverlap.getD (L / 2)
    if L ≤ overlap then .error .value
    else .ok ((List.range (L / 2 + 1)).map fun k : ℕ => k * fs / L,
      (List.range (L / 2 + 1)).map fun k => spectrum s L overlap k)

open Classical in
/-- analysis.py:177-181: position of the first and of the last frequency. -/
noncomputable def limits (f : List ℝ) (fmin fmax : ℝ) : Except Err (ℕ × ℕ) :=
  match f.getLast? with
  | none => .error .index
  | some last =>
    let nfmax := if last ≤ fmax then f.length else f.findIdx fun x => fmax < x
    let nfmin := f.findIdx fun x => fmin ≤ x
    if nfmin = f.length then .error .index else .ok (nfmin, nfmax)

/-- analysis.py:168-170. -/
noncomputable def filtered (s : List ℝ) : Option ℝ → Except Err (List ℝ)
  | none => .ok s
  | some fc => match Lowpass.lowpass s fc with
    | .ok s => .ok s
    | .error e => .error (.filter e)

open Classical in
/-- A value of the transfer function; `none` stands for `nan` and `inf`. -/
noncomputable def ratio (a b : ℝ) : Option ℝ := if a = 0 then none else some (sqrt (b / a))

/-- analysis.py:126-184. The frequencies and the values. -/
noncomputable def transferFunction (sigin sigout : List ℝ) (fs : ℝ) (nfft : ℕ := 20000000000)
    (filtering : Option ℝ := none) (lim : Option (ℝ × ℝ) := none) (noverlap : Option ℕ := none) :
    Except Err (List ℝ × List (Option ℝ)) := do
  let sigin ← filtered sigin filtering
  let sigout ← filtered sigout filtering
  let (_, p1) ← welch sigin fs nfft noverlap
  let (f, p2) ← welch sigout fs nfft noverlap
  if p1.length ≠ p2.length then .error .value
  else
    let tf := List.zipWith ratio p1 p2
    let (fmin, fmax) := lim.getD (0, fs / 2)
    let (nfmin, nfmax) ← limits f fmin fmax
    .ok ((f.take nfmax).drop nfmin, (tf.take nfmax).drop nfmin)

end Transfer
end Signals
end Pyphs
