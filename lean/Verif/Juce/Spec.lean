/-
What an audio effect made from a method should compute: the method receives the samples multiplied by
the input gains, and its outputs are multiplied by the output gains. Gains and parameters go linearly from
one value to the next during a block.
-/
import Mathlib.Algebra.Field.Basic
import Mathlib.Data.List.Basic

namespace Pyphs
namespace Juce

variable {K : Type} [Field K]

/-- Linear interpolation from `a` to `b` in `n` samples, at sample `i`. -/
def ramp (a b : K) (n i : ℕ) : K := a + (b - a) * (i / n)

/-- Some elements of a vector are replaced. -/
def write (u : List K) (l : List (ℕ × K)) : List K := l.foldl (fun u q => u.set q.1 q.2) u

/-- The values of the sliders: gains of the inputs and of the outputs, parameters. -/
structure Knobs (K : Type) where
  gin : ℕ → K
  gout : ℕ → K
  par : ℕ → K

/-- The inputs of the method at sample `i` of a block of `n` samples: the inputs of the effect are at the
indices `ins`, the others keep their value. -/
def specU (pow : K → K) (ins : List ℕ) (u : List K) (k0 k1 : Knobs K) (n : ℕ) (x : ℕ → ℕ → K) (i : ℕ) : List K :=
  write u (ins.zipIdx.map fun q => (q.1, x q.2 i * ramp (pow (k0.gin q.2)) (pow (k1.gin q.2)) n i))

/-- The parameters of the method at sample `i`: those of the effect are at the indices `ps`. -/
def specP (ps : List ℕ) (p : List K) (k0 k1 : Knobs K) (n : ℕ) (i : ℕ) : List K :=
  write p (ps.zipIdx.map fun q => (q.1, ramp (k0.par q.2) (k1.par q.2) n i))

/-- Channel `c` of the output, when the outputs of the method at index `b` are `y`. -/
def specOut (pow : K → K) (c : ℕ) (k0 k1 : Knobs K) (n : ℕ) (y : ℕ → K) : List K :=
  (List.range n).map fun i => y i * ramp (pow (k0.gout c)) (pow (k1.gout c)) n i

end Juce
end Pyphs
