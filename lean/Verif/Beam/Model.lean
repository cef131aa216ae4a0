/-
Model of the network of the cantilever beam (pyphs/dictionary/beams/_cantilever.py).

`datum` is the reference node. The wave numbers, the modal dampings and the coefficients of projection
are arbitrary here (`Verif/Beam/Omega.lean`, `Verif/Beam/Waves.lean` are about them).
-/
import Verif.Frac.Model

namespace Pyphs
namespace Beam
open Graph Frac

variable {K : Type} [Field K]

/-- Node of mode `i` (`label+'M'+str(i)`). -/
def modeNode (label : String) (i : ℕ) : String := label ++ "M" ++ i.repr

/-- `label_n+str(i)` with `label_n = label+'T'+str(n)` (_cantilever.py:222, 241). -/
def transName (label : String) (n i : ℕ) : String := label ++ "T" ++ n.repr ++ i.repr

/-- Node number `i` of the chain of the primals of contact `n`: `A1` in turn `i`, and `A2` in turn
`i - 1` (_cantilever.py:231-237, 247-252). -/
def chainNode (label : String) (N : ℕ) (Nn : String) (n : ℕ) : ℕ → String
  | 0 => Nn
  | i + 1 => if i + 1 = N then datum else transName label n i

/-- Stiffness of mode `i` (_cantilever.py:193-200): `StorageLinear` with control `e`. -/
def stiffness (label : String) (Kb : K) (ks : List K) (i : ℕ) : Frac.Part K :=
  .stor (label ++ "K" ++ i.repr) datum (modeNode label i) (Kb * ks.getD i 0 ^ 4) .e

/-- Mass of mode `i` (_cantilever.py:201-208): `StorageLinear` with `inv_coeff` and control `f`, from
the reference to the node (mechanics/_mass.py:21-29). -/
def mass (label : String) (Mb : K) (i : ℕ) : Frac.Part K :=
  .stor (label ++ "M" ++ i.repr) datum (modeNode label i) Mb⁻¹ .f

/-- Damper of mode `i` (_cantilever.py:210-218): `DissipativeLinear` with `inv_coeff`
(mechanics/_damper.py:19-27). -/
def damper (label : String) (as : List K) (i : ℕ) : Frac.Part K :=
  .diss (label ++ "A" ++ i.repr) datum (modeNode label i) (as.getD i 0) true

/-- Transformer between contact `n` and mode `i` (_cantilever.py:240-245). -/
def transfo (label : String) (ks : List K) (omega : ℕ → K → K) (Nn : String) (n i : ℕ) : Frac.Part K :=
  .trans (transName label n i) (chainNode label ks.length Nn n i) (chainNode label ks.length Nn n (i + 1))
    datum (modeNode label i) (omega n (ks.getD i 0))

/-- _cantilever.py:191-252, the components in the order of their addition. `ks` is `pars['kmodes']`,
`as` is `pars['Ab_array']` and `omega n k` the coefficient that `omega_cosine` gives for contact `n` and
wave number `k`. -/
def beam (label : String) (contacts : List String) (Mb Kb : K) (ks as : List K) (omega : ℕ → K → K) :
    List (Frac.Part K) :=
  (List.range ks.length).map (stiffness label Kb ks) ++
  ((List.range ks.length).map (mass label Mb) ++
  ((List.range ks.length).map (damper label as) ++
  (List.range contacts.length).flatMap fun n =>
    (List.range ks.length).map (transfo label ks omega (contacts.getD n "") n)))

/-- The nodes that only the beam uses. -/
def inner (label : String) (N C : ℕ) : List String :=
  (List.range N).map (modeNode label) ++
  (List.range C).flatMap fun n => (List.range (N - 1)).map (transName label n)

end Beam
end Pyphs
