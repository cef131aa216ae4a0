/-
The electro-magnetic pickup (dictionary/transducers/_pickup.py) and the observer
(dictionary/edges/observers.py).
-/
import Verif.Beam.Net

namespace Pyphs
namespace Pickup
open Graph Frac

variable {K : Type} [Field K]

/-- First edge of a gyrator (edges/connectors.py:36-41, 50). -/
def gyrA (label a1 a2 : String) (alpha : K) : Edge K :=
  ⟨a1, a2, "y" ++ label ++ "1", .connector, .unknown, some ("y" ++ label ++ "2"), .gyrator,
    some alpha, "", ""⟩

/-- Second edge of a gyrator (edges/connectors.py:42-47, 50). -/
def gyrB (label b1 b2 : String) : Edge K :=
  ⟨b1, b2, "y" ++ label ++ "2", .connector, .unknown, some ("y" ++ label ++ "1"), .gyrator,
    none, "", ""⟩

/-- Edge of a source of magnetomotive force (magnetics/_source.py:19-31, edges/port.py:51-63). -/
def mmf (label n1 n2 : String) : Edge K :=
  ⟨n1, n2, "y" ++ label, .port, .f, none, .gyrator, none, "", ""⟩

/-- _pickup.py:39. -/
def nMagnet (label : String) : String := "N" ++ label ++ "Magnet"
/-- _pickup.py:40. -/
def nCcoil (label : String) : String := "N" ++ label ++ "Ccoil"

/-- The function `f` (_pickup.py:50-59), without its last factor `dtq`. -/
def slope (Rb Rp Lh Lv q : K) : K :=
  let f1 := (q - Rp + Lv) ^ 2 + Lh ^ 2
  let f2 := (q + Rp + Lv) ^ 2 + Lh ^ 2
  2 * Rb ^ 2 * 1 * Rp * ((f1 - 2 * Lh ^ 2) / f1 ^ 2 - (f2 - 2 * Lh ^ 2) / f2 ^ 2)

/-- The function `f` (_pickup.py:50-59). -/
def coupling (Rb Rp Lh Lv q dtq : K) : K := slope Rb Rp Lh Lv q * dtq

/-- The edges of the pickup (_pickup.py:42-72). `f` is the value of the coupling: the ratio of the
first gyrator is its inverse (_pickup.py:61). -/
def edges (label mass el1 el2 : String) (f n : K) : List (Edge K) :=
  [mmf (label ++ "Magnet") datum (nMagnet label),
   edgeS (label ++ "OBS") datum mass .e,
   gyrA (label ++ "MecToMag") datum (nCcoil label) f⁻¹,
   gyrB (label ++ "MecToMag") datum (nMagnet label),
   edgeS (label ++ "Ccoil") datum (nCcoil label) .f,
   gyrA (label ++ "MagToElec") datum (nCcoil label) n,
   gyrB (label ++ "MagToElec") el1 el2]

/-- The storages of the pickup: the observer with the coefficient `eps` (edges/observers.py:49-54,
config.py:64) and the magnetic capacity of the coil (magnetics/_capacitor.py:22-32). -/
def storages (label mass : String) (eps C : K) : List (Frac.Part K) :=
  [.stor (label ++ "OBS") datum mass eps .e, .stor (label ++ "Ccoil") datum (nCcoil label) C⁻¹ .f]

/-- The pickup in a graph: its edges with other edges that do not touch its two inner nodes, and the two
connectors of the core. -/
structure Plugged (nodes : List String) (es : List (Edge K)) (c : Core K)
    (label mass el1 el2 : String) (f n : K) : Prop where
  rest : ∃ rest, es.Perm (edges label mass el1 el2 f n ++ rest) ∧
    ∀ v ∈ [nMagnet label, nCcoil label], ∀ d ∈ rest, d.tail ≠ v ∧ d.head ≠ v
  known : ∀ v ∈ [nMagnet label, nCcoil label], v ∈ nodes ∧ v ≠ datum
  terminals : ∀ v ∈ [mass, el1, el2], v ≠ nMagnet label ∧ v ≠ nCcoil label
  conn1 : ∃ i k, IsConnector es c (gyrA (label ++ "MecToMag") datum (nCcoil label) f⁻¹)
    (gyrB (label ++ "MecToMag") datum (nMagnet label)) f⁻¹ i k
  conn2 : ∃ i k, IsConnector es c (gyrA (label ++ "MagToElec") datum (nCcoil label) n)
    (gyrB (label ++ "MagToElec") el1 el2) n i k

end Pickup
end Pyphs
