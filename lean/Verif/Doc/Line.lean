/-
Model of the netlist line in the documentation of the components (`componentDoc`,
/repo/pyphs/dictionary/tools.py:106-163; the line of the template is at 80), with the data of the documentation
of the components of the dictionary.

Numbers are as in `Netlist.NumFmt`; `q` gives the numbers for the decimal values of the documentation.
-/
import Verif.Netlist.Model
import Mathlib.Data.Rat.Defs

namespace Pyphs
namespace Doc

open Netlist

/-- The entries of `metadata` used by the line. -/
structure Meta (F : Type) where
  dico : Str
  component : Str
  label : Str
  nodes : List Str
  /-- keys and default values of `parameters` -/
  parameters : List (Str × Lit F)

variable {F : Type}

/-- `s.lower()`. -/
def lower (s : Str) : Str := s.map Char.toLower

/-- dictionary/tools.py:36-43 `parametersDefault`. -/
def parametersDefault (pars : List (Str × Lit F)) : List (Str × Lit F) :=
  pars.foldl (fun d p => setArg d p.1 p.2) []

/-- `'; '.join(l)`. -/
def joinSemi : List Str → Str
  | [] => []
  | [a] => a
  | a :: l => a ++ [';', ' '] ++ joinSemi l

/-- tools.py:153 `linepars`. -/
def linepars (fmt : NumFmt F) (m : Meta F) : Str :=
  joinSemi ((parametersDefault m.parameters).map fun p => p.1 ++ ['='] ++ p.2.str fmt) ++ [';']

/-- tools.py:80: the documented line, without the quotes. `none` is the `ValueError` of `max` (tools.py:135) for a
component without parameters. -/
def docLine (fmt : NumFmt F) (m : Meta F) : Option Str :=
  if m.parameters = [] then none
  else some (m.dico ++ ['.'] ++ lower m.component ++ [' '] ++ m.label ++ [' '] ++
    (Lit.tuple (m.nodes.map .str)).str fmt ++ [':', ' '] ++ linepars fmt m)

/-- graph.py:390-391: the class for a component of a netlist; `none` is an `IndexError`. -/
def klass (component : Str) : Option Str :=
  match lower component with
  | [] => none
  | c :: s => some (c.toUpper :: s)

/-- The classes of the modules of the dictionary (the `__init__.py` of each module). -/
def exports : List (Str × List Str) :=
  [("beams".toList, ["Cantilever".toList]),
   ("connectors".toList, ["Gyrator".toList, "Transformer".toList]),
   ("electronics".toList, ["Source".toList, "Capacitor".toList, "Inductor".toList, "Resistor".toList,
     "Potentiometer".toList, "Diode".toList, "Bjt".toList, "Triode".toList]),
   ("fraccalc".toList, ["Fracintec".toList, "Fracintfc".toList, "Fracderec".toList, "Fracderfc".toList]),
   ("magnetics".toList, ["Source".toList, "Capacitor".toList, "Resistor".toList, "Capacitorsat".toList]),
   ("mechanics".toList, ["Source".toList, "Stiffness".toList, "Mass".toList, "Damper".toList,
     "Springcubic".toList, "Springsat".toList, "Felt".toList]),
   ("mechanics_dual".toList, ["Source".toList, "Stiffness".toList, "Mass".toList, "Damper".toList,
     "Springcubic".toList, "Springsat".toList, "Felt".toList]),
   ("pwl".toList, ["Storage".toList, "Dissipative".toList]),
   ("thermics".toList, ["Capacitor".toList, "Transfer".toList, "Source".toList]),
   ("transducers".toList, ["Pickup".toList])]

/-- The `metadata` of the components, except the four whose defaults are texts which are not identifiers:
the capacitor and the inductor of `electronics` (see C91_numeral) and the two of `pwl` (`'example.txt'`, outside
the model of literals). -/
def dictionary (q : ℚ → F) : List (Meta F) :=
  [⟨"beams".toList, "Cantilever".toList, "beam".toList, ["N1".toList, "N2".toList],
      [("F".toList, .elem (.num (q 440))), ("N".toList, .elem (.num (q 5))),
       ("R".toList, .elem (.num (q (1 / 1000)))), ("E".toList, .elem (.num (q 180000000000))),
       ("M".toList, .elem (.num (q 7750))), ("A".toList, .elem (.num (q (1 / 20)))),
       ("D".toList, .elem (.num (q 6))), ("z1".toList, .elem (.num (q (3 / 20)))),
       ("w1".toList, .elem (.num (q (3 / 200)))), ("z2".toList, .elem (.num (q 1))),
       ("w2".toList, .elem (.num (q 0)))]⟩,
   ⟨"connectors".toList, "Gyrator".toList, "gyr".toList, ["A1".toList, "A2".toList, "B1".toList, "B2".toList],
      [("alpha".toList, .elem (.num (q 1)))]⟩,
   ⟨"connectors".toList, "Transformer".toList, "trans".toList, ["A1".toList, "A2".toList, "B1".toList, "B2".toList],
      [("alpha".toList, .elem (.num (q 1)))]⟩,
   ⟨"electronics".toList, "Bjt".toList, "bjt".toList, ["Nb".toList, "Nc".toList, "Ne".toList],
      [("Is".toList, .elem (.num (q (1 / 1000000000000)))), ("betaR".toList, .elem (.num (q 10))),
       ("betaF".toList, .elem (.num (q 200))), ("Vt".toList, .elem (.num (q (13 / 500)))),
       ("mu".toList, .elem (.num (q 1))), ("Rb".toList, .elem (.num (q 20))),
       ("Rc".toList, .elem (.num (q (1 / 10)))), ("Re".toList, .elem (.num (q (1 / 10))))]⟩,
   ⟨"electronics".toList, "Diode".toList, "D".toList, ["N1".toList, "N2".toList],
      [("Is".toList, .elem (.num (q (1 / 500000000)))), ("mu".toList, .elem (.num (q (17 / 10)))),
       ("R".toList, .elem (.num (q (1 / 2)))), ("v0".toList, .elem (.num (q (13 / 500))))]⟩,
   ⟨"electronics".toList, "Potentiometer".toList, "pot".toList, ["N1".toList, "N2".toList, "N3".toList],
      [("R".toList, .elem (.num (q 100000))), ("A".toList, .elem (.str "alpha".toList)),
       ("E".toList, .elem (.num (q 1)))]⟩,
   ⟨"electronics".toList, "Resistor".toList, "resi".toList, ["N1".toList, "N2".toList],
      [("R".toList, .elem (.num (q 1000)))]⟩,
   ⟨"electronics".toList, "Source".toList, "sourc".toList, ["N1".toList, "N2".toList],
      [("type".toList, .elem (.str "voltage".toList))]⟩,
   ⟨"electronics".toList, "Triode".toList, "tri".toList, ["Nk".toList, "Np".toList, "Ng".toList],
      [("mu".toList, .elem (.num (q 88))), ("Ex".toList, .elem (.num (q (7 / 5)))),
       ("Kg".toList, .elem (.num (q 1060))), ("Kp".toList, .elem (.num (q 600))),
       ("Kvb".toList, .elem (.num (q 300))), ("Vct".toList, .elem (.num (q (1 / 2)))),
       ("Va".toList, .elem (.num (q (33 / 100)))), ("Rgk".toList, .elem (.num (q 3000)))]⟩,
   ⟨"fraccalc".toList, "Fracderec".toList, "fracder".toList, ["N1".toList, "N2".toList],
      [("g".toList, .elem (.num (q 1))), ("alpha".toList, .elem (.num (q (1 / 2)))),
       ("NbPoles".toList, .elem (.num (q 20))),
       ("PolesMinMax".toList, .tuple [.num (q (-5)), .num (q (10))]),
       ("NbFreqPoints".toList, .elem (.num (q 200))),
       ("FreqsMinMax".toList, .tuple [.num (q (1)), .num (q (48000))]), ("DoPlot".toList, .bool false)]⟩,
   ⟨"fraccalc".toList, "Fracderfc".toList, "fracder".toList, ["N1".toList, "N2".toList],
      [("g".toList, .elem (.num (q 1))), ("alpha".toList, .elem (.num (q (1 / 2)))),
       ("NbPoles".toList, .elem (.num (q 20))),
       ("PolesMinMax".toList, .tuple [.num (q (-5)), .num (q (10))]),
       ("NbFreqPoints".toList, .elem (.num (q 200))),
       ("FreqsMinMax".toList, .tuple [.num (q (1)), .num (q (48000))]), ("DoPlot".toList, .bool false)]⟩,
   ⟨"fraccalc".toList, "Fracintec".toList, "fracint".toList, ["N1".toList, "N2".toList],
      [("g".toList, .elem (.num (q 1))), ("beta".toList, .elem (.num (q (1 / 2)))),
       ("NbPoles".toList, .elem (.num (q 20))),
       ("PolesMinMax".toList, .tuple [.num (q (-5)), .num (q (10))]),
       ("NbFreqPoints".toList, .elem (.num (q 200))),
       ("FreqsMinMax".toList, .tuple [.num (q (1)), .num (q (48000))]), ("DoPlot".toList, .bool false)]⟩,
   ⟨"fraccalc".toList, "Fracintfc".toList, "fracint".toList, ["N1".toList, "N2".toList],
      [("g".toList, .elem (.num (q 1))), ("beta".toList, .elem (.num (q (1 / 2)))),
       ("NbPoles".toList, .elem (.num (q 20))),
       ("PolesMinMax".toList, .tuple [.num (q (-5)), .num (q (10))]),
       ("NbFreqPoints".toList, .elem (.num (q 200))),
       ("FreqsMinMax".toList, .tuple [.num (q (1)), .num (q (48000))]), ("DoPlot".toList, .bool false)]⟩,
   ⟨"magnetics".toList, "Capacitor".toList, "capa".toList, ["N1".toList, "N2".toList],
      [("C".toList, .elem (.num (q (1 / 1000000000))))]⟩,
   ⟨"magnetics".toList, "Capacitorsat".toList, "capa".toList, ["N1".toList, "N2".toList],
      [("C0".toList, .elem (.num (q 1000))), ("Csat".toList, .elem (.num (q 1000))),
       ("phisat".toList, .elem (.num (q (1 / 10))))]⟩,
   ⟨"magnetics".toList, "Resistor".toList, "res".toList, ["N1".toList, "N2".toList],
      [("R".toList, .elem (.num (q (1 / 1000))))]⟩,
   ⟨"magnetics".toList, "Source".toList, "sourc".toList, ["N1".toList, "N2".toList],
      [("type".toList, .elem (.str "mmf".toList))]⟩,
   ⟨"mechanics".toList, "Damper".toList, "damp".toList, ["P1".toList, "P2".toList],
      [("A".toList, .elem (.num (q 1)))]⟩,
   ⟨"mechanics".toList, "Felt".toList, "felt".toList, ["P1".toList, "P2".toList],
      [("L".toList, .elem (.num (q (1 / 100)))), ("F".toList, .elem (.num (q 10))),
       ("A".toList, .elem (.num (q 100))), ("B".toList, .elem (.num (q (5 / 2))))]⟩,
   ⟨"mechanics".toList, "Mass".toList, "mass".toList, ["P".toList],
      [("M".toList, .elem (.num (q (1 / 100))))]⟩,
   ⟨"mechanics".toList, "Source".toList, "sourc".toList, ["P1".toList, "P2".toList],
      [("type".toList, .elem (.str "force".toList))]⟩,
   ⟨"mechanics".toList, "Springcubic".toList, "spring".toList, ["P1".toList, "P2".toList],
      [("F1".toList, .elem (.num (q 10))), ("F3".toList, .elem (.num (q 10))),
       ("xref".toList, .elem (.num (q (1 / 100))))]⟩,
   ⟨"mechanics".toList, "Springsat".toList, "spring".toList, ["P1".toList, "P2".toList],
      [("K0".toList, .elem (.num (q 1000))), ("Ksat".toList, .elem (.num (q 1000))),
       ("xsat".toList, .elem (.num (q (1 / 100))))]⟩,
   ⟨"mechanics".toList, "Stiffness".toList, "stiff".toList, ["P1".toList, "P2".toList],
      [("K".toList, .elem (.num (q 1000)))]⟩,
   ⟨"mechanics_dual".toList, "Damper".toList, "damp".toList, ["N1".toList, "N2".toList],
      [("A".toList, .elem (.num (q 1)))]⟩,
   ⟨"mechanics_dual".toList, "Felt".toList, "felt".toList, ["N1".toList, "N2".toList],
      [("L".toList, .elem (.num (q (1 / 100)))), ("F".toList, .elem (.num (q 10))),
       ("A".toList, .elem (.num (q 100))), ("B".toList, .elem (.num (q (5 / 2))))]⟩,
   ⟨"mechanics_dual".toList, "Mass".toList, "mass".toList, ["N1".toList, "N2".toList],
      [("M".toList, .elem (.num (q (1 / 100))))]⟩,
   ⟨"mechanics_dual".toList, "Source".toList, "sourc".toList, ["N1".toList, "N2".toList],
      [("type".toList, .elem (.str "force".toList))]⟩,
   ⟨"mechanics_dual".toList, "Springcubic".toList, "spring".toList, ["N1".toList, "N2".toList],
      [("F1".toList, .elem (.num (q 10))), ("F3".toList, .elem (.num (q 10))),
       ("xref".toList, .elem (.num (q (1 / 100))))]⟩,
   ⟨"mechanics_dual".toList, "Springsat".toList, "spring".toList, ["N1".toList, "N2".toList],
      [("K0".toList, .elem (.num (q 1000))), ("Ksat".toList, .elem (.num (q 1000))),
       ("xsat".toList, .elem (.num (q (1 / 100))))]⟩,
   ⟨"mechanics_dual".toList, "Stiffness".toList, "stiff".toList, ["N1".toList, "N2".toList],
      [("K".toList, .elem (.num (q 1000)))]⟩,
   ⟨"thermics".toList, "Capacitor".toList, "T".toList, ["T".toList],
      [("C".toList, .elem (.num (q 1000))), ("T0".toList, .elem (.num (q (6829 / 25))))]⟩,
   ⟨"thermics".toList, "Source".toList, "T".toList, ["T".toList],
      [("type".toList, .elem (.str "temperature".toList))]⟩,
   ⟨"thermics".toList, "Transfer".toList, "trans".toList, ["T1".toList, "T2".toList],
      [("R".toList, .elem (.num (q 1000)))]⟩,
   ⟨"transducers".toList, "Pickup".toList, "pick".toList, ["MEC".toList, "EL1".toList, "EL2".toList],
      [("Lv".toList, .elem (.num (q (1 / 1000)))), ("Lh".toList, .elem (.num (q (1 / 2000)))),
       ("Ccoil".toList, .elem (.num (q (3 / 100000)))), ("Ncoil".toList, .elem (.num (q 100))),
       ("Rb".toList, .elem (.num (q (1 / 1000)))), ("Rp".toList, .elem (.num (q (1 / 1000)))),
       ("H0".toList, .elem (.num (q 1)))]⟩]

end Doc
end Pyphs
