/-
Model of the tables of the documentation (/repo/pyphs/misc/rst/tools.py:100-149, `rstTableV1`, exported as
`rstTable`; used by `parametersTable`, /repo/pyphs/dictionary/tools.py:15-21).

A text is a list of characters. The cells are given as texts: the conversion `str` of the values is not
modelled.
-/
import Mathlib.Data.List.Basic

namespace Pyphs
namespace Doc

abbrev Text := List Char

/-- tools.py:121-124: the widths of the columns from column `i` on; `none` is the `IndexError` of a line which
is too short. -/
def dims (content : List (List Text)) : ℕ → List Text → Option (List ℕ)
  | _, [] => some []
  | i, h :: t => do
    let cs ← content.mapM fun c => c[i]?
    let r ← dims content (i + 1) t
    some (cs.foldl (fun m c => max m c.length) h.length :: r)

/-- tools.py:126-132: the cells of a line; `none` is the `IndexError` of a line which is too long. A
negative number of spaces is none. -/
def cells : List ℕ → List Text → Option Text
  | _, [] => some []
  | [], _ :: _ => none
  | d :: ds, e :: l => do
    let nb := d + 1 - e.length
    let r ← cells ds l
    some (' ' :: e ++ List.replicate nb ' ' ++ '|' :: r)

/-- tools.py:126-132 `line`. -/
def line (dim : List ℕ) (l : List Text) : Option Text := do
  let r ← cells dim l
  some ('|' :: r ++ ['\n'])

/-- tools.py:134-139 `delimiters`. -/
def delimiters (dim : List ℕ) (marker : Char) : Text :=
  '+' :: dim.flatMap (fun d => List.replicate (d + 2) marker ++ ['+']) ++ ['\n']

/-- tools.py:100-149 `rstTableV1`. -/
def table (header : List Text) (content : List (List Text)) : Option Text := do
  let dim ← dims content 0 header
  let h ← line dim header
  let body ← content.mapM (line dim)
  some (delimiters dim '-' ++ h ++ delimiters dim '=' ++ body.flatMap (fun l => l ++ delimiters dim '-'))

end Doc
end Pyphs
