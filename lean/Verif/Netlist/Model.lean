/-
Model of netlists (/repo/pyphs/graphs/netlists.py).

Text is a list of characters (ASCII). Python numbers are an abstract type `F` with a printer
(`repr`) and a reader (the number literals of python), see `NumFmt`. Of the literals of python
(`ast.literal_eval`) strings without escape sequences, numbers, `None`, `True`, `False` and flat
tuples are modelled; every other text gives `unmodelled`, about which nothing is proved.
-/
import Mathlib.Data.List.Basic

namespace Pyphs
namespace Netlist

abbrev Str := List Char

/-- Exceptions. `unmodelled` is not an exception of python: the text is outside the model. -/
inductive Err | valueError | syntaxError | indexError | unmodelled
  deriving DecidableEq, Repr

/-- `repr` of numbers and python number literals. -/
structure NumFmt (F : Type) where
  show_ : F → Str
  read : Str → Option F

/-- A string or a number. -/
inductive Elem (F : Type) where
  | str (s : Str)
  | num (f : F)
  deriving DecidableEq, Repr

/-- A python literal. -/
inductive Lit (F : Type) where
  | elem (e : Elem F)
  | tuple (l : List (Elem F))
  | none
  | bool (b : Bool)
  deriving DecidableEq, Repr

/-- One line of a netlist: an item of `Netlist.__getitem__`, netlists.py:77-83. -/
structure Row (F : Type) where
  dict : Str
  comp : Str
  label : Str
  nodes : Lit F
  args : List (Str × Lit F)
  deriving DecidableEq, Repr

variable {F : Type}

/-! ### Python string functions -/

/-- ASCII whitespace of python (`str.isspace`). -/
def isSpace (c : Char) : Bool :=
  c = ' ' || (9 ≤ c.toNat && c.toNat ≤ 13) || (28 ≤ c.toNat && c.toNat ≤ 31)

/-- `s.partition(c)`, first and last components. -/
def partition (c : Char) (s : Str) : Str × Str :=
  (s.takeWhile (· ≠ c), (s.dropWhile (· ≠ c)).drop 1)

/-- `s.split()`: maximal runs of characters that are not whitespace; `cur` is the current
run, reversed. -/
def splitWsLoop : Str → Str → List Str
  | cur, [] => if cur = [] then [] else [cur.reverse]
  | cur, c :: s =>
    if isSpace c then
      if cur = [] then splitWsLoop [] s else cur.reverse :: splitWsLoop [] s
    else splitWsLoop (c :: cur) s

/-- `s.split()`. -/
def splitWs (s : Str) : List Str := splitWsLoop [] s

/-- `s.split(c)`. -/
def splitOn (c : Char) : Str → List Str
  | [] => [[]]
  | a :: s =>
    if a = c then [] :: splitOn c s
    else match splitOn c s with
      | [] => [[a]]
      | h :: t => (a :: h) :: t

/-- `file.readlines()`: the lines keep their end of line character. -/
def readlinesLoop : Str → Str → List Str
  | cur, [] => if cur = [] then [] else [cur.reverse]
  | cur, c :: s =>
    if c = '\n' then ('\n' :: cur).reverse :: readlinesLoop [] s else readlinesLoop (c :: cur) s

/-- `file.readlines()`. -/
def readlines (s : Str) : List Str := readlinesLoop [] s

/-! ### Literals -/

/-- `repr` of a string without escape sequences: double quotes are used when the string has
a single quote and no double quote. -/
def reprStr (s : Str) : Str :=
  if '\'' ∈ s ∧ '"' ∉ s then ['"'] ++ s ++ ['"'] else ['\''] ++ s ++ ['\'']

/-- `repr` of a string or number. -/
def Elem.repr (fmt : NumFmt F) : Elem F → Str
  | str s => reprStr s
  | num f => fmt.show_ f

/-- `', '.join(l)`. -/
def joinComma : List Str → Str
  | [] => []
  | [a] => a
  | a :: l => a ++ [',', ' '] ++ joinComma l

/-- `str` of a literal: strings are not quoted, tuples show the `repr` of their elements and a
comma after a single element. -/
def Lit.str (fmt : NumFmt F) : Lit F → Str
  | elem (.str s) => s
  | elem (.num f) => fmt.show_ f
  | tuple [a] => ['('] ++ a.repr fmt ++ [',', ')']
  | tuple l => ['('] ++ joinComma (l.map (Elem.repr fmt)) ++ [')']
  | none => ['N', 'o', 'n', 'e']
  | bool true => ['T', 'r', 'u', 'e']
  | bool false => ['F', 'a', 'l', 's', 'e']

/-- One string or number at the beginning of a text, and the rest. -/
def parseElem (fmt : NumFmt F) : Str → Except Err (Elem F × Str)
  | [] => .error .syntaxError
  | c :: s =>
    if c = '\'' ∨ c = '"' then
      let body := s.takeWhile (· ≠ c)
      let rest := s.dropWhile (· ≠ c)
      if '\\' ∈ body then .error .unmodelled
      else match rest with
        | [] => .error .syntaxError
        | _ :: rest => .ok (.str body, rest)
    else
      let body := (c :: s).takeWhile fun a => decide (a ≠ ',' ∧ a ≠ ')')
      match fmt.read body with
      | some f => .ok (.num f, (c :: s).dropWhile fun a => decide (a ≠ ',' ∧ a ≠ ')'))
      | none => .error .unmodelled

/-- The elements of a tuple after the opening parenthesis; the second component tells whether
there was a comma. -/
def parseElems (fmt : NumFmt F) : ℕ → Str → Except Err (List (Elem F) × Bool × Str)
  | 0, _ => .error .unmodelled
  | n + 1, s => do
    let (e, rest) ← parseElem fmt s
    match rest with
    | ')' :: rest => return ([e], false, rest)
    | [',', ')'] => return ([e], true, [])
    | ',' :: rest => do
      let (l, _, rest) ← parseElems fmt n rest
      return (e :: l, true, rest)
    | _ => .error .unmodelled

/-- Python keywords other than `None`, `True`, `False`. -/
def keywords : List Str :=
  ["and", "as", "assert", "async", "await", "break", "class", "continue", "def", "del", "elif",
   "else", "except", "finally", "for", "from", "global", "if", "import", "in", "is", "lambda",
   "nonlocal", "not", "or", "pass", "raise", "return", "try", "while", "with", "yield"].map
    String.toList

/-- Characters of an identifier. -/
def isIdChar (c : Char) : Bool := c.isAlphanum || c = '_'

/-- `ast.literal_eval(s)` for a text without whitespace. An identifier is a `ValueError`
(malformed node), a keyword a `SyntaxError`. -/
def literalEval (fmt : NumFmt F) (s : Str) : Except Err (Lit F) :=
  match s with
  | [] => .error .syntaxError
  | '(' :: s =>
    if s = [')'] then .ok (.tuple [])
    else match parseElems fmt (s.length + 1) s with
      | .ok (l, comma, []) =>
        match l, comma with
        | [e], false => .ok (.elem e)
        | l, _ => .ok (.tuple l)
      | .ok _ => .error .unmodelled
      | .error e => .error e
  | c :: s =>
    if c = '\'' ∨ c = '"' then
      match parseElem fmt (c :: s) with
      | .ok (e, []) => .ok (.elem e)
      | .ok _ => .error .unmodelled
      | .error e => .error e
    else if c.isDigit ∨ c = '-' ∨ c = '+' ∨ c = '.' then
      match fmt.read (c :: s) with
      | some f => .ok (.elem (.num f))
      | none => .error .unmodelled
    else if (c :: s).all isIdChar then
      if c :: s = ['N', 'o', 'n', 'e'] then .ok .none
      else if c :: s = ['T', 'r', 'u', 'e'] then .ok (.bool true)
      else if c :: s = ['F', 'a', 'l', 's', 'e'] then .ok (.bool false)
      else if c :: s ∈ keywords then .error .syntaxError
      else .error .valueError
    else .error .unmodelled

/-- `eval(s)` of one component of a tuple of parameters, netlists.py:136. -/
def evalElem (fmt : NumFmt F) (s : Str) : Except Err (Elem F) :=
  match parseElem fmt s with
  | .ok (e, []) => .ok e
  | .ok _ => .error .unmodelled
  | .error e => .error e

/-! ### Writing -/

/-- netlists.py:370-374: the parameters of a line. -/
def printArgs (fmt : NumFmt F) : List (Str × Lit F) → Str
  | [] => []
  | p :: l => [' '] ++ p.1 ++ ['='] ++ p.2.str fmt ++ [';'] ++ printArgs fmt l

/-- netlists.py:327-376 `print_netlist_line`. -/
def printLine (fmt : NumFmt F) (r : Row F) : Str :=
  r.dict ++ ['.'] ++ r.comp ++ [' '] ++ r.label ++ [' '] ++ r.nodes.str fmt ++ [':'] ++
    printArgs fmt r.args ++ ['\n']

/-- netlists.py:148-165 `netlist` and `write`: the last character is removed. -/
def write (fmt : NumFmt F) (l : List (Row F)) : Str := (l.flatMap (printLine fmt)).dropLast

/-! ### Reading -/

/-- `pars.update({key: value})`. -/
def setArg (d : List (Str × Lit F)) (k : Str) (v : Lit F) : List (Str × Lit F) :=
  if k ∈ d.map (·.1) then d.map fun p => if p.1 = k then (k, v) else p else d ++ [(k, v)]

/-- netlists.py:134-141: value of a parameter. -/
def readValue (fmt : NumFmt F) (value : Str) : Except Err (Lit F) :=
  match value with
  | '(' :: s => do
    let l ← (splitOn ',' s.dropLast).mapM (evalElem fmt)
    return .tuple l
  | value =>
    match literalEval fmt value with
    | .error .valueError => .ok (.elem (.str value))
    | r => r

/-- netlists.py:130-142: the loop over the parameters. -/
def readArgs (fmt : NumFmt F) : ℕ → Str → List (Str × Lit F) → Except Err (List (Str × Lit F))
  | 0, _, pars => .ok pars
  | n + 1, parameters, pars => do
    let (par, parameters) := partition ';' parameters
    let par := par.filter (· ≠ ' ')
    let (key, value) := partition '=' par
    let v ← readValue fmt value
    readArgs fmt n parameters (setArg pars key v)

/-- netlists.py:111-143: one line. -/
def readLine (fmt : NumFmt F) (line : Str) : Except Err (Option (Row F)) :=
  if line.head? = some '#' then .ok none
  else if line.length = 1 then .ok none
  else
    let (infos, parameters) := partition ':' line
    match splitWs infos with
    | diccomp :: label :: si => do
      let nodes ← literalEval fmt si.flatten
      let (dic, comp) := partition '.' diccomp
      let args ← readArgs fmt (parameters.count '=') parameters []
      return some ⟨dic, comp, label, nodes, args⟩
    | _ => .error .indexError

/-- netlists.py:105-143 `read`, for a new netlist. -/
def read (fmt : NumFmt F) (text : Str) : Except Err (List (Row F)) := do
  let l ← (readlines text).mapM (readLine fmt)
  return l.filterMap id

end Netlist
end Pyphs
