/-
Model of the list utilities of pyphs (/repo/pyphs/misc/tools.py).
-/
import Mathlib.Data.List.Basic

namespace Pyphs

/-- Python slice `l[a:b]` for nonnegative `a b` (clamped, as python does).
Used by every function below that slices lists. -/
def slice {α : Type*} (l : List α) (a b : ℕ) : List α := (l.take b).drop a

/-- pyphs/misc/tools.py:55-70 `myrange(N, indi, indf)`.
`none` models the `IndexError` raised by `lis[indi]` (lines 63, 68) when `indi >= N`.
Indices are naturals: python's negative indices are not modelled. -/
def myrange (N indi indf : ℕ) : Option (List ℕ) :=
  let lis := List.range N
  if indi < indf then
    match lis[indi]? with
    | none => none
    | some eli =>
      let deb := lis.take indi ++ slice lis (indi + 1) (indf + 1)
      let end_ := lis.drop (indf + 1)
      some (deb ++ [eli] ++ end_)
  else if indf < indi then
    match lis[indi]? with
    | none => none
    | some eli =>
      let deb := lis.take indf
      let end_ := slice lis indf indi ++ lis.drop (indi + 1)
      some (deb ++ [eli] ++ end_)
  else some lis

/-- The `for` loop of `decimate`, pyphs/misc/tools.py:97-102, with the running
counter `n` as argument. -/
def decimateLoop {α : Type*} (nd : ℕ) : ℕ → List α → List α
  | _, [] => []
  | n, el :: it =>
    if n % nd = 0 then el :: decimateLoop nd (n + 1) it else decimateLoop nd (n + 1) it

/-- pyphs/misc/tools.py:75-103 `decimate(it, nd)`. `none` models the failed
assertion `nd > 0` (line 94). The assertion that `nd` is an `int` is a typing matter.  -/
def decimate {α : Type*} (it : List α) (nd : ℕ) : Option (List α) :=
  if 0 < nd then some (decimateLoop nd 0 it) else none

/-- pyphs/misc/tools.py:108-116 `remove_duplicates(lis)`, with the accumulator
`out_list` as argument. -/
def removeDuplicatesLoop {α : Type*} [DecidableEq α] : List α → List α → List α
  | out, [] => out
  | out, el :: lis =>
    if el ∈ out then removeDuplicatesLoop out lis else removeDuplicatesLoop (out ++ [el]) lis

/-- pyphs/misc/tools.py:108-116. -/
def removeDuplicates {α : Type*} [DecidableEq α] (lis : List α) : List α :=
  removeDuplicatesLoop [] lis

/-- Nested python lists/tuples of strings, the argument of `get_strings`. -/
inductive Nested where
  | str (s : String)
  | list (l : List Nested)

mutual
/-- pyphs/misc/tools.py:121-141 `get_strings(obj, remove)`. -/
def getStrings (remove : List String) : Nested → List String
  | .str s => if s ∈ remove then [] else [s]
  | .list l => getStringsList remove l
/-- The `for el in obj: strings += ...` loop, pyphs/misc/tools.py:136-137. -/
def getStringsList (remove : List String) : List Nested → List String
  | [] => []
  | el :: l => getStrings remove el ++ getStringsList remove l
end

/-- The loop of `find`, pyphs/misc/tools.py:179-186, with counter `n`. -/
def findLoop {α : Type*} [DecidableEq α] (symbs : List α) : ℕ → List α → List (α × ℕ)
  | _, [] => []
  | n, s :: rest =>
    if s ∈ symbs then (s, n) :: findLoop symbs (n + 1) rest else findLoop symbs (n + 1) rest

/-- pyphs/misc/tools.py:173-187 `find(symbs, allsymbs)`; the set `symbs` is a list
used only through membership. Returns `(args, inds)`. -/
def find {α : Type*} [DecidableEq α] (symbs allsymbs : List α) : List α × List ℕ :=
  let r := findLoop symbs 0 allsymbs
  (r.map Prod.fst, r.map Prod.snd)

/-- pyphs/misc/tools.py:192-196 `interleave(l1, l2)`: flattening of `zip(l1, l2)`. -/
def interleave {α : Type*} (l1 l2 : List α) : List α :=
  (l1.zip l2).flatMap fun p => [p.1, p.2]

/-- pyphs/misc/tools.py:146-168 `ordering(core, name, args)`: positions of `args` in the
symbol list `names` of the core; `none` models the `ValueError` of `list.index`. -/
def ordering {α : Type*} [DecidableEq α] (names args : List α) : Option (List ℕ) :=
  args.mapM fun e => if e ∈ names then some (names.idxOf e) else none

end Pyphs
