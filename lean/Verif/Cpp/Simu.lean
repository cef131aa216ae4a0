/-
Model of the C++ simulation (`config['lang'] = 'c++'`): the program `simu.cpp` that
/repo/pyphs/numerics/cpp/simu2cpp.py writes with /repo/pyphs/templates/cpp/simu_main.template.

The memory of `mystruct` is a sequence of numbers: all its members are arrays of `double`, which are
contiguous. Accesses out of bounds (struct smaller than a row, row out of the dataset, vector
shorter than the loop) are `none`. The progress bar and the messages are not modelled.
-/
import Verif.Cpp.Model
import Verif.H5.Data

namespace Pyphs
namespace Cpp
open Numeric H5

variable {α σ : Type}

/-- The generated object, as used by `main`: `set_name`, `update` and `name_vector`. -/
structure Device (σ α : Type) where
  set : String → List α → σ → Option σ
  update : σ → Option σ
  vector : String → σ → List α

/-- simu2cpp.py:87-94 `_str_vectors`: members of `argstruct`. -/
def fields (L : Layout) : List (String × ℕ) :=
  (L.names.filter fun n => 0 < L.dimOf n).map fun n => (n, L.dimOf n)

/-- Offset of a member in the struct, in numbers of `double`. -/
def offset : List (String × ℕ) → String → Option ℕ
  | [], _ => none
  | (m, d) :: l, n => if n = m then some 0 else (offset l n).map (d + ·)

/-- Size of the struct. -/
def structSize (l : List (String × ℕ)) : ℕ := (l.map Prod.snd).sum

/-- simu2cpp.py:97-104 `_str_updateInputs`. -/
def setInputs (D : Device σ α) (L : Layout) (mem : ℕ → α) (o : σ) : Option σ :=
  ["u", "p"].foldlM (fun o name =>
    if 0 < L.dimOf name then do
      let a ← offset (fields L) name
      D.set name ((List.range (L.dimOf name)).map fun i => mem (a + i)) o
    else some o) o

/-- simu2cpp.py:117-119: `for (ind = 0; ind < d; ind++) mystruct.name[ind] = v[ind]`. -/
def copyOut (a d : ℕ) (v : List α) (mem : ℕ → α) : Option (ℕ → α) :=
  (List.range d).foldlM (fun mem i => (v[i]?).map fun x => Function.update mem (a + i) x) mem

/-- simu2cpp.py:107-120 `_str_updateResults`. -/
def results (D : Device σ α) (L : Layout) (o : σ) (mem : ℕ → α) : Option (ℕ → α) :=
  (L.names.drop 2).foldlM (fun mem name =>
    if 0 < L.dimOf name then do
      let a ← offset (fields L) name
      copyOut a (L.dimOf name) (D.vector name o) mem
    else some mem) mem

/-- State of `main`: the object, the struct, the file. -/
structure Main (σ α : Type) where
  obj : σ
  mem : ℕ → α
  ds : Ds α

/-- simu_main.template:109-142: the body of the loop. -/
def row (D : Device σ α) (L : Layout) (s : Main σ α) (n : ℕ) : Option (Main σ α) :=
  if s.ds.r ≤ n ∨ s.ds.c < L.dim ∨ structSize (fields L) < L.dim then none
  else do
    let mem := fun j => if j < L.dim then s.ds.e n j else s.mem j
    let o ← setInputs D L mem s.obj
    let o ← D.update o
    let mem ← results D L o mem
    some ⟨o, mem, s.ds.r, s.ds.c, fun i j => if i = n ∧ j < L.dim then mem j else s.ds.e i j⟩

/-- simu_main.template:109: the loop `for (n = 0; n < nt; n++)`. -/
def mainLoop (D : Device σ α) (L : Layout) (nt : ℕ) (s : Main σ α) : Option (Main σ α) :=
  (List.range nt).foldlM (row D L) s

variable {K : Type} [Field K] [LinearOrder K] {N : Type} [DecidableEq N]

/-- Accessors `name_vector()`: arguments.py:52-75, functions.py:128-139, operations.py:146-160. -/
def Gen.vector (G : Gen N K) (o : Obj N K) (n : N) : List K :=
  match G.get o n with
  | .m A => (List.range A.r).map fun i => A.e i 0
  | .s _ => []

/-- The generated object in `main`; `nm` are the names of the stored variables. The struct members
are given to `set_name` as matrices of one column. -/
def Gen.device (G : Gen N K) (eps : K) (maxit : ℕ) (acts : List (Action N)) (nm : String → N) :
    Device (Obj N K) K where
  set := fun s v o => G.setArg o (nm s) (.m ⟨v.length, 1, fun i _ => v.getD i 0⟩)
  update := fun o => acts.foldlM (G.action eps maxit) o
  vector := fun s o => G.vector o (nm s)

end Cpp
end Pyphs
