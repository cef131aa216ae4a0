import Verif.H5.Chunk
import Mathlib.Logic.Function.Basic
import Mathlib.Data.List.Dedup

/-!
# The data file of a simulation

Model of `numerics/simulations/h5data/h5data.py`: layout of the columns (`_dimsinit` 386-409, `dim`
529-536), writing (`init_data` 291-382, `h5dump_vecs` 555-588, `h5dump_seqs` 591-628) and reading
(`_tslice` 632-656, `_tuple2slice` 658-684, `_read_data` 686-706, `__getitem__` 754-787); and of
`Simulation._process_py` (simulation.py:428-469). The file is always open and written at once
(the buffers of HDF5 are not modelled).
-/

namespace Pyphs
namespace H5

variable {α : Type}

/-! ### Layout -/

/-- h5data.py:386-409 `_dimsinit`, the loop on the names; a repeated name overwrites its entry. -/
def indsLoop (dimOf : String → ℕ) :
    List String → ℕ → (String → Option (ℕ × ℕ)) → String → Option (ℕ × ℕ)
  | [], _, d => d
  | n :: ns, start, d => indsLoop dimOf ns (start + dimOf n)
      (Function.update d n (some (start, start + dimOf n)))

/-- Names (`['u', 'p'] + dnames`) and dimensions of the stored variables. -/
structure Layout where
  names : List String
  dimOf : String → ℕ

/-- `self.inds` -/
def Layout.inds (L : Layout) : String → Option (ℕ × ℕ) := indsLoop L.dimOf L.names 0 fun _ => none

/-- h5data.py:529-536 `dim`: the sum over the dictionary `dims`. -/
def Layout.dim (L : Layout) : ℕ := (L.names.dedup.map L.dimOf).sum

/-! ### Reading -/

/-- Options of the reader (values of the properties `start`, `stop`, `step`). -/
structure Window where
  start : ℤ
  stop : ℤ
  step : ℤ

/-- A time selection. -/
inductive TSel
  | none
  | idx (i : ℤ)
  | slice (start stop step : Option ℤ)

/-- h5data.py:632-656 `_tslice` -/
def tslice (w : Window) : TSel → ℤ × ℤ × ℤ
  | .none => (w.start, w.stop, w.step)
  | .idx i => (i, i + 1, w.step)
  | .slice a b c => (a.getD w.start, b.getD w.stop, c.getD w.step)

/-- A selection in a variable. -/
inductive VSel
  | none
  | idx (i : ℤ)
  | slice (start stop : Option ℤ) (step : Option ℤ)

/-- A column given by an integer: h5py wraps negative values. -/
def colIdx (c : ℕ) (i : ℤ) : Except Err ℕ :=
  if 0 ≤ i ∧ i < c then .ok i.toNat
  else if i < 0 ∧ -(c : ℤ) ≤ i then .ok (i + c).toNat
  else .error .index

/-- A slice of a dataset axis of length `len`; a step below 1 is refused by h5py. -/
def axis (len : ℕ) (a b c : ℤ) : Except Err (List ℕ) :=
  if 1 ≤ c then .ok (pyIndices len (some a) (some b) c.toNat) else .error .value

/-- h5data.py:658-684 `_tuple2slice`, as a list of columns in a dataset with `c` columns. -/
def vcols (L : Layout) (c : ℕ) (name : String) (v : VSel) : Except Err (List ℕ) :=
  match L.inds name with
  | none => .error .key
  | some (a, b) =>
    match v with
    | .none => axis c a b 1
    | .idx i => (colIdx c (i + a)).map fun j => [j]
    | .slice s t u => axis c (s.elim (a : ℤ) (· + a)) (t.elim (b : ℤ) (· + a)) (u.getD 1)

/-- h5data.py:686-706, 754-787: `data[name, t, v]` for a stored name, as a list of rows. -/
def read (L : Layout) (w : Window) (ds : Ds α) (name : String) (t : TSel) (v : VSel) :
    Except Err (List (List α)) := do
  let ps ← axis ds.r (tslice w t).1 (tslice w t).2.1 (tslice w t).2.2
  let cs ← vcols L ds.c name v
  .ok (ps.map fun i => cs.map fun j => ds.e i j)

/-! ### Writing -/

/-- `v[slice(*inds)] = vec` with the broadcasting of numpy. -/
def assign (dim : ℕ) (v : ℕ → α) (ab : ℕ × ℕ) (vec : List α) : Except Err (ℕ → α) :=
  let cs := pyIndices dim (some (ab.1 : ℤ)) (some (ab.2 : ℤ)) 1
  if vec.length = cs.length then .ok fun j => (vec[cs.idxOf j]?).getD (v j)
  else match vec with
    | [x] => .ok fun j => if j ∈ cs then x else v j
    | _ => .error .value

/-- h5data.py:578-580, the loop on the data. -/
def assignAll (L : Layout) : List (String × List α) → (ℕ → α) → Except Err (ℕ → α)
  | [], v => .ok v
  | (name, vec) :: data, v =>
    match L.inds name with
    | none => .error .key
    | some ab => do
      let v' ← assign L.dim v ab vec
      assignAll L data v'

/-- h5data.py:574-576: the missing names are read in the file. -/
def complete (L : Layout) (w : Window) (ds : Ds α) (t : ℕ) (data : List (String × List α)) :
    List String → Except Err (List (String × List α))
  | [] => .ok data
  | n :: ns =>
    if n ∈ data.map Prod.fst then complete L w ds t data ns
    else
      match read L w ds n (.idx t) (.slice none none none) with
      | .ok [row] => complete L w ds t (data ++ [(n, row)]) ns
      | .ok _ => .error .value
      | .error e => .error e

/-- h5data.py:555-588 `h5dump_vecs` -/
def dumpVecs [Zero α] (L : Layout) (w : Window) (ds : Ds α) (t : ℕ)
    (data : List (String × List α)) : Except Err (Ds α) := do
  let data ← complete L w ds t data L.names
  let v ← assignAll L data fun _ => 0
  if ds.c ≠ L.dim then .error .value
  else if ds.r ≤ t then .error .index
  else .ok ⟨ds.r, ds.c, fun i j => if i = t ∧ j < ds.c then v j else ds.e i j⟩

/-- h5data.py:591-628 `h5dump_seqs` for the time slice `slice(0, nt)`. -/
def dumpSeqs (L : Layout) (nt : ℕ) : List (String × List (List α)) → Ds α → Except Err (Ds α)
  | [], ds => .ok ds
  | (name, seq) :: data, ds =>
    match L.inds name with
    | none => .error .key
    | some (a, b) =>
      if nt * (b - a) > 0 then do
        let ds' ← setDataset (nt + 1) ds seq (pyIndices nt (some 0) (some (nt : ℤ)) 1)
          (pyIndices b (some (a : ℤ)) (some (b : ℤ)) 1) 1024
        dumpSeqs L nt data ds'
      else dumpSeqs L nt data ds

/-- h5data.py:368-382, end of `init_data`: the file is new, of zeros. -/
def initFile [Zero α] (L : Layout) (nt : ℕ) (sequ seqp : List (List α)) : Except Err (Ds α) :=
  dumpSeqs L nt [("u", sequ), ("p", seqp)] ⟨nt, L.dim, fun _ _ => 0⟩

/-! ### Simulation -/

/-- A numerical object: its update by an input and parameters, and the vectors that are stored. -/
structure Machine (σ α : Type) where
  upd : σ → List α → List α → σ
  vecs : σ → List (String × List α)

/-- simulation.py:448-460, the loop of `_process_py` on the sequences, from time index `n`. -/
def stepLoop [Zero α] {σ : Type} (L : Layout) (w : Window) (m : Machine σ α) :
    List (List α × List α) → ℕ → σ → Ds α → Except Err (σ × Ds α)
  | [], _, s, ds => .ok (s, ds)
  | (u, p) :: l, n, s, ds => do
    let ds' ← dumpVecs L w ds n (m.vecs (m.upd s u p))
    stepLoop L w m l (n + 1) (m.upd s u p) ds'

/-- simulation.py:428-469 `_process_py`, interrupted after `k` steps. -/
def process [Zero α] {σ : Type} (L : Layout) (w : Window) (m : Machine σ α) (k : ℕ) (s : σ)
    (ds : Ds α) : Except Err (σ × Ds α) := do
  let us ← read L w ds "u" (.slice (some 0) none (some 1)) .none
  let ps ← read L w ds "p" (.slice (some 0) none (some 1)) .none
  stepLoop L w m ((us.zip ps).take k) 0 s ds

end H5
end Pyphs
