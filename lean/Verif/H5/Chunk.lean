import Verif.H5.Slice
import Mathlib.Data.List.Basic

/-!
# Writing by chunks

Model of `numerics/simulations/h5data/tools.py` (`set_dataset_from_iterable`). A dataset is a
function on rows and columns with its shape. The values are kept as they are (the conversion to
`dtype` is not modelled).
-/

namespace Pyphs
namespace H5

inductive Err
  /-- too few values (`numpy.fromiter`), values that do not make rows (`reshape`), shapes that
  differ (h5py), wrong values of the options: `ValueError`, `TypeError` -/
  | value
  /-- a position outside the dataset -/
  | index
  /-- a name that is not stored -/
  | key
  /-- the loop did not end within the fuel -/
  | fuel
deriving DecidableEq, Repr

/-- A dataset of shape `(r, c)`. -/
structure Ds (α : Type) where
  r : ℕ
  c : ℕ
  e : ℕ → ℕ → α

variable {α : Type}

/-- Entry of row `p` and columns `cs` set from a list. -/
def setRow (e : ℕ → ℕ → α) (p : ℕ) (cs : List ℕ) (row : List α) : ℕ → ℕ → α := fun i j =>
  if i = p then (row[cs.idxOf j]?).getD (e i j) else e i j

/-- `dataset[ps, cs] = block` for a block of the right shape. -/
def setRows (e : ℕ → ℕ → α) : List ℕ → List ℕ → List (List α) → ℕ → ℕ → α
  | p :: ps, cs, row :: rows => setRows (setRow e p cs row) ps cs rows
  | _, _, _ => e

/-- See `setRows`. -/
def putRows (ds : Ds α) (ps cs : List ℕ) (rows : List (List α)) : Ds α :=
  ⟨ds.r, ds.c, setRows ds.e ps cs rows⟩

/-- `buffer.reshape(n, ncols)` -/
def reshape (ncols : ℕ) : ℕ → List α → List (List α)
  | 0, _ => []
  | n + 1, l => l.take ncols :: reshape ncols n (l.drop ncols)

/-- h5py refuses positions outside the dataset. -/
def inside (ds : Ds α) (ps cs : List ℕ) : Bool := ps.all (· < ds.r) && cs.all (· < ds.c)

/-- tools.py:79-99, the loop; `ps` are the positions `range(rslice.stop)[rslice]`, `cs` the
columns of `cslice`, `flat` what remains of the flattened iterable. -/
def chunkLoop (ps cs : List ℕ) (chunk : ℕ) : ℕ → ℕ → List α → Ds α → Except Err (Ds α)
  | 0, _, _, _ => .error .fuel
  | fuel + 1, offset, flat, ds =>
    if offset + chunk ≤ ps.length then
      if flat.length < chunk * cs.length then .error .value
      else if !inside ds ((ps.drop offset).take chunk) cs then .error .index
      else chunkLoop ps cs chunk fuel (offset + chunk) (flat.drop (chunk * cs.length))
        (putRows ds ((ps.drop offset).take chunk) cs
          (reshape cs.length chunk (flat.take (chunk * cs.length))))
    else if offset = ps.length then .ok ds
    else
      if flat.length % cs.length ≠ 0 then .error .value
      else if flat.length / cs.length ≠ ps.length - offset then .error .value
      else if !inside ds (ps.drop offset) cs then .error .index
      else .ok (putRows ds (ps.drop offset) cs (reshape cs.length (ps.length - offset) flat))

/-- tools.py:31-99 `set_dataset_from_iterable` with both slices given. -/
def setDataset (fuel : ℕ) (ds : Ds α) (it : List (List α)) (ps cs : List ℕ) (chunksize : ℕ) :
    Except Err (Ds α) :=
  chunkLoop ps cs (min chunksize ps.length) fuel 0 it.flatten ds

/-- A value of the result. -/
def cell (d : Except Err (Ds α)) (i j : ℕ) : Option α :=
  match d with
  | .ok d => some (d.e i j)
  | .error _ => none

/-- The error of a result. -/
def errOf {β : Type} (d : Except Err β) : Option Err :=
  match d with
  | .ok _ => none
  | .error e => some e

/-! ### Lemmas -/

theorem setRow_other {e : ℕ → ℕ → α} {p : ℕ} {cs : List ℕ} {row : List α} {i j : ℕ}
    (hl : row.length = cs.length) (h : i ≠ p ∨ j ∉ cs) : setRow e p cs row i j = e i j := by
  unfold setRow
  split
  · rcases h with h | h
    · contradiction
    · have : row.length ≤ cs.idxOf j := by
        rw [hl]; exact le_of_eq (List.idxOf_eq_length h).symm
      rw [List.getElem?_eq_none this]; rfl
  · rfl

theorem setRow_same {e : ℕ → ℕ → α} {p : ℕ} {cs : List ℕ} {row : List α} (hn : cs.Nodup)
    {k : ℕ} {j : ℕ} (hk : cs[k]? = some j) : setRow e p cs row p j = (row[k]?).getD (e p j) := by
  unfold setRow
  rw [if_pos rfl]
  obtain ⟨hlt, rfl⟩ := List.getElem?_eq_some_iff.1 hk
  rw [hn.idxOf_getElem k hlt]

theorem setRows_other {cs : List ℕ} : ∀ {ps : List ℕ} {rows : List (List α)} {e : ℕ → ℕ → α},
    (∀ row ∈ rows, row.length = cs.length) → ∀ {i j : ℕ}, (i ∉ ps ∨ j ∉ cs) →
    setRows e ps cs rows i j = e i j := by
  intro ps
  induction ps with
  | nil => intro rows e _ i j _; rfl
  | cons p ps ih =>
    intro rows e hr i j h
    cases rows with
    | nil => rfl
    | cons row rows =>
      show setRows (setRow e p cs row) ps cs rows i j = e i j
      rw [ih (fun r hr' => hr r (by simp [hr'])) (h.imp (fun h hm => h (by simp [hm])) id),
        setRow_other (hr row (by simp)) (h.imp (fun h he => h (by simp [he])) id)]

theorem setRows_same {cs : List ℕ} (hn : cs.Nodup) : ∀ {ps : List ℕ} {rows : List (List α)}
    {e : ℕ → ℕ → α}, ps.Nodup → (∀ row ∈ rows, row.length = cs.length) →
    ∀ {k l i j : ℕ} {row : List α}, ps[k]? = some i → rows[k]? = some row → cs[l]? = some j →
    some (setRows e ps cs rows i j) = row[l]? := by
  intro ps
  induction ps with
  | nil => intro rows e _ _ k l i j row hk; simp at hk
  | cons p ps ih =>
    intro rows e hp hr k l i j row hk hrow hl
    cases rows with
    | nil => simp at hrow
    | cons row' rows =>
      show some (setRows (setRow e p cs row') ps cs rows i j) = row[l]?
      cases k with
      | zero =>
        simp only [List.getElem?_cons_zero, Option.some.injEq] at hk hrow
        subst hk
        subst hrow
        rw [setRows_other (fun r hr' => hr r (by simp [hr'])) (.inl (List.nodup_cons.1 hp).1),
          setRow_same hn hl]
        have hlt : l < row'.length := by
          rw [hr row' (by simp)]; exact (List.getElem?_eq_some_iff.1 hl).1
        rw [List.getElem?_eq_getElem hlt]; rfl
      | succ k =>
        rw [List.getElem?_cons_succ] at hk hrow
        exact ih (List.nodup_cons.1 hp).2 (fun r hr' => hr r (by simp [hr'])) hk hrow hl

theorem reshape_flatten {n : ℕ} : ∀ {rows : List (List α)} (rest : List α),
    (∀ r ∈ rows, r.length = n) → reshape n rows.length (rows.flatten ++ rest) = rows := by
  intro rows
  induction rows with
  | nil => intro rest _; rfl
  | cons r rows ih =>
    intro rest h
    have hr := h r (by simp)
    rw [List.length_cons, List.flatten_cons, List.append_assoc]
    show (r ++ (rows.flatten ++ rest)).take n ::
      reshape n rows.length ((r ++ (rows.flatten ++ rest)).drop n) = _
    rw [← hr, List.take_left, List.drop_left, hr, ih rest fun r hr => h r (by simp [hr])]

theorem length_flatten_const {n : ℕ} : ∀ {rows : List (List α)}, (∀ r ∈ rows, r.length = n) →
    rows.flatten.length = rows.length * n := by
  intro rows
  induction rows with
  | nil => simp
  | cons r rows ih =>
    intro h
    rw [List.flatten_cons, List.length_append, ih fun r hr => h r (by simp [hr]), h r (by simp),
      List.length_cons, Nat.succ_mul, Nat.add_comm]

theorem inside_mono {ds : Ds α} {ps qs cs : List ℕ} (h : inside ds ps cs = true)
    (hs : ∀ p ∈ qs, p ∈ ps) : inside ds qs cs = true := by
  unfold inside at *
  simp only [Bool.and_eq_true, List.all_eq_true] at h ⊢
  exact ⟨fun p hp => h.1 p (hs p hp), h.2⟩

/-- What the loop does from the rows already written. -/
theorem chunkLoop_spec {ps cs : List ℕ} {chunk : ℕ} (hc : 1 ≤ chunk) (hp : ps.Nodup)
    (hcs : cs.Nodup) (hne : cs ≠ []) : ∀ {fuel offset : ℕ} {rows : List (List α)} {ds : Ds α},
    offset + rows.length = ps.length → rows.length < fuel →
    (∀ r ∈ rows, r.length = cs.length) → inside ds ps cs = true →
    ∃ ds', chunkLoop ps cs chunk fuel offset rows.flatten ds = .ok ds' ∧ ds'.r = ds.r ∧
      ds'.c = ds.c ∧
      (∀ (k l : ℕ) (row : List α) (i j : ℕ), rows[k]? = some row → ps[offset + k]? = some i → cs[l]? = some j →
        some (ds'.e i j) = row[l]?) ∧
      ∀ i j, (i ∉ ps.drop offset ∨ j ∉ cs) → ds'.e i j = ds.e i j := by
  intro fuel
  induction fuel with
  | zero => intro offset rows ds _ h; omega
  | succ fuel ih =>
    intro offset rows ds hlen hfuel hrows hin
    have hcl : 0 < cs.length := List.length_pos_iff.2 hne
    have hfl := length_flatten_const hrows
    unfold chunkLoop
    by_cases h1 : offset + chunk ≤ ps.length
    · rw [if_pos h1]
      have hck : chunk ≤ rows.length := by omega
      have hsplit : rows = rows.take chunk ++ rows.drop chunk := (List.take_append_drop _ _).symm
      have hlt : (rows.take chunk).length = chunk := by rw [List.length_take]; omega
      have hrt : ∀ r ∈ rows.take chunk, r.length = cs.length :=
        fun r hr => hrows r (List.mem_of_mem_take hr)
      have hrd : ∀ r ∈ rows.drop chunk, r.length = cs.length :=
        fun r hr => hrows r (List.mem_of_mem_drop hr)
      have hft := length_flatten_const hrt
      rw [hlt] at hft
      have hflat : rows.flatten = (rows.take chunk).flatten ++ (rows.drop chunk).flatten := by
        rw [← List.flatten_append, List.take_append_drop]
      rw [if_neg (by rw [hfl]; exact Nat.not_lt.2 (Nat.mul_le_mul_right _ hck))]
      have hin' : inside ds ((ps.drop offset).take chunk) cs = true :=
        inside_mono hin fun p h => List.mem_of_mem_drop (List.mem_of_mem_take h)
      rw [hin']
      simp only [Bool.not_true, Bool.false_eq_true, if_false]
      have hdrop : rows.flatten.drop (chunk * cs.length) = (rows.drop chunk).flatten := by
        rw [hflat, ← hft, List.drop_left]
      have htake : rows.flatten.take (chunk * cs.length) = (rows.take chunk).flatten := by
        rw [hflat, ← hft, List.take_left]
      rw [hdrop, htake]
      have hre : reshape cs.length chunk (rows.take chunk).flatten = rows.take chunk := by
        have := reshape_flatten [] hrt
        rwa [hlt, List.append_nil] at this
      rw [hre]
      obtain ⟨ds', e1, e2, e3, e4, e5⟩ := ih (offset := offset + chunk) (rows := rows.drop chunk)
        (ds := putRows ds ((ps.drop offset).take chunk) cs (rows.take chunk))
        (by rw [List.length_drop]; omega) (by rw [List.length_drop]; omega) hrd hin
      refine ⟨ds', e1, e2, e3, ?_, ?_⟩
      · intro k l row i j hk hi hj
        by_cases hkc : k < chunk
        · have hnot : i ∉ ps.drop (offset + chunk) := by
            intro hm
            obtain ⟨k', hk'⟩ := List.mem_iff_getElem?.1 hm
            rw [List.getElem?_drop] at hk'
            have hlt1 : offset + k < ps.length := (List.getElem?_eq_some_iff.1 hi).1
            have := (List.getElem?_inj hlt1 hp).1 (hi.trans hk'.symm)
            omega
          rw [e5 i j (.inl hnot)]
          refine setRows_same hcs (ps := (ps.drop offset).take chunk) (rows := rows.take chunk)
            ?_ hrt (k := k) ?_ ?_ hj
          · exact (hp.sublist (List.drop_sublist _ _)).sublist (List.take_sublist _ _)
          · rw [List.getElem?_take_of_lt hkc, List.getElem?_drop, hi]
          · rw [List.getElem?_take_of_lt hkc, hk]
        · refine e4 (k - chunk) l row i j ?_ ?_ hj
          · rw [List.getElem?_drop, show chunk + (k - chunk) = k by omega, hk]
          · rw [show offset + chunk + (k - chunk) = offset + k by omega, hi]
      · intro i j hij
        rw [e5 i j (hij.imp (fun h hm => h ?_) id)]
        · refine setRows_other hrt (hij.imp (fun h hm => h ?_) id)
          exact List.mem_of_mem_take hm
        · rw [← List.drop_drop] at hm
          exact List.mem_of_mem_drop hm
    · rw [if_neg h1]
      by_cases h2 : offset = ps.length
      · rw [if_pos h2]
        have h0 : rows = [] := List.eq_nil_of_length_eq_zero (by omega)
        refine ⟨ds, rfl, rfl, rfl, ?_, fun _ _ _ => rfl⟩
        intro k l row i j hk
        rw [h0] at hk; simp at hk
      · rw [if_neg h2, if_neg (by rw [hfl, Nat.mul_mod_left]; simp)]
        rw [if_neg (by rw [hfl, Nat.mul_div_cancel _ hcl]; omega)]
        have hin' : inside ds (ps.drop offset) cs = true :=
          inside_mono hin fun p h => List.mem_of_mem_drop h
        rw [hin']
        simp only [Bool.not_true, Bool.false_eq_true, if_false]
        have hre : reshape cs.length (ps.length - offset) rows.flatten = rows := by
          have := reshape_flatten [] hrows
          rwa [List.append_nil, show rows.length = ps.length - offset by omega] at this
        rw [hre]
        refine ⟨_, rfl, rfl, rfl, ?_, ?_⟩
        · intro k l row i j hk hi hj
          refine setRows_same hcs (hp.sublist (List.drop_sublist _ _)) hrows (k := k) ?_ hk hj
          rw [List.getElem?_drop, hi]
        · intro i j hij
          exact setRows_other hrows hij

/-! ### C32 -/

/-- C32. Writing a sequence of rows by chunks of any positive size: the value at the `k`-th selected
row and `l`-th selected column is element `l` of element `k` of the sequence; nothing else changes,
and no error occurs. -/
theorem C32_chunks {ds : Ds α} {it : List (List α)} {ps cs : List ℕ} {chunksize fuel : ℕ}
    (hchunk : 1 ≤ chunksize) (hp : ps.Nodup) (hcs : cs.Nodup) (hpn : ps ≠ []) (hcn : cs ≠ [])
    (hpr : ∀ p ∈ ps, p < ds.r) (hcr : ∀ j ∈ cs, j < ds.c)
    (hlen : it.length = ps.length) (hw : ∀ r ∈ it, r.length = cs.length)
    (hfuel : ps.length < fuel) :
    ∃ ds', setDataset fuel ds it ps cs chunksize = .ok ds' ∧ ds'.r = ds.r ∧ ds'.c = ds.c ∧
      (∀ (k l : ℕ) (row : List α) (i j : ℕ), it[k]? = some row → ps[k]? = some i → cs[l]? = some j →
        some (ds'.e i j) = row[l]?) ∧
      ∀ i j, (i ∉ ps ∨ j ∉ cs) → ds'.e i j = ds.e i j := by
  have hpos : 1 ≤ ps.length := List.length_pos_iff.2 hpn
  obtain ⟨ds', h1, h2, h3, h4, h5⟩ := chunkLoop_spec (chunk := min chunksize ps.length)
    (by omega) hp hcs hcn (fuel := fuel) (offset := 0) (rows := it) (ds := ds) (by omega)
    (by omega) hw (by
      unfold inside
      simp only [Bool.and_eq_true, List.all_eq_true, decide_eq_true_eq]
      exact ⟨hpr, hcr⟩)
  refine ⟨ds', h1, h2, h3, ?_, ?_⟩
  · intro k l row i j hk hi hj
    exact h4 k l row i j hk (by simpa using hi) hj
  · intro i j hij
    exact h5 i j (by simpa using hij)

/-- Five rows by chunks of two in the columns 1 and 2 of a dataset of four columns. -/
example :
    let ds : Ds ℤ := ⟨5, 4, fun _ _ => 0⟩
    let it : List (List ℤ) := [[1, 2], [3, 4], [5, 6], [7, 8], [9, 10]]
    let d := setDataset 6 ds it (pyIndices 5 (some 0) (some 5) 1) (pyIndices 4 (some 1) (some 3) 1) 2
    cell d 4 2 = some 10 ∧ cell d 2 1 = some 5 ∧ cell d 4 3 = some 0 := by decide

/-- C32. The result does not depend on the size of the chunks. -/
theorem C32_any_chunk {ds : Ds α} {it : List (List α)} {ps cs : List ℕ} {c1 c2 fuel : ℕ}
    (h1 : 1 ≤ c1) (h2 : 1 ≤ c2) (hp : ps.Nodup) (hcs : cs.Nodup) (hpn : ps ≠ []) (hcn : cs ≠ [])
    (hpr : ∀ p ∈ ps, p < ds.r) (hcr : ∀ j ∈ cs, j < ds.c)
    (hlen : it.length = ps.length) (hw : ∀ r ∈ it, r.length = cs.length)
    (hfuel : ps.length < fuel) : ∃ d, setDataset fuel ds it ps cs c1 = .ok d ∧
      setDataset fuel ds it ps cs c2 = .ok d := by
  obtain ⟨d1, e1, a1, b1, g1, o1⟩ := C32_chunks h1 hp hcs hpn hcn hpr hcr hlen hw hfuel
  obtain ⟨d2, e2, a2, b2, g2, o2⟩ := C32_chunks h2 hp hcs hpn hcn hpr hcr hlen hw hfuel
  refine ⟨d1, e1, ?_⟩
  rw [e2]
  have he : d2.e = d1.e := by
    funext i j
    by_cases hi : i ∈ ps
    · by_cases hj : j ∈ cs
      · obtain ⟨k, hk⟩ := List.mem_iff_getElem?.1 hi
        obtain ⟨l, hl⟩ := List.mem_iff_getElem?.1 hj
        have hkl : k < it.length := by rw [hlen]; exact (List.getElem?_eq_some_iff.1 hk).1
        have hrow := List.getElem?_eq_getElem hkl
        exact Option.some.inj ((g2 k l _ i j hrow hk hl).trans (g1 k l _ i j hrow hk hl).symm)
      · rw [o1 i j (.inr hj), o2 i j (.inr hj)]
    · rw [o1 i j (.inl hi), o2 i j (.inl hi)]
  cases d1; cases d2
  simp only at a1 b1 a2 b2 he
  subst he
  rw [a1, b1, a2, b2]

/-- With no row selected the loop does not end: `chunksize` becomes 0 (the caller
`h5dump_seqs` checks the sizes before). -/
theorem C32_empty_never_ends (ds : Ds α) (it : List (List α)) (cs : List ℕ) (chunksize fuel : ℕ)
    (hcr : ∀ j ∈ cs, j < ds.c) : setDataset fuel ds it [] cs chunksize = .error .fuel := by
  unfold setDataset
  rw [show min chunksize ([] : List ℕ).length = 0 by simp]
  generalize it.flatten = flat
  induction fuel generalizing flat ds with
  | zero => rfl
  | succ fuel ih =>
    unfold chunkLoop
    have hin : inside ds ([] : List ℕ) cs = true := by
      unfold inside
      simp only [List.all_nil, Bool.true_and, List.all_eq_true, decide_eq_true_eq]
      exact hcr
    simp only [List.length_nil, le_refl, Nat.zero_mul, Nat.not_lt_zero, if_true, if_false,
      List.drop_zero, List.take_nil, Nat.add_zero, hin, Bool.not_true, Bool.false_eq_true]
    exact ih _ hcr _

/-- C32 needs rows of the right width: only the flattened values count. Rows of width 1 written in
two columns are accepted and shifted. -/
theorem C32_width_counterexample :
    let ds : Ds ℤ := ⟨2, 2, fun _ _ => 0⟩
    let d := setDataset 6 ds [[1], [2], [3], [4]] [0, 1] [0, 1] 1024
    cell d 0 1 = some 2 ∧ cell d 1 0 = some 3 := by decide

/-- C32 needs the right number of rows: values in excess are ignored when the number of rows is
a multiple of the size of the chunks, and refused otherwise. -/
theorem C32_length_counterexample :
    errOf (setDataset 9 (⟨4, 1, fun _ _ => (0:ℤ)⟩ : Ds ℤ) [[1], [2], [3], [4], [5], [6]]
      [0, 1, 2, 3] [0] 2) = none ∧
    errOf (setDataset 9 (⟨3, 1, fun _ _ => (0:ℤ)⟩ : Ds ℤ) [[1], [2], [3], [4], [5], [6]]
      [0, 1, 2] [0] 2) = some .value := by decide

end H5
end Pyphs
