import Verif.H5.DataProps

/-!
# C34: interrupted simulations
-/

namespace Pyphs
namespace H5

variable {α : Type}

theorem pyIndices_zero (n m : ℕ) (h : m ≤ n) :
    pyIndices n (some 0) (some (m : ℤ)) 1 = List.range m := by
  have := pyIndices_seg (len := n) (a := 0) (n := m) (by omega)
  rw [show ((0 + m : ℕ) : ℤ) = (m : ℤ) by simp] at this
  rw [show (some 0 : Option ℤ) = some ((0 : ℕ) : ℤ) from rfl, this]
  unfold seg
  simp

theorem range_getElem? {n k : ℕ} (h : k < n) : (List.range n)[k]? = some k := by
  rw [List.getElem?_range h]

theorem dumpSeqs_eq {L : Layout} {nt : ℕ} {name : String} {a b : ℕ}
    (h : L.inds name = some (a, b)) (seq : List (List α)) (data : List (String × List (List α)))
    (ds : Ds α) : dumpSeqs L nt ((name, seq) :: data) ds =
      if nt * (b - a) > 0 then
        (setDataset (nt + 1) ds seq (pyIndices nt (some 0) (some (nt : ℤ)) 1)
          (pyIndices b (some (a : ℤ)) (some (b : ℤ)) 1) 1024).bind (dumpSeqs L nt data)
      else dumpSeqs L nt data ds := by
  rw [dumpSeqs, h]
  rfl

/-- Writing the sequence of a variable. -/
theorem dumpSeqs_cons {L : Layout} (h : L.names.Nodup) {nt : ℕ} {name : String}
    (hm : name ∈ L.names) {seq : List (List α)} (hl : seq.length = nt)
    (hw : ∀ r ∈ seq, r.length = L.dimOf name) (data : List (String × List (List α))) {ds : Ds α}
    (hr : ds.r = nt) (hc : ds.c = L.dim) : ∃ ds', dumpSeqs L nt ((name, seq) :: data) ds =
      dumpSeqs L nt data ds' ∧ ds'.r = nt ∧ ds'.c = L.dim ∧
      (∀ i < nt, some (rowOf L ds' i name) = seq[i]?) ∧
      ∀ i j, j ∉ L.seg name → ds'.e i j = ds.e i j := by
  obtain ⟨a, h1, h2⟩ := L.inds_mem h hm
  rw [dumpSeqs_eq h1]
  by_cases hpos : nt * (a + L.dimOf name - a) > 0
  · rw [if_pos hpos]
    have hdim : 0 < L.dimOf name := by
      rcases Nat.eq_zero_or_pos (L.dimOf name) with h0 | h0
      · rw [h0] at hpos; simp at hpos
      · exact h0
    have hnt : 0 < nt := by
      rcases Nat.eq_zero_or_pos nt with h0 | h0
      · rw [h0] at hpos; simp at hpos
      · exact h0
    have hps : pyIndices nt (some 0) (some (nt : ℤ)) 1 = List.range nt :=
      pyIndices_zero nt nt (le_refl _)
    have hcs : pyIndices (a + L.dimOf name) (some (a : ℤ)) (some ((a + L.dimOf name : ℕ) : ℤ)) 1 =
        seg a (L.dimOf name) := pyIndices_seg (le_refl _)
    rw [hps, hcs]
    obtain ⟨ds', e1, e2, e3, e4, e5⟩ := C32_chunks (ds := ds) (it := seq) (ps := List.range nt)
      (cs := seg a (L.dimOf name)) (chunksize := 1024) (fuel := nt + 1) (by norm_num)
      List.nodup_range (seg_nodup _ _)
      (by intro h0; rw [List.range_eq_nil] at h0; omega)
      (by intro h0; have := seg_length a (L.dimOf name); rw [h0] at this; simp at this; omega)
      (by intro p hp; rw [List.mem_range] at hp; omega)
      (by intro j hj; rw [mem_seg] at hj; omega)
      (by rw [List.length_range, hl]) (by intro r hr; rw [seg_length]; exact hw r hr)
      (by rw [List.length_range]; omega)
    refine ⟨ds', ?_, e2.trans hr, e3.trans hc, ?_, ?_⟩
    · rw [e1]; rfl
    · intro i hi
      have hlt : i < seq.length := by omega
      rw [List.getElem?_eq_getElem hlt]
      congr 1
      apply List.ext_getElem?
      intro k
      unfold rowOf
      rw [List.getElem?_map, L.seg_eq h1]
      by_cases hk : k < L.dimOf name
      · rw [seg_getElem? hk, Option.map_some]
        exact e4 i k _ i (a + k) (List.getElem?_eq_getElem hlt) (range_getElem? hi)
          (seg_getElem? hk)
      · rw [List.getElem?_eq_none (by rw [seg_length]; omega), List.getElem?_eq_none
          (by rw [hw _ (List.getElem_mem hlt)]; omega)]
        rfl
    · intro i j hj
      rw [L.seg_eq h1] at hj
      exact e5 i j (.inr hj)
  · rw [if_neg hpos]
    refine ⟨ds, rfl, hr, hc, ?_, fun _ _ _ => rfl⟩
    intro i hi
    have hlt : i < seq.length := by omega
    have hd0 : L.dimOf name = 0 := by
      by_contra hd
      exact hpos (Nat.mul_pos (by omega) (by omega))
    rw [List.getElem?_eq_getElem hlt]
    have h0 : seq[i].length = 0 := by rw [hw _ (List.getElem_mem hlt), hd0]
    rw [List.eq_nil_of_length_eq_zero h0]
    unfold rowOf
    rw [L.seg_eq h1, hd0]
    rfl

/-- C33. After initialisation the inputs and the parameters are those given, the rest is zero. -/
theorem C33_init [Zero α] {L : Layout} (h : L.names.Nodup) (hu : "u" ∈ L.names)
    (hp : "p" ∈ L.names) {nt : ℕ} {sequ seqp : List (List α)} (hlu : sequ.length = nt)
    (hlp : seqp.length = nt) (hwu : ∀ r ∈ sequ, r.length = L.dimOf "u")
    (hwp : ∀ r ∈ seqp, r.length = L.dimOf "p") : ∃ ds, initFile L nt sequ seqp = .ok ds ∧
      ds.r = nt ∧ ds.c = L.dim ∧ (∀ i < nt, some (rowOf L ds i "u") = sequ[i]?) ∧
      (∀ i < nt, some (rowOf L ds i "p") = seqp[i]?) ∧
      ∀ name ∈ L.names, name ≠ "u" → name ≠ "p" → ∀ i,
        rowOf L ds i name = List.replicate (L.dimOf name) 0 := by
  unfold initFile
  obtain ⟨d1, e1, e2, e3, e4, e5⟩ := dumpSeqs_cons h hu hlu hwu [("p", seqp)]
    (ds := ⟨nt, L.dim, fun _ _ => 0⟩) rfl rfl
  obtain ⟨d2, f1, f2, f3, f4, f5⟩ := dumpSeqs_cons h hp hlp hwp [] e2 e3
  refine ⟨d2, by rw [e1, f1]; rfl, f2, f3, ?_, f4, ?_⟩
  · intro i hi
    rw [← e4 i hi]
    unfold rowOf
    congr 1
    refine List.map_congr_left fun j hj => f5 i j ?_
    exact L.seg_disjoint h hu hp (by decide) hj
  · intro name hm hnu hnp i
    obtain ⟨a, h1, -⟩ := L.inds_mem h hm
    rw [← seg_length a (L.dimOf name), ← L.seg_eq h1]
    unfold rowOf
    rw [← List.map_const]
    refine List.map_congr_left fun j hj => ?_
    rw [f5 i j (L.seg_disjoint h hm hp hnp hj), e5 i j (L.seg_disjoint h hm hu hnu hj)]
    rfl

/-! ### The simulation loop -/

variable {σ : Type}

/-- Specification: the states of the numerical object along a sequence of inputs. -/
def traj (m : Machine σ α) (s : σ) (inp : ℕ → List α × List α) : ℕ → σ
  | 0 => s
  | n + 1 => m.upd (traj m s inp n) (inp n).1 (inp n).2

/-- The loop on a list of inputs. -/
theorem stepLoop_ok [Zero α] {L : Layout} (h : L.names.Nodup) {w : Window} (hw : 1 ≤ w.step)
    {m : Machine σ α} (s0 : σ) (inp : ℕ → List α × List α) :
    ∀ {l : List (List α × List α)} {n : ℕ} {ds : Ds α},
    (∀ i, n ≤ i → i < n + l.length → Fits L (m.vecs (traj m s0 inp (i + 1)))) →
    ds.c = L.dim → n + l.length ≤ ds.r →
    (∀ k < l.length, l[k]? = some (inp (n + k))) →
    ∃ ds', stepLoop L w m l n (traj m s0 inp n) ds = .ok (traj m s0 inp (n + l.length), ds') ∧
      ds'.r = ds.r ∧ ds'.c = ds.c ∧ ∀ name ∈ L.names, ∀ i,
        rowOf L ds' i name = if n ≤ i ∧ i < n + l.length then
          (valueOf (m.vecs (traj m s0 inp (i + 1))) name).getD (rowOf L ds i name)
        else rowOf L ds i name := by
  intro l
  induction l with
  | nil =>
    intro n ds _ hc _ _
    refine ⟨ds, rfl, rfl, rfl, ?_⟩
    intro name hm i
    rw [if_neg (by simp)]
  | cons up l ih =>
    intro n ds hf hc hlen hinp
    obtain ⟨u, p⟩ := up
    rw [List.length_cons] at hlen
    have h0 : inp n = (u, p) := by
      have := hinp 0 (by simp)
      simp only [List.getElem?_cons_zero, Option.some.injEq, Nat.add_zero] at this
      exact this.symm
    have hs : traj m s0 inp (n + 1) = m.upd (traj m s0 inp n) u p := by
      show m.upd _ (inp n).1 (inp n).2 = _
      rw [h0]
    obtain ⟨d1, e1, e2, e3, e4, e5⟩ := dumpVecs_ok h hc (t := n) (by omega) hw
      (hs ▸ hf n (le_refl _) (by simp))
    obtain ⟨d2, f1, f2, f3, f4⟩ := ih (n := n + 1) (ds := d1)
      (fun i h1 h2 => hf i (by omega) (by rw [List.length_cons]; omega)) (e3.trans hc) (by omega) (by
      intro k hk
      have := hinp (k + 1) (by simp; omega)
      rw [List.getElem?_cons_succ] at this
      rw [this, show n + (k + 1) = n + 1 + k by omega])
    refine ⟨d2, ?_, f2.trans e2, f3.trans e3, ?_⟩
    · show (dumpVecs L w ds n _).bind _ = _
      rw [e1]
      show stepLoop L w m l (n + 1) (m.upd (traj m s0 inp n) u p) d1 = _
      rw [← hs, f1, List.length_cons, show n + 1 + l.length = n + (l.length + 1) by omega]
    · intro name hm i
      rw [f4 name hm i]
      have hd1 : i ≠ n → rowOf L d1 i name = rowOf L ds i name := fun hi =>
        List.map_congr_left fun j _ => e5 i j (.inl hi)
      rw [List.length_cons]
      by_cases hi : i = n
      · subst hi
        rw [if_neg (by omega), if_pos (by omega), e4 name hm, hs]
      · rw [hd1 hi]
        by_cases h1 : n + 1 ≤ i ∧ i < n + 1 + l.length
        · rw [if_pos h1, if_pos (by omega)]
        · rw [if_neg h1, if_neg (by omega)]

theorem read_prefix {L : Layout} (h : L.names.Nodup) {name : String} (hm : name ∈ L.names)
    {ds : Ds α} (hc : ds.c = L.dim) {w : Window} {stop : ℕ} (hstop : w.stop = stop)
    (hle : stop ≤ ds.r) : read L w ds name (.slice (some 0) none (some 1)) .none =
      .ok ((List.range stop).map fun i => rowOf L ds i name) := by
  unfold read
  show (axis ds.r 0 w.stop 1).bind _ = _
  unfold axis
  rw [if_pos (le_refl _), hstop]
  show (vcols L ds.c name .none).bind _ = _
  rw [vcols_none h hm hc.ge]
  show Except.ok _ = _
  rw [show (1 : ℤ).toNat = 1 from rfl, pyIndices_zero ds.r stop hle]
  rfl

/-- The inputs read from the file. -/
def inputs (L : Layout) (ds : Ds α) (i : ℕ) : List α × List α := (rowOf L ds i "u", rowOf L ds i "p")

/-- A simulation stopped after `k` steps: complete description of the file. -/
theorem process_ok [Zero α] {L : Layout} (h : L.names.Nodup) (hu : "u" ∈ L.names)
    (hp : "p" ∈ L.names) {w : Window} (hw : 1 ≤ w.step) {m : Machine σ α}
    {ds : Ds α} (hc : ds.c = L.dim) {stop : ℕ}
    (hstop : w.stop = stop) (hle : stop ≤ ds.r) (s : σ) (k : ℕ)
    (hf : ∀ i < min k stop, Fits L (m.vecs (traj m s (inputs L ds) (i + 1)))) :
    ∃ ds', process L w m k s ds = .ok (traj m s (inputs L ds) (min k stop), ds') ∧
      ds'.r = ds.r ∧ ds'.c = ds.c ∧ ∀ name ∈ L.names, ∀ i,
        rowOf L ds' i name = if i < min k stop then
          (valueOf (m.vecs (traj m s (inputs L ds) (i + 1))) name).getD (rowOf L ds i name)
        else rowOf L ds i name := by
  have hlist : (((List.range stop).map fun i => rowOf L ds i "u").zip
      ((List.range stop).map fun i => rowOf L ds i "p")).take k =
      (List.range (min k stop)).map (inputs L ds) := by
    rw [List.zip_map', ← List.map_take, List.take_range]
    rfl
  obtain ⟨ds', e1, e2, e3, e4⟩ := stepLoop_ok h hw s (inputs L ds)
    (l := (List.range (min k stop)).map (inputs L ds)) (n := 0) (ds := ds)
    (fun i _ hi => hf i (by simpa using hi)) hc
    (by rw [List.length_map, List.length_range]; omega)
    (by
      intro i hi
      rw [List.length_map, List.length_range] at hi
      rw [List.getElem?_map, List.getElem?_range hi, Nat.zero_add]
      rfl)
  rw [List.length_map, List.length_range, Nat.zero_add] at e1 e4
  refine ⟨ds', ?_, e2, e3, ?_⟩
  · unfold process
    rw [read_prefix h hu hc hstop hle, read_prefix h hp hc hstop hle]
    show stepLoop L w m (List.take k _) 0 s ds = _
    rw [hlist]
    exact e1
  · intro name hm i
    rw [e4 name hm i]
    simp

/-- C34. If the process stops after `k` steps, rows `0..k-1` are those of the complete run, and the
rows from `k` on are those of the file before the run. -/
theorem C34_prefix [Zero α] {L : Layout} (h : L.names.Nodup) (hu : "u" ∈ L.names)
    (hp : "p" ∈ L.names) {w : Window} (hw : 1 ≤ w.step) {m : Machine σ α}
    (hf : ∀ s, Fits L (m.vecs s)) {ds : Ds α} (hc : ds.c = L.dim) (hstop : w.stop = ds.r) (s : σ)
    {k : ℕ} (hk : k ≤ ds.r) :
    ∃ sk dk sn dn, process L w m k s ds = .ok (sk, dk) ∧ process L w m ds.r s ds = .ok (sn, dn) ∧
      ∀ name ∈ L.names, ∀ i < ds.r,
        read L w dk name (.idx i) .none =
          if i < k then read L w dn name (.idx i) .none else read L w ds name (.idx i) .none := by
  obtain ⟨dk, e1, e2, e3, e4⟩ := process_ok h hu hp hw hc hstop (le_refl _) s k fun _ _ => hf _
  obtain ⟨dn, f1, f2, f3, f4⟩ := process_ok h hu hp hw hc hstop (le_refl _) s ds.r fun _ _ => hf _
  refine ⟨_, dk, _, dn, e1, f1, ?_⟩
  intro name hm i hi
  rw [read_idx h hm (e3.trans hc) (by omega) hw, read_idx h hm (f3.trans hc) (by omega) hw,
    read_idx h hm hc hi hw, e4 name hm i, f4 name hm i]
  by_cases hik : i < k
  · rw [if_pos (by omega), if_pos hik, if_pos (by omega)]
  · rw [if_neg (by omega), if_neg hik]

/-- C34. The same from the initialisation: the stored vectors of row `i < k` are those of the
numerical object after `i + 1` updates by the given inputs, and the following rows of
the outputs are zero; the inputs are kept. -/
theorem C34_from_init [Zero α] {L : Layout} (h : L.names.Nodup) (hu : "u" ∈ L.names)
    (hp : "p" ∈ L.names) {w : Window} (hw : 1 ≤ w.step) {m : Machine σ α}
    (hf : ∀ s, Fits L (m.vecs s)) (hkeys : ∀ s, ∀ name ∈ L.names,
      name ∈ (m.vecs s).map Prod.fst ↔ name ≠ "u" ∧ name ≠ "p") {nt : ℕ}
    {sequ seqp : List (List α)} (hlu : sequ.length = nt) (hlp : seqp.length = nt)
    (hwu : ∀ r ∈ sequ, r.length = L.dimOf "u") (hwp : ∀ r ∈ seqp, r.length = L.dimOf "p")
    (hstop : w.stop = nt) (s : σ) {k : ℕ} (hk : k ≤ nt) :
    ∃ ds sk dk, initFile L nt sequ seqp = .ok ds ∧ process L w m k s ds = .ok (sk, dk) ∧
      (∀ i < nt, read L w dk "u" (.idx i) .none = .ok [(sequ[i]?).getD []]) ∧
      (∀ i < nt, read L w dk "p" (.idx i) .none = .ok [(seqp[i]?).getD []]) ∧
      ∀ name ∈ L.names, name ≠ "u" → name ≠ "p" → ∀ i < nt,
        ∃ v, read L w dk name (.idx i) .none = .ok [v] ∧
        (i < k → (name, v) ∈ m.vecs (traj m s
          (fun i => ((sequ[i]?).getD [], (seqp[i]?).getD [])) (i + 1))) ∧
        (k ≤ i → v = List.replicate (L.dimOf name) 0) := by
  obtain ⟨ds, a1, a2, a3, a4, a5, a6⟩ := C33_init h hu hp hlu hlp hwu hwp
  obtain ⟨dk, e1, e2, e3, e4⟩ := process_ok h hu hp hw a3 (hstop.trans (by rw [a2]))
    (le_refl _) s k fun _ _ => hf _
  have hin : ∀ i < nt, inputs L ds i = ((sequ[i]?).getD [], (seqp[i]?).getD []) := by
    intro i hi
    unfold inputs
    rw [← a4 i hi, ← a5 i hi]
    rfl
  have htraj : ∀ n ≤ nt, traj m s (inputs L ds) n = traj m s
      (fun i => ((sequ[i]?).getD [], (seqp[i]?).getD [])) n := by
    intro n
    induction n with
    | zero => intro _; rfl
    | succ n ih =>
      intro hn
      show m.upd _ _ _ = m.upd _ _ _
      rw [ih (by omega), hin n (by omega)]
  have hnone : ∀ name ∈ L.names, (name = "u" ∨ name = "p") → ∀ s', valueOf (m.vecs s') name = none := by
    intro name hm hn s'
    cases hv : valueOf (m.vecs s') name with
    | none => rfl
    | some vec =>
      have := (hkeys s' name hm).1 (List.mem_map_of_mem (f := Prod.fst) (valueOf_mem hv))
      rcases hn with hn | hn
      · exact absurd hn this.1
      · exact absurd hn this.2
  refine ⟨ds, _, dk, a1, e1, ?_, ?_, ?_⟩
  · intro i hi
    rw [read_idx h hu (e3.trans a3) (by omega) hw, e4 "u" hu i, hnone "u" hu (.inl rfl), ← a4 i hi]
    simp
  · intro i hi
    rw [read_idx h hp (e3.trans a3) (by omega) hw, e4 "p" hp i, hnone "p" hp (.inr rfl), ← a5 i hi]
    simp
  · intro name hm hnu hnp i hi
    refine ⟨_, read_idx h hm (e3.trans a3) (by omega) hw, ?_, ?_⟩
    · intro hik
      rw [e4 name hm i, if_pos (by omega), htraj (i + 1) (by omega)]
      cases hv : valueOf (m.vecs (traj m s (fun i => ((sequ[i]?).getD [], (seqp[i]?).getD []))
          (i + 1))) name with
      | none =>
        exact absurd ((hkeys _ name hm).2 ⟨hnu, hnp⟩) (valueOf_none hv)
      | some vec => exact valueOf_mem hv
    · intro hik
      rw [e4 name hm i, if_neg (by omega)]
      exact a6 name hm hnu hnp i

/-- C34 and the reader: the process reads its inputs with the option `stop`; a value of `stop` below
`nt` left by the user stops the simulation early, without error: the rows from `stop` on
keep their initial values. -/
theorem C34_stop [Zero α] {L : Layout} (h : L.names.Nodup) (hu : "u" ∈ L.names)
    (hp : "p" ∈ L.names) {w : Window} (hw : 1 ≤ w.step) {m : Machine σ α}
    (hf : ∀ s, Fits L (m.vecs s)) {ds : Ds α} (hc : ds.c = L.dim) {stop : ℕ}
    (hstop : w.stop = stop) (hle : stop ≤ ds.r) (s : σ) :
    ∃ s' ds', process L w m ds.r s ds = .ok (s', ds') ∧ ∀ name ∈ L.names, ∀ i, stop ≤ i →
      i < ds.r → read L w ds' name (.idx i) .none = read L w ds name (.idx i) .none := by
  obtain ⟨ds', e1, e2, e3, e4⟩ := process_ok h hu hp hw hc hstop hle s ds.r fun _ _ => hf _
  refine ⟨_, ds', e1, ?_⟩
  intro name hm i hi hlt
  rw [read_idx h hm (e3.trans hc) (by omega) hw, read_idx h hm hc hlt hw, e4 name hm i,
    if_neg (by omega)]

/-! ### Example -/

/-- A file with an input, no parameter, a state and an output; the state accumulates the input. -/
def exRun : Layout := ⟨["u", "p", "x", "y"], fun n => if n = "p" then 0 else 1⟩

/-- See `exRun`. -/
def exMachine : Machine ℤ ℤ where
  upd := fun s u _ => s + u.sum
  vecs := fun s => [("x", [s]), ("y", [2 * s])]

theorem exMachine_fits (s : ℤ) : Fits exRun (exMachine.vecs s) := by
  refine ⟨by simp [exMachine], ?_, ?_⟩
  · intro d hd
    simp only [exMachine, List.mem_cons, List.not_mem_nil, or_false] at hd
    rcases hd with rfl | rfl
    · show "x" ∈ exRun.names; decide
    · show "y" ∈ exRun.names; decide
  · intro d hd
    simp only [exMachine, List.mem_cons, List.not_mem_nil, or_false] at hd
    rcases hd with rfl | rfl <;> rfl

example := C34_from_init (L := exRun) (by decide) (by decide) (by decide) (w := ⟨0, 3, 1⟩)
  (by decide) exMachine_fits
  (by
    intro s name hm
    simp only [exMachine, exRun, List.mem_cons, List.not_mem_nil, or_false, List.map_cons,
      List.map_nil] at hm ⊢
    rcases hm with rfl | rfl | rfl | rfl <;> decide)
  (nt := 3) (sequ := [[1], [2], [3]]) (seqp := [[], [], []]) rfl rfl (by decide) (by decide) rfl 0
  (k := 2) (by decide)

end H5
end Pyphs
