import Verif.H5.Data

/-!
# C33, C34: the data file
-/

namespace Pyphs
namespace H5

variable {α : Type}

/-! ### Columns -/

theorem indsLoop_notMem {dimOf : String → ℕ} : ∀ {ns : List String} {s : ℕ}
    {d : String → Option (ℕ × ℕ)} {name : String}, name ∉ ns →
    indsLoop dimOf ns s d name = d name := by
  intro ns
  induction ns with
  | nil => intro s d name _; rfl
  | cons n ns ih =>
    intro s d name h
    have h' : name ≠ n ∧ name ∉ ns := by simpa [not_or] using h
    show indsLoop dimOf ns _ _ name = _
    rw [ih h'.2, Function.update_of_ne h'.1]

theorem indsLoop_mem {dimOf : String → ℕ} : ∀ {ns : List String} {s : ℕ}
    {d : String → Option (ℕ × ℕ)} {name : String}, ns.Nodup → name ∈ ns →
    ∃ a, indsLoop dimOf ns s d name = some (a, a + dimOf name) ∧ s ≤ a ∧
      a + dimOf name ≤ s + (ns.map dimOf).sum := by
  intro ns
  induction ns with
  | nil => intro s d name _ h; simp at h
  | cons n ns ih =>
    intro s d name hn h
    have hn' := List.nodup_cons.1 hn
    rw [List.map_cons, List.sum_cons]
    show ∃ a, indsLoop dimOf ns _ _ name = _ ∧ _
    by_cases hm : name ∈ ns
    · obtain ⟨a, h1, h2, h3⟩ := ih (s := s + dimOf n)
        (d := Function.update d n (some (s, s + dimOf n))) hn'.2 hm
      exact ⟨a, h1, by omega, by omega⟩
    · have he : name = n := by simpa [hm] using h
      subst he
      refine ⟨s, ?_, le_refl _, by omega⟩
      rw [indsLoop_notMem hm, Function.update_self]

theorem indsLoop_disjoint {dimOf : String → ℕ} : ∀ {ns : List String} {s : ℕ}
    {d : String → Option (ℕ × ℕ)} {n1 n2 : String} {a b a' b' : ℕ}, ns.Nodup → n1 ∈ ns → n2 ∈ ns →
    n1 ≠ n2 → indsLoop dimOf ns s d n1 = some (a, b) → indsLoop dimOf ns s d n2 = some (a', b') →
    b ≤ a' ∨ b' ≤ a := by
  intro ns
  induction ns with
  | nil => intro s d n1 n2 a b a' b' _ h; simp at h
  | cons n ns ih =>
    intro s d n1 n2 a b a' b' hn h1 h2 hne e1 e2
    have hn' := List.nodup_cons.1 hn
    change indsLoop dimOf ns _ _ n1 = _ at e1
    change indsLoop dimOf ns _ _ n2 = _ at e2
    by_cases hm1 : n1 ∈ ns
    · by_cases hm2 : n2 ∈ ns
      · exact ih hn'.2 hm1 hm2 hne e1 e2
      · have he : n2 = n := by simpa [hm2] using h2
        subst he
        rw [indsLoop_notMem hm2, Function.update_self] at e2
        obtain ⟨x, hx1, hx2, -⟩ := indsLoop_mem (s := s + dimOf n2)
          (d := Function.update d n2 (some (s, s + dimOf n2))) hn'.2 hm1
        rw [e1] at hx1
        simp only [Option.some.injEq, Prod.mk.injEq] at hx1 e2
        omega
    · have he : n1 = n := by simpa [hm1] using h1
      subst he
      rw [indsLoop_notMem hm1, Function.update_self] at e1
      have hm2 : n2 ∈ ns := by
        rcases List.mem_cons.1 h2 with h | h
        · exact absurd h.symm hne
        · exact h
      obtain ⟨x, hx1, hx2, -⟩ := indsLoop_mem (s := s + dimOf n1)
        (d := Function.update d n1 (some (s, s + dimOf n1))) hn'.2 hm2
      rw [e2] at hx1
      simp only [Option.some.injEq, Prod.mk.injEq] at hx1 e1
      omega

theorem indsLoop_cover {dimOf : String → ℕ} : ∀ {ns : List String} {s : ℕ}
    {d : String → Option (ℕ × ℕ)} {j : ℕ}, ns.Nodup → s ≤ j → j < s + (ns.map dimOf).sum →
    ∃ name ∈ ns, ∃ a b, indsLoop dimOf ns s d name = some (a, b) ∧ a ≤ j ∧ j < b := by
  intro ns
  induction ns with
  | nil => intro s d j _ h1 h2; simp at h2; omega
  | cons n ns ih =>
    intro s d j hn h1 h2
    have hn' := List.nodup_cons.1 hn
    rw [List.map_cons, List.sum_cons] at h2
    by_cases hj : j < s + dimOf n
    · refine ⟨n, by simp, s, s + dimOf n, ?_, h1, hj⟩
      show indsLoop dimOf ns _ _ n = _
      rw [indsLoop_notMem hn'.1, Function.update_self]
    · obtain ⟨name, hm, a, b, h3, h4⟩ := ih (s := s + dimOf n)
        (d := Function.update d n (some (s, s + dimOf n))) (j := j) hn'.2 (by omega) (by omega)
      exact ⟨name, by simp [hm], a, b, h3, h4⟩

theorem Layout.dim_eq {L : Layout} (h : L.names.Nodup) : L.dim = (L.names.map L.dimOf).sum := by
  unfold Layout.dim; rw [h.dedup]

theorem Layout.inds_mem {L : Layout} (h : L.names.Nodup) {name : String} (hm : name ∈ L.names) :
    ∃ a, L.inds name = some (a, a + L.dimOf name) ∧ a + L.dimOf name ≤ L.dim := by
  obtain ⟨a, h1, _, h3⟩ := indsLoop_mem (dimOf := L.dimOf) (s := 0) (d := fun _ => none) h hm
  exact ⟨a, h1, by rw [L.dim_eq h]; omega⟩

/-- C33. The columns of the file are partitioned between the variables: every column belongs to
exactly one of them, and a variable of dimension `n` has `n` consecutive columns. -/
theorem C33_partition {L : Layout} (h : L.names.Nodup) :
    (∀ name ∈ L.names, ∃ a, L.inds name = some (a, a + L.dimOf name) ∧
      a + L.dimOf name ≤ L.dim) ∧
    ∀ j < L.dim, ∃! name, name ∈ L.names ∧ ∃ a b, L.inds name = some (a, b) ∧ a ≤ j ∧ j < b := by
  refine ⟨fun name hm => L.inds_mem h hm, ?_⟩
  intro j hj
  rw [L.dim_eq h] at hj
  obtain ⟨name, hm, a, b, h1, h2, h3⟩ := indsLoop_cover (dimOf := L.dimOf) (s := 0)
    (d := fun _ => none) h (Nat.zero_le j) (by omega)
  refine ⟨name, ⟨hm, a, b, h1, h2, h3⟩, ?_⟩
  rintro name' ⟨hm', a', b', h1', h2', h3'⟩
  by_contra hne
  have := indsLoop_disjoint h hm hm' (Ne.symm hne) h1 h1'
  omega

/-- The layout of the default names for a core with two states, one dissipation, one port. -/
def exLayout : Layout where
  names := ["u", "p", "x", "dx", "dxH", "w", "z", "y"]
  dimOf := fun n => if n = "p" then 0 else if n = "x" ∨ n = "dx" ∨ n = "dxH" then 2 else 1

example : exLayout.names.Nodup ∧ exLayout.dim = 10 ∧ exLayout.inds "dxH" = some (5, 7) := by
  decide

/-- C33 needs distinct names: if `dnames` contains `u`, its columns lie outside the file. -/
theorem C33_repeat_counterexample : ∃ L : Layout, L.names = ["u", "p", "x", "u"] ∧
    L.dim = 4 ∧ L.inds "u" = some (4, 6) :=
  ⟨⟨["u", "p", "x", "u"], fun n => if n = "p" then 0 else 2⟩, rfl, by decide, by decide⟩

/-! ### Segments of columns -/

/-- The columns `a, ..., a + n - 1`. -/
def seg (a n : ℕ) : List ℕ := (List.range n).map fun k => a + k

theorem pyIndices_seg {len a n : ℕ} (h : a + n ≤ len) :
    pyIndices len (some (a : ℤ)) (some ((a + n : ℕ) : ℤ)) 1 = seg a n := by
  rw [pyIndices_inside (by omega) h]
  unfold seg
  rw [show (a + n - a + 1 - 1) / 1 = n by simp]
  simp

theorem seg_length (a n : ℕ) : (seg a n).length = n := by simp [seg]

theorem mem_seg {a n j : ℕ} : j ∈ seg a n ↔ a ≤ j ∧ j < a + n := by
  unfold seg
  rw [List.mem_map]
  constructor
  · rintro ⟨k, hk, rfl⟩
    rw [List.mem_range] at hk
    omega
  · rintro ⟨h1, h2⟩
    exact ⟨j - a, List.mem_range.2 (by omega), by omega⟩

theorem seg_nodup (a n : ℕ) : (seg a n).Nodup :=
  List.Nodup.map (fun _ _ h => Nat.add_left_cancel h) List.nodup_range

theorem seg_getElem? {a n k : ℕ} (h : k < n) : (seg a n)[k]? = some (a + k) := by
  unfold seg
  rw [List.getElem?_map, List.getElem?_range h]; rfl

/-- Assignment of a vector to its columns. -/
theorem assign_ok {dim a n : ℕ} (h : a + n ≤ dim) (v : ℕ → α) {vec : List α}
    (hl : vec.length = n) : ∃ v', assign dim v (a, a + n) vec = .ok v' ∧
      (seg a n).map v' = vec ∧ ∀ j, j ∉ seg a n → v' j = v j := by
  unfold assign
  simp only [pyIndices_seg h, seg_length]
  rw [if_pos hl]
  refine ⟨_, rfl, ?_, ?_⟩
  · apply List.ext_getElem?
    intro k
    rw [List.getElem?_map]
    by_cases hk : k < n
    · have hs : (seg a n)[k]? = some (a + k) := seg_getElem? hk
      rw [hs]
      obtain ⟨hlt, he⟩ := List.getElem?_eq_some_iff.1 hs
      show some ((vec[(seg a n).idxOf (a + k)]?).getD (v (a + k))) = _
      rw [← he, (seg_nodup a n).idxOf_getElem k hlt, List.getElem?_eq_getElem (by omega)]
      rfl
    · rw [List.getElem?_eq_none (by rw [seg_length]; omega), List.getElem?_eq_none (by omega)]
      rfl
  · intro j hj
    show (vec[(seg a n).idxOf j]?).getD (v j) = v j
    rw [List.idxOf_eq_length hj, seg_length, List.getElem?_eq_none (by omega)]
    rfl

/-- Data for distinct stored names, of the right lengths. -/
structure Fits (L : Layout) (data : List (String × List α)) : Prop where
  nodup : (data.map Prod.fst).Nodup
  names : ∀ d ∈ data, d.1 ∈ L.names
  lengths : ∀ d ∈ data, d.2.length = L.dimOf d.1

/-- The segment of columns of a name. -/
def Layout.seg (L : Layout) (name : String) : List ℕ :=
  match L.inds name with
  | some (a, b) => H5.seg a (b - a)
  | none => []

theorem Layout.seg_eq {L : Layout} {name : String} {a n : ℕ} (h : L.inds name = some (a, a + n)) :
    L.seg name = H5.seg a n := by
  unfold Layout.seg
  rw [h]
  simp

theorem Layout.seg_disjoint {L : Layout} (h : L.names.Nodup) {n1 n2 : String} (h1 : n1 ∈ L.names)
    (h2 : n2 ∈ L.names) (hne : n1 ≠ n2) {j : ℕ} (hj : j ∈ L.seg n1) : j ∉ L.seg n2 := by
  obtain ⟨a, ha, -⟩ := L.inds_mem h h1
  obtain ⟨b, hb, -⟩ := L.inds_mem h h2
  rw [L.seg_eq ha, mem_seg] at hj
  rw [L.seg_eq hb, mem_seg]
  have := indsLoop_disjoint h h1 h2 hne ha hb
  omega

theorem Layout.seg_cover {L : Layout} (h : L.names.Nodup) {j : ℕ} (hj : j < L.dim) :
    ∃ name ∈ L.names, j ∈ L.seg name := by
  obtain ⟨name, ⟨hm, a, b, h1, h2, h3⟩, -⟩ := (C33_partition h).2 j hj
  obtain ⟨a', ha', -⟩ := L.inds_mem h hm
  rw [h1] at ha'
  simp only [Option.some.injEq, Prod.mk.injEq] at ha'
  obtain ⟨rfl, rfl⟩ := ha'
  exact ⟨name, hm, by rw [L.seg_eq h1, mem_seg]; omega⟩

theorem Layout.seg_lt {L : Layout} (h : L.names.Nodup) {name : String} (hm : name ∈ L.names)
    {j : ℕ} (hj : j ∈ L.seg name) : j < L.dim := by
  obtain ⟨a, h1, h2⟩ := L.inds_mem h hm
  rw [L.seg_eq h1, mem_seg] at hj
  omega

theorem assignAll_ok {L : Layout} (h : L.names.Nodup) : ∀ {data : List (String × List α)}
    {v : ℕ → α}, Fits L data → ∃ v', assignAll L data v = .ok v' ∧
      (∀ d ∈ data, (L.seg d.1).map v' = d.2) ∧
      ∀ j, (∀ d ∈ data, j ∉ L.seg d.1) → v' j = v j := by
  intro data
  induction data with
  | nil => intro v _; exact ⟨v, rfl, by simp, fun _ _ => rfl⟩
  | cons d data ih =>
    intro v hf
    obtain ⟨name, vec⟩ := d
    have hm := hf.names (name, vec) (by simp)
    obtain ⟨a, h1, h2⟩ := L.inds_mem h hm
    obtain ⟨v1, e1, e2, e3⟩ := assign_ok h2 v (hf.lengths (name, vec) (by simp))
    have hn := List.nodup_cons.1 hf.nodup
    obtain ⟨v2, e4, e5, e6⟩ := ih (v := v1) ⟨hn.2, fun d hd => hf.names d (by simp [hd]),
      fun d hd => hf.lengths d (by simp [hd])⟩
    refine ⟨v2, ?_, ?_, ?_⟩
    · unfold assignAll
      rw [h1]
      show (assign L.dim v (a, a + L.dimOf name) vec).bind _ = _
      rw [e1]
      exact e4
    · intro d hd
      rcases List.mem_cons.1 hd with rfl | hd
      · rw [← e2, L.seg_eq h1]
        refine List.map_congr_left fun j hj => e6 j ?_
        intro d' hd' hj'
        have hne : d'.1 ≠ name := by
          intro he
          have hmm : d'.1 ∈ data.map Prod.fst := List.mem_map_of_mem hd'
          rw [he] at hmm
          exact hn.1 hmm
        exact L.seg_disjoint h (hf.names d' (by simp [hd'])) hm hne hj' (by rw [L.seg_eq h1]; exact hj)
      · exact e5 d hd
    · intro j hj
      rw [e6 j fun d hd => hj d (by simp [hd]), e3 j]
      have := hj (name, vec) (by simp)
      rwa [L.seg_eq h1] at this

/-! ### Reading -/

/-- Values of a variable in a row. -/
def rowOf (L : Layout) (ds : Ds α) (t : ℕ) (name : String) : List α :=
  (L.seg name).map fun j => ds.e t j

theorem axis_idx {r t : ℕ} (ht : t < r) {step : ℤ} (hs : 1 ≤ step) :
    axis r (t : ℤ) ((t : ℤ) + 1) step = .ok [t] := by
  unfold axis
  rw [if_pos hs, show ((t : ℤ) + 1) = ((t + 1 : ℕ) : ℤ) by push_cast; rfl,
    pyIndices_inside (by omega) (by omega)]
  have : (t + 1 - t + step.toNat - 1) / step.toNat = 1 := by
    rw [show t + 1 - t + step.toNat - 1 = step.toNat by omega]
    exact Nat.div_self (by omega)
  rw [this]
  simp

theorem vcols_none {L : Layout} (h : L.names.Nodup) {name : String} (hm : name ∈ L.names) {c : ℕ}
    (hc : L.dim ≤ c) : vcols L c name .none = .ok (L.seg name) := by
  obtain ⟨a, h1, h2⟩ := L.inds_mem h hm
  unfold vcols
  rw [h1, L.seg_eq h1]
  show axis c _ _ 1 = _
  unfold axis
  rw [if_pos (le_refl _)]
  exact congrArg _ (pyIndices_seg (by omega))

theorem vcols_all {L : Layout} (c : ℕ) (name : String) :
    vcols L c name (.slice none none none) = vcols L c name .none := by
  unfold vcols
  cases L.inds name with
  | none => rfl
  | some ab => rfl

/-- Reading one time index. -/
theorem read_idx {L : Layout} (h : L.names.Nodup) {name : String} (hm : name ∈ L.names) {ds : Ds α}
    (hc : ds.c = L.dim) {t : ℕ} (ht : t < ds.r) {w : Window} (hw : 1 ≤ w.step) :
    read L w ds name (.idx t) .none = .ok [rowOf L ds t name] := by
  unfold read
  show (axis ds.r (t : ℤ) ((t : ℤ) + 1) w.step).bind _ = _
  rw [axis_idx ht hw]
  show (vcols L ds.c name .none).bind _ = _
  rw [vcols_none h hm hc.ge]
  rfl

theorem complete_ok {L : Layout} (h : L.names.Nodup) {ds : Ds α} (hc : ds.c = L.dim) {t : ℕ}
    (ht : t < ds.r) {w : Window} (hw : 1 ≤ w.step) : ∀ {ns : List String}
    {data : List (String × List α)}, ns.Nodup → (∀ n ∈ ns, n ∈ L.names) →
    complete L w ds t data ns = .ok (data ++ (ns.filter (· ∉ data.map Prod.fst)).map
      fun n => (n, rowOf L ds t n)) := by
  intro ns
  induction ns with
  | nil => intro data _ _; simp [complete]
  | cons n ns ih =>
    intro data hn hm
    have hn' := List.nodup_cons.1 hn
    unfold complete
    by_cases hmem : n ∈ data.map Prod.fst
    · rw [if_pos hmem, ih hn'.2 fun n hn => hm n (by simp [hn]),
        List.filter_cons_of_neg (by simpa using hmem)]
    · have hrd : read L w ds n (.idx t) (.slice none none none) = .ok [rowOf L ds t n] := by
        rw [← read_idx h (hm n (by simp)) hc ht hw]
        unfold read
        rw [vcols_all]
      rw [if_neg hmem, hrd]
      show complete L w ds t (data ++ [(n, rowOf L ds t n)]) ns = _
      rw [ih hn'.2 fun n hn => hm n (by simp [hn]), List.filter_cons_of_pos (by simpa using hmem),
        List.map_cons, List.append_assoc]
      congr 2
      rw [List.singleton_append]
      congr 2
      refine List.filter_congr fun x hx => ?_
      have : x ≠ n := by rintro rfl; exact hn'.1 hx
      simp [this]

/-- Values of `data` for a name. -/
def valueOf (data : List (String × List α)) (name : String) : Option (List α) :=
  (data.find? fun d => d.1 = name).map Prod.snd

theorem valueOf_mem {data : List (String × List α)} {name : String} {vec : List α}
    (h : valueOf data name = some vec) : (name, vec) ∈ data := by
  unfold valueOf at h
  obtain ⟨d, hd, rfl⟩ := Option.map_eq_some_iff.1 h
  have h1 := List.mem_of_find?_eq_some hd
  have h2 := List.find?_some hd
  simp only [decide_eq_true_eq] at h2
  rw [← h2]; exact h1

theorem valueOf_none {data : List (String × List α)} {name : String}
    (h : valueOf data name = none) : name ∉ data.map Prod.fst := by
  unfold valueOf at h
  rw [Option.map_eq_none_iff, List.find?_eq_none] at h
  intro hm
  obtain ⟨d, hd, rfl⟩ := List.mem_map.1 hm
  exact h d hd (by simp)

/-- The effect of `h5dump_vecs`. -/
theorem dumpVecs_ok [Zero α] {L : Layout} (h : L.names.Nodup) {ds : Ds α} (hc : ds.c = L.dim)
    {t : ℕ} (ht : t < ds.r) {w : Window} (hw : 1 ≤ w.step) {data : List (String × List α)}
    (hf : Fits L data) : ∃ ds', dumpVecs L w ds t data = .ok ds' ∧ ds'.r = ds.r ∧ ds'.c = ds.c ∧
      (∀ name ∈ L.names, rowOf L ds' t name = (valueOf data name).getD (rowOf L ds t name)) ∧
      ∀ i j, (i ≠ t ∨ L.dim ≤ j) → ds'.e i j = ds.e i j := by
  have hcomp := complete_ok h hc ht hw (data := data) h fun _ hn => hn
  have hfit : Fits L (data ++ (L.names.filter (· ∉ data.map Prod.fst)).map
      fun n => (n, rowOf L ds t n)) := by
    refine ⟨?_, ?_, ?_⟩
    · rw [List.map_append, List.map_map]
      have : (Prod.fst ∘ fun n => (n, rowOf L ds t n)) = id := rfl
      rw [this, List.map_id]
      refine List.Nodup.append hf.nodup (h.filter _) ?_
      intro x hx hx'
      have := (List.mem_filter.1 hx').2
      simp only [decide_eq_true_eq] at this
      exact this hx
    · intro d hd
      rcases List.mem_append.1 hd with hd | hd
      · exact hf.names d hd
      · obtain ⟨n, hn, rfl⟩ := List.mem_map.1 hd
        exact (List.mem_filter.1 hn).1
    · intro d hd
      rcases List.mem_append.1 hd with hd | hd
      · exact hf.lengths d hd
      · obtain ⟨n, hn, rfl⟩ := List.mem_map.1 hd
        obtain ⟨a, h1, -⟩ := L.inds_mem h (List.mem_filter.1 hn).1
        show (List.map _ _).length = _
        rw [List.length_map, L.seg_eq h1, seg_length]
  obtain ⟨v, e1, e2, e3⟩ := assignAll_ok h (v := fun _ => 0) hfit
  refine ⟨⟨ds.r, ds.c, fun i j => if i = t ∧ j < ds.c then v j else ds.e i j⟩, ?_, rfl, rfl, ?_, ?_⟩
  · unfold dumpVecs
    rw [hcomp]
    show (assignAll L _ _).bind _ = _
    rw [e1]
    show (if ds.c ≠ L.dim then _ else _) = _
    rw [if_neg (by simp [hc]), if_neg (by omega)]
  · intro name hm
    have hrow : rowOf L ⟨ds.r, ds.c, fun i j => if i = t ∧ j < ds.c then v j else ds.e i j⟩ t name =
        (L.seg name).map v := by
      unfold rowOf
      refine List.map_congr_left fun j hj => ?_
      have := L.seg_lt h hm hj
      exact if_pos ⟨rfl, by omega⟩
    rw [hrow]
    cases hv : valueOf data name with
    | some vec =>
      exact e2 (name, vec) (List.mem_append_left _ (valueOf_mem hv))
    | none =>
      refine e2 (name, rowOf L ds t name) (List.mem_append_right _ (List.mem_map.2 ⟨name, ?_, rfl⟩))
      rw [List.mem_filter]
      exact ⟨hm, by simpa using valueOf_none hv⟩
  · intro i j hij
    show (if _ then _ else _) = _
    rw [if_neg]
    rintro ⟨h1, h2⟩
    rcases hij with h | h
    · exact h h1
    · omega

/-! ### C33 -/

/-- C33. Writing the vectors of a step: each of them is what reading the step returns, the
variables that are not given keep their values, and no other row changes. -/
theorem C33_dump [Zero α] {L : Layout} (h : L.names.Nodup) {ds : Ds α} (hc : ds.c = L.dim)
    {t : ℕ} (ht : t < ds.r) {w : Window} (hw : 1 ≤ w.step) {data : List (String × List α)}
    (hf : Fits L data) : ∃ ds', dumpVecs L w ds t data = .ok ds' ∧ ds'.r = ds.r ∧ ds'.c = ds.c ∧
      (∀ d ∈ data, read L w ds' d.1 (.idx t) .none = .ok [d.2]) ∧
      (∀ name ∈ L.names, name ∉ data.map Prod.fst →
        read L w ds' name (.idx t) .none = read L w ds name (.idx t) .none) ∧
      ∀ i j, i ≠ t → ds'.e i j = ds.e i j := by
  obtain ⟨ds', h1, h2, h3, h4, h5⟩ := dumpVecs_ok h hc ht hw hf
  refine ⟨ds', h1, h2, h3, ?_, ?_, fun i j hi => h5 i j (.inl hi)⟩
  · intro d hd
    have hv : valueOf data d.1 = some d.2 := by
      cases hv : valueOf data d.1 with
      | none => exact absurd (List.mem_map_of_mem hd) (valueOf_none hv)
      | some vec =>
        have hm := valueOf_mem hv
        have := List.inj_on_of_nodup_map hf.nodup hm hd rfl
        rw [← this]
    rw [read_idx h (hf.names d hd) (h3.trans hc) (by omega) hw, h4 d.1 (hf.names d hd), hv]
    rfl
  · intro name hm hn
    have hv : valueOf data name = none := by
      cases hv : valueOf data name with
      | none => rfl
      | some vec => exact absurd (List.mem_map_of_mem (valueOf_mem hv)) hn
    rw [read_idx h hm (h3.trans hc) (by omega) hw, read_idx h hm hc ht hw, h4 name hm, hv]
    rfl

example : Fits exLayout [("x", [(1:ℤ), 2]), ("y", [3])] :=
  ⟨by decide, by decide, by decide⟩

/-- A sequence of writings. -/
def dumps [Zero α] (L : Layout) (w : Window) : List (ℕ × List (String × List α)) → Ds α →
    Except Err (Ds α)
  | [], ds => .ok ds
  | (t, data) :: ops, ds => do
    let ds' ← dumpVecs L w ds t data
    dumps L w ops ds'

/-- Specification: the value last written for a name at a time, or an initial value. -/
def lastWritten (init : ℕ → String → List α) :
    List (ℕ × List (String × List α)) → ℕ → String → List α
  | [], t, name => init t name
  | (t', data) :: ops, t, name => lastWritten
      (fun i n => if i = t' then (valueOf data n).getD (init i n) else init i n) ops t name

theorem lastWritten_congr {L : Layout} {n : ℕ} {f g : ℕ → String → List α} :
    ∀ {ops : List (ℕ × List (String × List α))},
    (∀ i < n, ∀ name ∈ L.names, f i name = g i name) → ∀ i < n, ∀ name ∈ L.names,
    lastWritten f ops i name = lastWritten g ops i name := by
  intro ops
  induction ops generalizing f g with
  | nil => intro h; exact h
  | cons op ops ih =>
    intro h
    obtain ⟨t', data⟩ := op
    refine ih fun i hi name hm => ?_
    split
    · rw [h i hi name hm]
    · exact h i hi name hm

/-- C33. After any sequence of writings, reading a variable at a time returns what was last written
there, or the initial value. -/
theorem C33_history [Zero α] {L : Layout} (h : L.names.Nodup) {w : Window} (hw : 1 ≤ w.step) :
    ∀ {ops : List (ℕ × List (String × List α))} {ds : Ds α}, ds.c = L.dim →
    (∀ op ∈ ops, op.1 < ds.r ∧ Fits L op.2) → ∃ ds', dumps L w ops ds = .ok ds' ∧
      ds'.r = ds.r ∧ ds'.c = ds.c ∧ ∀ i < ds.r, ∀ name ∈ L.names,
        read L w ds' name (.idx i) .none = .ok [lastWritten (rowOf L ds) ops i name] := by
  intro ops
  induction ops with
  | nil =>
    intro ds hc _
    exact ⟨ds, rfl, rfl, rfl, fun i hi name hm => read_idx h hm hc hi hw⟩
  | cons op ops ih =>
    intro ds hc hops
    obtain ⟨t, data⟩ := op
    obtain ⟨ht, hf⟩ := hops (t, data) (by simp)
    obtain ⟨d1, e1, e2, e3, e4, e5⟩ := dumpVecs_ok h hc ht hw hf
    obtain ⟨d2, f1, f2, f3, f4⟩ := ih (ds := d1) (e3.trans hc) fun op hop => by
      have := hops op (by simp [hop])
      rwa [e2]
    refine ⟨d2, ?_, f2.trans e2, f3.trans e3, ?_⟩
    · show (dumpVecs L w ds t data).bind _ = _
      rw [e1]; exact f1
    · intro i hi name hm
      rw [f4 i (by omega) name hm]
      congr 2
      refine lastWritten_congr (n := ds.r) ?_ i hi name hm
      intro i hi name hm
      by_cases hit : i = t
      · subst hit
        rw [if_pos rfl, e4 name hm]
      · rw [if_neg hit]
        unfold rowOf
        exact List.map_congr_left fun j _ => e5 i j (.inl hit)

/-- C33. An index or a slice inside a variable selects its components. -/
theorem C33_component {L : Layout} (h : L.names.Nodup) {name : String} (hm : name ∈ L.names)
    {ds : Ds α} (hc : ds.c = L.dim) {t : ℕ} (ht : t < ds.r) {w : Window} (hw : 1 ≤ w.step) {k : ℕ}
    (hk : k < L.dimOf name) : ∃ x, (rowOf L ds t name)[k]? = some x ∧
      read L w ds name (.idx t) (.idx k) = .ok [[x]] := by
  obtain ⟨a, h1, h2⟩ := L.inds_mem h hm
  refine ⟨ds.e t (a + k), ?_, ?_⟩
  · unfold rowOf
    rw [L.seg_eq h1, List.getElem?_map, seg_getElem? hk]; rfl
  · unfold read
    show (axis ds.r (t : ℤ) ((t : ℤ) + 1) w.step).bind _ = _
    rw [axis_idx ht hw]
    show (vcols L ds.c name (.idx k)).bind _ = _
    unfold vcols
    rw [h1]
    show ((colIdx ds.c ((k : ℤ) + (a : ℤ))).map _).bind _ = _
    unfold colIdx
    rw [if_pos (by omega), show ((k : ℤ) + (a : ℤ)).toNat = a + k by omega]
    rfl

/-- C33 fails for an index outside the variable, which is not checked: `data['x', :, -1]` and
`data['x', :, 2]` are columns of other variables (`p`/`u` and `dx`). -/
theorem C33_component_counterexample :
    (vcols exLayout 10 "x" (.idx (-1))) = .ok [0] ∧ (vcols exLayout 10 "x" (.idx 2)) = .ok [3] ∧
    exLayout.inds "x" = some (1, 3) ∧
    (vcols exLayout 10 "x" (.slice (some (-1)) none none)) = .ok [0, 1, 2] :=
  ⟨by decide, by decide, by decide, by decide⟩

end H5
end Pyphs
