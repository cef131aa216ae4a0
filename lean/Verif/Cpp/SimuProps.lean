/-
C73: the C++ simulation and the Python simulation write the same file. First part: the loop of
`simu.cpp`, for any object.
-/
import Verif.Cpp.Simu
import Verif.H5.RunProps

namespace Pyphs
namespace Cpp
open Numeric H5

variable {α σ : Type}

/-! ### The struct -/

theorem offset_inds {dimOf : String → ℕ} : ∀ {ns : List String} {s : ℕ}
    {d : String → Option (ℕ × ℕ)} {name : String} {a b : ℕ}, ns.Nodup → name ∈ ns →
    0 < dimOf name → indsLoop dimOf ns s d name = some (a, b) → s ≤ a ∧
    offset ((ns.filter fun n => 0 < dimOf n).map fun n => (n, dimOf n)) name = some (a - s) := by
  intro ns
  induction ns with
  | nil => intro s d name a b _ h; simp at h
  | cons n ns ih =>
    intro s d name a b hn h hd he
    have hn' := List.nodup_cons.1 hn
    change indsLoop dimOf ns _ _ name = _ at he
    by_cases hm : name ∈ ns
    · obtain ⟨h1, h2⟩ := ih hn'.2 hm hd he
      have hne : name ≠ n := fun h => hn'.1 (h ▸ hm)
      refine ⟨by omega, ?_⟩
      rw [List.filter_cons]
      split_ifs with h0
      · rw [List.map_cons, offset, if_neg hne, h2]
        simp only [Option.map_some, Option.some.injEq]
        omega
      · rw [h2]
        have : dimOf n = 0 := by simpa using h0
        rw [this]
        rfl
    · have e : name = n := by simpa [hm] using h
      subst e
      rw [indsLoop_notMem hm, Function.update_self] at he
      simp only [Option.some.injEq, Prod.mk.injEq] at he
      refine ⟨by omega, ?_⟩
      rw [List.filter_cons, if_pos (by simpa using hd), List.map_cons, offset, if_pos rfl]
      simp only [Option.some.injEq]
      omega

/-- Members of the struct have the offsets of the columns of their variable. -/
theorem offset_eq {L : Layout} (h : L.names.Nodup) {name : String} (hm : name ∈ L.names)
    (hd : 0 < L.dimOf name) : ∃ a, offset (fields L) name = some a ∧
      L.seg name = seg a (L.dimOf name) := by
  obtain ⟨a, h1, -⟩ := L.inds_mem h hm
  exact ⟨a, (offset_inds h hm hd h1).2, L.seg_eq h1⟩

theorem structSize_eq {L : Layout} (h : L.names.Nodup) : structSize (fields L) = L.dim := by
  rw [L.dim_eq h]
  unfold structSize fields
  rw [List.map_map]
  generalize L.names = l
  induction l with
  | nil => rfl
  | cons n l ih =>
    rw [List.filter_cons]
    split_ifs with h0
    · rw [List.map_cons, List.sum_cons, List.map_cons, List.sum_cons, ih]; rfl
    · rw [List.map_cons, List.sum_cons, ih]
      have : L.dimOf n = 0 := by simpa using h0
      omega

theorem copyOut_ok {a d : ℕ} {v : List α} (hv : v.length = d) (mem : ℕ → α) :
    ∃ mem', copyOut a d v mem = some mem' ∧ (seg a d).map mem' = v ∧
      ∀ j, j ∉ seg a d → mem' j = mem j := by
  have key : ∀ k ≤ d, ∃ mem', copyOut a k v mem = some mem' ∧
      (∀ i < k, some (mem' (a + i)) = v[i]?) ∧ ∀ j, j ∉ seg a k → mem' j = mem j := by
    intro k
    induction k with
    | zero => intro _; exact ⟨mem, rfl, by simp, fun _ _ => rfl⟩
    | succ k ih =>
      intro hk
      obtain ⟨m, h1, h2, h3⟩ := ih (by omega)
      refine ⟨Function.update m (a + k) v[k], ?_, ?_, ?_⟩
      · unfold copyOut at h1 ⊢
        rw [List.range_succ, List.foldlM_append, h1]
        simp [List.getElem?_eq_getElem (show k < v.length by omega)]
      · intro i hi
        by_cases he : i = k
        · subst he
          rw [Function.update_self, List.getElem?_eq_getElem (by omega)]
        · rw [Function.update_of_ne (by omega), h2 i (by omega)]
      · intro j hj
        rw [mem_seg] at hj
        rw [Function.update_of_ne (by omega)]
        exact h3 j (by rw [mem_seg]; omega)
  obtain ⟨m, h1, h2, h3⟩ := key d le_rfl
  refine ⟨m, h1, ?_, h3⟩
  apply List.ext_getElem?
  intro i
  rw [List.getElem?_map]
  by_cases hi : i < d
  · rw [seg_getElem? hi, ← h2 i hi]; rfl
  · rw [List.getElem?_eq_none (by rw [seg_length]; omega), List.getElem?_eq_none (by omega)]; rfl

/-- The results are copied to the columns of their variable. -/
theorem results_ok {L : Layout} (h : L.names.Nodup) (D : Device σ α) (o : σ) :
    ∀ {l : List String} {mem : ℕ → α}, l.Nodup → (∀ name ∈ l, name ∈ L.names) →
    (∀ name ∈ l, (D.vector name o).length = L.dimOf name) →
    ∃ mem', l.foldlM (fun mem name =>
      if 0 < L.dimOf name then do
        let a ← offset (fields L) name
        copyOut a (L.dimOf name) (D.vector name o) mem
      else some mem) mem = some mem' ∧ (∀ name ∈ l, (L.seg name).map mem' = D.vector name o) ∧
      ∀ j, (∀ name ∈ l, j ∉ L.seg name) → mem' j = mem j := by
  intro l
  induction l with
  | nil => intro mem _ _ _; exact ⟨mem, rfl, by simp, fun _ _ => rfl⟩
  | cons n l ih =>
    intro mem hn hsub hlen
    have hn' := List.nodup_cons.1 hn
    have hm := hsub n (by simp)
    have h1 : ∃ m1, (if 0 < L.dimOf n then do
        let a ← offset (fields L) n
        copyOut a (L.dimOf n) (D.vector n o) mem
      else some mem) = some m1 ∧ (L.seg n).map m1 = D.vector n o ∧
      ∀ j, j ∉ L.seg n → m1 j = mem j := by
      by_cases hd : 0 < L.dimOf n
      · obtain ⟨a, e1, e2⟩ := offset_eq h hm hd
        obtain ⟨m1, f1, f2, f3⟩ := copyOut_ok (a := a) (hlen n (by simp)) mem
        refine ⟨m1, ?_, by rw [e2]; exact f2, by rw [e2]; exact f3⟩
        rw [if_pos hd, e1]
        exact f1
      · refine ⟨mem, if_neg hd, ?_, fun _ _ => rfl⟩
        obtain ⟨a, ha, -⟩ := L.inds_mem h hm
        have h0 : L.dimOf n = 0 := by omega
        have := hlen n (by simp)
        rw [h0, List.length_eq_zero_iff] at this
        rw [this, L.seg_eq ha, h0]
        rfl
    obtain ⟨m1, f1, f2, f3⟩ := h1
    obtain ⟨m2, g1, g2, g3⟩ := ih (mem := m1) hn'.2 (fun x hx => hsub x (by simp [hx]))
      (fun x hx => hlen x (by simp [hx]))
    refine ⟨m2, ?_, ?_, ?_⟩
    · rw [List.foldlM_cons, f1]; exact g1
    · intro name hname
      rcases List.mem_cons.1 hname with rfl | hname
      · rw [← f2]
        refine List.map_congr_left fun j hj => ?_
        exact g3 j fun x hx => L.seg_disjoint h hm (hsub x (by simp [hx]))
          (fun e => hn'.1 (e ▸ hx)) hj
      · exact g2 name hname
    · intro j hj
      rw [g3 j fun x hx => hj x (by simp [hx]), f3 j (hj n (by simp))]

/-! ### The loop -/

/-- One update of the object by inputs and parameters. -/
def Device.step (D : Device σ α) (L : Layout) (u p : List α) (o : σ) : Option σ :=
  (if 0 < L.dimOf "u" then D.set "u" u o else some o).bind fun o =>
    (if 0 < L.dimOf "p" then D.set "p" p o else some o).bind D.update

theorem setInputs_eq {L : Layout} (h : L.names.Nodup) (hu : "u" ∈ L.names) (hp : "p" ∈ L.names)
    (D : Device σ α) (mem : ℕ → α) (o : σ) : setInputs D L mem o =
      (if 0 < L.dimOf "u" then D.set "u" ((L.seg "u").map mem) o else some o).bind fun o =>
        if 0 < L.dimOf "p" then D.set "p" ((L.seg "p").map mem) o else some o := by
  have key : ∀ name ∈ L.names, ∀ o : σ, (if 0 < L.dimOf name then do
      let a ← offset (fields L) name
      D.set name ((List.range (L.dimOf name)).map fun i => mem (a + i)) o
    else some o) = if 0 < L.dimOf name then D.set name ((L.seg name).map mem) o else some o := by
    intro name hm o
    by_cases hd : 0 < L.dimOf name
    · obtain ⟨a, e1, e2⟩ := offset_eq h hm hd
      rw [if_pos hd, if_pos hd, e1, e2]
      show D.set name _ o = _
      rw [seg, List.map_map]
      rfl
    · rw [if_neg hd, if_neg hd]
  unfold setInputs
  simp only [List.foldlM_cons, List.foldlM_nil]
  rw [key "u" hu]
  refine congrArg _ (funext fun o => ?_)
  rw [key "p" hp]
  cases (if 0 < L.dimOf "p" then D.set "p" ((L.seg "p").map mem) o else some o) <;> rfl

/-- The body of the loop. -/
theorem row_ok {L : Layout} (h : L.names.Nodup) (hu : "u" ∈ L.names) (hp : "p" ∈ L.names)
    {D : Device σ α} {s : Main σ α} {n : ℕ} (hc : s.ds.c = L.dim) (hn : n < s.ds.r) {o' : σ}
    (ho : D.step L (rowOf L s.ds n "u") (rowOf L s.ds n "p") s.obj = some o')
    (hv : ∀ name ∈ L.names.drop 2, (D.vector name o').length = L.dimOf name) :
    ∃ s', row D L s n = some s' ∧ s'.obj = o' ∧ s'.ds.r = s.ds.r ∧ s'.ds.c = s.ds.c ∧
      (∀ name ∈ L.names, rowOf L s'.ds n name =
        if name ∈ L.names.drop 2 then D.vector name o' else rowOf L s.ds n name) ∧
      ∀ i j, i ≠ n → s'.ds.e i j = s.ds.e i j := by
  set mem : ℕ → α := fun j => if j < L.dim then s.ds.e n j else s.mem j with hmem
  have hseg : ∀ name ∈ L.names, (L.seg name).map mem = rowOf L s.ds n name := by
    intro name hm
    refine List.map_congr_left fun j hj => ?_
    exact if_pos (L.seg_lt h hm hj)
  have h1 : (setInputs D L mem s.obj).bind D.update = some o' := by
    rw [setInputs_eq h hu hp, hseg _ hu, hseg _ hp, Option.bind_assoc]
    exact ho
  obtain ⟨o1, h2, h3⟩ := Option.bind_eq_some_iff.1 h1
  obtain ⟨m', e1, e2, e3⟩ := results_ok h D o' (l := L.names.drop 2) (mem := mem)
    (h.sublist (List.drop_sublist _ _)) (fun x hx => List.mem_of_mem_drop hx) hv
  refine ⟨⟨o', m', s.ds.r, s.ds.c, fun i j => if i = n ∧ j < L.dim then m' j else s.ds.e i j⟩,
    ?_, rfl, rfl, rfl, ?_, ?_⟩
  · unfold row
    rw [if_neg (by rw [structSize_eq h]; omega)]
    show (setInputs D L mem s.obj).bind _ = _
    rw [h2]
    show (D.update o1).bind _ = _
    rw [h3]
    show (results D L o' mem).bind _ = _
    have : results D L o' mem = some m' := e1
    rw [this]
    rfl
  · intro name hm
    have hr : rowOf L ⟨s.ds.r, s.ds.c, fun i j => if i = n ∧ j < L.dim then m' j else s.ds.e i j⟩ n
        name = (L.seg name).map m' := by
      refine List.map_congr_left fun j hj => ?_
      exact if_pos ⟨rfl, L.seg_lt h hm hj⟩
    rw [hr]
    split_ifs with hd
    · exact e2 name hd
    · rw [← hseg name hm]
      refine List.map_congr_left fun j hj => ?_
      exact e3 j fun x hx => L.seg_disjoint h hm (List.mem_of_mem_drop hx)
        (fun e => hd (e ▸ hx)) hj
  · intro i j hi
    exact if_neg fun hh => hi hh.1

/-- The loop: complete description of the file. -/
theorem mainLoop_ok {L : Layout} (h : L.names.Nodup) (hu : "u" ∈ L.names) (hp : "p" ∈ L.names)
    {D : Device σ α} {o : ℕ → σ} {mem : ℕ → α} {ds : Ds α} (hc : ds.c = L.dim) :
    ∀ {nt : ℕ}, nt ≤ ds.r →
    (∀ i < nt, D.step L (inputs L ds i).1 (inputs L ds i).2 (o i) = some (o (i + 1))) →
    (∀ i < nt, ∀ name ∈ L.names.drop 2, (D.vector name (o (i + 1))).length = L.dimOf name) →
    ∃ s, mainLoop D L nt ⟨o 0, mem, ds⟩ = some s ∧ s.obj = o nt ∧ s.ds.r = ds.r ∧ s.ds.c = ds.c ∧
      ∀ name ∈ L.names, ∀ i, rowOf L s.ds i name =
        if i < nt ∧ name ∈ L.names.drop 2 then D.vector name (o (i + 1))
        else rowOf L ds i name := by
  intro nt
  induction nt with
  | zero =>
    intro _ _ _
    exact ⟨⟨o 0, mem, ds⟩, rfl, rfl, rfl, rfl, fun name _ i => by rw [if_neg (by simp)]⟩
  | succ nt ih =>
    intro hr hs hv
    obtain ⟨s, e1, e2, e3, e4, e5⟩ := ih (by omega) (fun i hi => hs i (by omega))
      (fun i hi => hv i (by omega))
    have hin : ∀ name ∈ L.names, rowOf L s.ds nt name = rowOf L ds nt name := by
      intro name hm
      rw [e5 name hm nt, if_neg (by omega)]
    have hstep := hs nt (by omega)
    unfold inputs at hstep
    dsimp only at hstep
    rw [← hin _ hu, ← hin _ hp, ← e2] at hstep
    obtain ⟨s', f1, f2, f3, f4, f5, f6⟩ := row_ok h hu hp (e4.trans hc) (by omega) hstep
      (hv nt (by omega))
    refine ⟨s', ?_, f2, f3.trans e3, f4.trans e4, ?_⟩
    · unfold mainLoop at e1 ⊢
      rw [List.range_succ, List.foldlM_append, e1]
      show (row D L s nt).bind _ = _
      rw [f1]
      rfl
    · intro name hm i
      by_cases hi : i = nt
      · subst hi
        rw [f5 name hm, hin name hm]
        by_cases hd : name ∈ L.names.drop 2
        · rw [if_pos hd, if_pos ⟨by omega, hd⟩]
        · rw [if_neg hd, if_neg fun hh => hd hh.2]
      · have : rowOf L s'.ds i name = rowOf L s.ds i name :=
          List.map_congr_left fun j _ => f6 i j hi
        rw [this, e5 name hm i]
        by_cases hd : i < nt ∧ name ∈ L.names.drop 2
        · rw [if_pos hd, if_pos ⟨by omega, hd.2⟩]
        · rw [if_neg hd, if_neg]
          rintro ⟨h1, h2⟩
          exact hd ⟨by omega, h2⟩

/-! ### Equal files -/

/-- Files with the same content. -/
def SameFile (d d' : Ds α) : Prop := d.r = d'.r ∧ d.c = d'.c ∧ ∀ i < d.r, ∀ j < d.c, d.e i j = d'.e i j

theorem sameFile_of_rows {L : Layout} (h : L.names.Nodup) {d d' : Ds α} (hr : d.r = d'.r)
    (hc : d.c = d'.c) (hd : d.c = L.dim)
    (he : ∀ name ∈ L.names, ∀ i < d.r, rowOf L d i name = rowOf L d' i name) : SameFile d d' := by
  refine ⟨hr, hc, fun i hi j hj => ?_⟩
  obtain ⟨name, hm, hj'⟩ := L.seg_cover h (j := j) (by omega)
  exact List.map_inj_left.1 (he name hm i hi) j hj'

theorem axis_lt {len : ℕ} {a b c : ℤ} {l : List ℕ} (h : axis len a b c = .ok l) :
    ∀ i ∈ l, i < len := by
  unfold axis at h
  split_ifs at h
  obtain rfl := Except.ok.inj h
  intro i hi
  exact pyIndices_lt (by omega) hi

/-- Two files with the same content are read in the same way. -/
theorem SameFile.read {d d' : Ds α} (h : SameFile d d') (L : Layout) (w : Window) (name : String)
    (t : TSel) (v : VSel) : read L w d name t v = read L w d' name t v := by
  unfold H5.read
  rw [← h.1, ← h.2.1]
  cases ha : axis d.r (tslice w t).1 (tslice w t).2.1 (tslice w t).2.2 with
  | error e => rfl
  | ok ps =>
    cases hb : vcols L d.c name v with
    | error e => rfl
    | ok cs =>
      have hcs : ∀ j ∈ cs, j < d.c := by
        unfold vcols at hb
        split at hb
        · cases hb
        · split at hb
          · exact axis_lt hb
          · unfold colIdx at hb
            split_ifs at hb
            · obtain rfl := Except.ok.inj hb
              intro j hj
              rw [List.mem_singleton] at hj
              omega
            · obtain rfl := Except.ok.inj hb
              intro j hj
              rw [List.mem_singleton] at hj
              omega
            · cases hb
          · exact axis_lt hb
      show Except.ok _ = Except.ok _
      congr 1
      refine List.map_congr_left fun i hi => List.map_congr_left fun j hj => ?_
      exact h.2.2 i (axis_lt ha i hi) j (hcs j hj)

/-- **C73** (loop): if the object of the C++ program follows the numerical object of the Python
simulation, the two simulations write the same file. -/
theorem C73_loop [Zero α] {τ : Type} {L : Layout} (h : L.names.Nodup)
    {rest : List String} (hL : L.names = "u" :: "p" :: rest) {w : Window}
    (hw : 1 ≤ w.step) {m : Machine τ α} {D : Device σ α} {R : τ → σ → Prop} {st : ℕ → τ} {ds : Ds α}
    (hc : ds.c = L.dim) (hstop : w.stop = ds.r)
    (hst : ∀ i < ds.r, m.upd (st i) (inputs L ds i).1 (inputs L ds i).2 = st (i + 1))
    (hnames : ∀ i < ds.r, (m.vecs (st (i + 1))).map Prod.fst = rest)
    (hlen : ∀ i < ds.r, ∀ q ∈ m.vecs (st (i + 1)), q.2.length = L.dimOf q.1)
    (hsim : ∀ i < ds.r, ∀ o, R (st i) o → ∃ o', D.step L (inputs L ds i).1 (inputs L ds i).2 o = some o' ∧
      R (st (i + 1)) o' ∧ ∀ q ∈ m.vecs (st (i + 1)), D.vector q.1 o' = q.2)
    {o : σ} (ho : R (st 0) o) (mem : ℕ → α) :
    ∃ dpy s, process L w m ds.r (st 0) ds = .ok (st ds.r, dpy) ∧
      mainLoop D L ds.r ⟨o, mem, ds⟩ = some s ∧ R (st ds.r) s.obj ∧ SameFile dpy s.ds := by
  classical
  have hu : "u" ∈ L.names := by simp [hL]
  have hp : "p" ∈ L.names := by simp [hL]
  have hdrop : L.names.drop 2 = rest := by rw [hL]; rfl
  have hnd : rest.Nodup := by rw [← hdrop]; exact h.sublist (List.drop_sublist _ _)
  have htr : ∀ i ≤ ds.r, traj m (st 0) (inputs L ds) i = st i := by
    intro i
    induction i with
    | zero => intro _; rfl
    | succ i ih =>
      intro hi
      show m.upd (traj m (st 0) (inputs L ds) i) _ _ = _
      rw [ih (by omega)]
      exact hst i (by omega)
  have hfit : ∀ i < ds.r, Fits L (m.vecs (st (i + 1))) := by
    intro i hi
    refine ⟨by rw [hnames i hi]; exact hnd, ?_, hlen i hi⟩
    intro d hd
    have : d.1 ∈ rest := by rw [← hnames i hi]; exact List.mem_map_of_mem hd
    rw [hL]; simp [this]
  obtain ⟨dpy, a1, a2, a3, a4⟩ := process_ok h hu hp hw hc hstop le_rfl (st 0) ds.r
    (m := m) (by
      intro i hi
      rw [Nat.min_self] at hi
      rw [htr (i + 1) hi]
      exact hfit i hi)
  rw [Nat.min_self] at a1 a4
  rw [htr _ le_rfl] at a1
  have hseq : ∃ os : ℕ → σ, os 0 = o ∧ ∀ i, i < ds.r → R (st i) (os i) → D.step L (inputs L ds i).1
      (inputs L ds i).2 (os i) = some (os (i + 1)) ∧ R (st (i + 1)) (os (i + 1)) ∧
      ∀ q ∈ m.vecs (st (i + 1)), D.vector q.1 (os (i + 1)) = q.2 := by
    refine ⟨fun i => Nat.rec o (fun i oi => if hi : i < ds.r ∧ R (st i) oi then
      (hsim i hi.1 oi hi.2).choose else oi) i, rfl, ?_⟩
    intro i hi hr
    have := (hsim i hi _ hr).choose_spec
    dsimp only
    rw [dif_pos ⟨hi, hr⟩]
    exact this
  obtain ⟨os, h0, hos⟩ := hseq
  have hR : ∀ i ≤ ds.r, R (st i) (os i) := by
    intro i
    induction i with
    | zero => intro _; rw [h0]; exact ho
    | succ i ih => intro hi; exact (hos i hi (ih (by omega))).2.1
  have hq : ∀ i < ds.r, ∀ name ∈ rest, ∃ v, (name, v) ∈ m.vecs (st (i + 1)) := by
    intro i hi name hm
    rw [← hnames i hi, List.mem_map] at hm
    obtain ⟨q, h1, rfl⟩ := hm
    exact ⟨q.2, h1⟩
  obtain ⟨s, b1, b2, b3, b4, b5⟩ := mainLoop_ok h hu hp (D := D) (o := os) (mem := mem) hc
    (nt := ds.r) le_rfl (fun i hi => (hos i hi (hR i (by omega))).1) (by
      intro i hi name hm
      rw [hdrop] at hm
      obtain ⟨v, hv⟩ := hq i hi name hm
      rw [(hos i hi (hR i (by omega))).2.2 _ hv]
      exact hlen i hi _ hv)
  rw [h0] at b1
  refine ⟨dpy, s, a1, b1, b2 ▸ hR _ le_rfl, ?_⟩
  refine sameFile_of_rows h (a2.trans b3.symm) (a3.trans b4.symm) (a3.trans hc) ?_
  intro name hm i hi
  rw [a2] at hi
  rw [a4 name hm i, if_pos hi, b5 name hm i, htr (i + 1) hi, hdrop]
  by_cases hd : name ∈ rest
  · rw [if_pos ⟨hi, hd⟩]
    obtain ⟨v, hv⟩ := hq i hi name hd
    cases hval : valueOf (m.vecs (st (i + 1))) name with
    | none => exact absurd (List.mem_map_of_mem hv) (valueOf_none hval)
    | some x =>
      exact ((hos i hi (hR i (by omega))).2.2 _ (valueOf_mem hval)).symm
  · rw [if_neg fun hh => hd hh.2]
    cases hval : valueOf (m.vecs (st (i + 1))) name with
    | none => rfl
    | some x =>
      exact absurd (by rw [← hnames i hi]; exact List.mem_map_of_mem (valueOf_mem hval)) hd

end Cpp
end Pyphs
