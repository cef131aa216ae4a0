/-
Property C02: moving components does not change the system.
-/
import Verif.Core.MoveLemmas
import Mathlib.Algebra.Field.Rat
import Mathlib.Tactic.NormNum

namespace Pyphs
namespace Core
open Finset

variable {K : Type} [Field K] [DecidableEq K]

theorem MovedBy.idxOf {i f : ℕ} {l l' : List String} (h : MovedBy i f l l')
    (hi : i < l.length) (hf : f < l.length) (nd : l.Nodup) {p : String} (hp : p ∈ l) :
    mrIdx i f (l'.idxOf p) = l.idxOf p := by
  have hperm := h.perm hi hf
  have hp' : p ∈ l' := hperm.mem_iff.2 hp
  have h1 := List.idxOf_lt_length_of_mem hp'
  have h2 : l'[l'.idxOf p]? = some p := by
    rw [List.getElem?_eq_getElem h1]; simp
  have h3 : l[mrIdx i f (l'.idxOf p)]? = some p := by
    rw [← h.2 _ (by rw [← h.1]; exact h1), h2]
  obtain ⟨h4, h5⟩ := List.getElem?_eq_some_iff.1 h3
  have := nd.idxOf_getElem _ h4
  rw [h5] at this
  exact this.symm

theorem coef_moved {c c' : Core K} {i f : ℕ} (hl : MovedBy i f c.labels c'.labels)
    (hM : MatMoved c.tot i f c.M c'.M) (hi : i < c.tot) (hf : f < c.tot) (nd : c.labels.Nodup)
    {p q : String} (hp : p ∈ c.labels) (hq : q ∈ c.labels) : c'.coef p q = c.coef p q := by
  have hi' : i < c.labels.length := by rw [labels_length]; exact hi
  have hf' : f < c.labels.length := by rw [labels_length]; exact hf
  have hperm := hl.perm hi' hf'
  have lt : ∀ p ∈ c.labels, c'.labels.idxOf p < c.tot := by
    intro p hp
    rw [← labels_length, ← hl.1]
    exact List.idxOf_lt_length_of_mem (hperm.mem_iff.2 hp)
  unfold coef
  rw [hM.2.2 _ (lt p hp) _ (lt q hq), hl.idxOf hi' hf' nd hp, hl.idxOf hi' hf' nd hq]

/-- What a successful move guarantees. -/
structure MoveOK (c c' : Core K) : Prop where
  same : SameSystem c c'
  wf : WF c'
  dims : c'.x.length = c.x.length ∧ c'.w.length = c.w.length ∧ c'.y.length = c.y.length ∧
    c'.cy.length = c.cy.length ∧ c'.wl = c.wl

/-- **C02** for storages: for in-range positions the move succeeds, the system is the same,
and state `i` is now at position `f` (also in the stored gradient), others in order. -/
theorem C02_move_storage (c : Core K) (hc : WF c) (i f : ℕ) (hi : i < c.x.length)
    (hf : f < c.x.length) :
    ∃ c', c.moveStor i f = some c' ∧ MoveOK c c' ∧ MovedTo i f c.x c'.x ∧
      (∀ d, c.dxH = some d → ∃ d', c'.dxH = some d' ∧ MovedTo i f d d') ∧
      c'.w = c.w ∧ c'.y = c.y ∧ c'.cy = c.cy := by
  obtain ⟨new, x', h1, h2, h3⟩ := reorder_myrange (l := c.x) rfl hi hf
  have hd : ∃ dx', (match c.dxH with
      | none => some none
      | some d => (reorder new d).map some) = some dx' ∧
      (∀ d, c.dxH = some d → ∃ d', dx' = some d' ∧ MovedBy i f d d') ∧
      (c.dxH = none → dx' = none) := by
    cases hdx : c.dxH with
    | none => exact ⟨none, rfl, by simp, fun _ => rfl⟩
    | some d =>
      have hl := hc.dxH d hdx
      obtain ⟨new', d', k1, k2, k3⟩ := reorder_myrange (l := d) hl hi hf
      rw [h1] at k1
      obtain rfl := Option.some.inj k1
      exact ⟨some d', by simp [k2], by simp [k3], by simp⟩
  obtain ⟨dx', hd1, hd2, hd3⟩ := hd
  have htot : c.x.length ≤ c.tot := by unfold tot; omega
  obtain ⟨M', h4, h5⟩ := moveCoreM_spec (c := { c with x := x', dxH := dx' }) (i := i) (f := f)
    hc.Mr hc.Mc (lt_of_lt_of_le hi htot) (lt_of_lt_of_le hf htot)
  have hrun : c.moveStor i f = some { c with x := x', dxH := dx', M := M' } := by
    unfold moveStor
    simp only [h1, h2, Option.bind_eq_bind, Option.bind_some]
    exact (congrArg (fun o => Option.bind o _) hd1).trans h4
  have hlab : MovedBy i f c.labels ({ c with x := x', dxH := dx', M := M' } : Core K).labels := by
    have := h3.append (A := []) (C := c.w ++ c.y ++ c.cy) hi hf
    simpa [labels] using this
  have hi' : i < c.labels.length := by rw [labels_length]; omega
  have hf' : f < c.labels.length := by rw [labels_length]; omega
  refine ⟨_, hrun, ⟨⟨h3.perm hi hf, .refl _, .refl _, .refl _, rfl, rfl, ?_, ?_⟩, ?_, ?_⟩,
    h3.position hi hf, ?_, rfl, rfl, rfl⟩
  · exact fun p hp q hq => coef_moved hlab h5 (lt_of_lt_of_le hi htot) (lt_of_lt_of_le hf htot)
      hc.nodup hp hq
  · exact structEq_moved (labels_length c) hlab h5 (lt_of_lt_of_le hi htot)
      (lt_of_lt_of_le hf htot)
  · have hx := h3.1
    refine ⟨?_, ?_, hc.uy, hc.cucy, hc.wz, ?_, by simpa [hx] using hc.xl, hc.wl,
      (hlab.perm hi' hf').nodup_iff.2 hc.nodup⟩
    · simpa [tot, hx] using h5.1
    · simpa [tot, hx] using h5.2.1
    · intro d hdd
      cases hdx : c.dxH with
      | none => rw [hd3 hdx] at hdd; simp at hdd
      | some d0 =>
        obtain ⟨d', e1, e2⟩ := hd2 d0 hdx
        rw [e1] at hdd
        obtain rfl := Option.some.inj hdd
        show d'.length = x'.length
        rw [e2.1, hx, hc.dxH d0 hdx]
  · exact ⟨h3.1, rfl, rfl, rfl, rfl⟩
  · intro d hdx
    obtain ⟨d', e1, e2⟩ := hd2 d hdx
    exact ⟨d', e1, e2.position (by rw [hc.dxH d hdx]; exact hi) (by rw [hc.dxH d hdx]; exact hf)⟩

/-- **C02** for dissipations: same system, each law stays with its variable, the component is
at the requested position. -/
theorem C02_move_dissipative (c : Core K) (hc : WF c)
    (hZ : c.Zl.IsZero ∨ (c.Zl.r = c.wl ∧ c.Zl.c = c.wl)) (i f : ℕ)
    (hi : i < c.w.length) (hf : f < c.w.length) :
    ∃ c', c.moveDiss i f = some c' ∧ MoveOK c c' ∧ MovedTo i f c.w c'.w ∧ MovedTo i f c.z c'.z ∧
      c'.x = c.x ∧ c'.y = c.y ∧ c'.cy = c.cy := by
  obtain ⟨new, w', h1, h2, h3⟩ := reorder_myrange (l := c.w) rfl hi hf
  obtain ⟨new', z', k1, k2, k3⟩ := reorder_myrange (l := c.z) hc.wz.symm hi hf
  rw [h1] at k1
  obtain rfl := Option.some.inj k1
  have hi2 : c.x.length + i < c.tot := by unfold tot; omega
  have hf2 : c.x.length + f < c.tot := by unfold tot; omega
  obtain ⟨M', h4, h5⟩ := moveCoreM_spec (c := { c with w := w', z := z' })
    (i := c.x.length + i) (f := c.x.length + f) hc.Mr hc.Mc hi2 hf2
  have hrun : ∃ Zl, c.moveDiss i f = some { c with w := w', z := z', M := M', Zl := Zl } := by
    unfold moveDiss
    simp only [h1, h2, k2, Option.bind_eq_bind, Option.bind_some, h4]
    split_ifs with hz1 hz2
    · rcases hZ with hZ | ⟨hr, hcc⟩
      · exact absurd hZ hz1.1
      · obtain ⟨Zl', e1, _⟩ := moveSquare_spec hr hcc hz1.2.1 hz1.2.2
        exact ⟨Zl', by rw [e1]; rfl⟩
    · exact ⟨c.Zl, rfl⟩
    · exact ⟨_, rfl⟩
  obtain ⟨Zl, hrun⟩ := hrun
  have hlab : MovedBy (c.x.length + i) (c.x.length + f) c.labels
      ({ c with w := w', z := z', M := M', Zl := Zl } : Core K).labels := by
    have := h3.append (A := c.x) (C := c.y ++ c.cy) hi hf
    simpa [labels] using this
  have hi' : c.x.length + i < c.labels.length := by rw [labels_length]; omega
  have hf' : c.x.length + f < c.labels.length := by rw [labels_length]; omega
  refine ⟨_, hrun, ⟨⟨.refl _, ?_, .refl _, .refl _, rfl, rfl, ?_, ?_⟩, ?_, ?_⟩,
    h3.position hi hf, k3.position (hc.wz ▸ hi) (hc.wz ▸ hf), rfl, rfl, rfl⟩
  · exact (h3.zip k3 hc.wz hi hf).perm (by simp [← hc.wz, hi]) (by simp [← hc.wz, hf])
  · exact fun p hp q hq => coef_moved hlab h5 hi2 hf2 hc.nodup hp hq
  · exact structEq_moved (labels_length c) hlab h5 hi2 hf2
  · have hx := h3.1
    refine ⟨?_, ?_, hc.uy, hc.cucy, ?_, hc.dxH, hc.xl, by simpa [hx] using hc.wl,
      (hlab.perm hi' hf').nodup_iff.2 hc.nodup⟩
    · simpa [tot, hx] using h5.1
    · simpa [tot, hx] using h5.2.1
    · show w'.length = z'.length
      rw [hx, k3.1, hc.wz]
  · exact ⟨rfl, h3.1, rfl, rfl, rfl⟩

/-- **C02** for ports. -/
theorem C02_move_port (c : Core K) (hc : WF c) (i f : ℕ) (hi : i < c.y.length)
    (hf : f < c.y.length) :
    ∃ c', c.movePort i f = some c' ∧ MoveOK c c' ∧ MovedTo i f c.y c'.y ∧ MovedTo i f c.u c'.u ∧
      c'.x = c.x ∧ c'.w = c.w ∧ c'.cy = c.cy := by
  obtain ⟨new, w', h1, h2, h3⟩ := reorder_myrange (l := c.y) rfl hi hf
  obtain ⟨new', z', k1, k2, k3⟩ := reorder_myrange (l := c.u) hc.uy hi hf
  rw [h1] at k1
  obtain rfl := Option.some.inj k1
  have hi2 : c.x.length + c.w.length + i < c.tot := by unfold tot; omega
  have hf2 : c.x.length + c.w.length + f < c.tot := by unfold tot; omega
  obtain ⟨M', h4, h5⟩ := moveCoreM_spec (c := { c with u := z', y := w' })
    (i := c.x.length + c.w.length + i) (f := c.x.length + c.w.length + f) hc.Mr hc.Mc hi2 hf2
  have hrun : c.movePort i f = some { c with u := z', y := w', M := M' } := by
    unfold movePort
    simp only [h1, h2, k2, Option.bind_eq_bind, Option.bind_some, h4]
  have hlab : MovedBy (c.x.length + c.w.length + i) (c.x.length + c.w.length + f) c.labels
      ({ c with u := z', y := w', M := M' } : Core K).labels := by
    have := h3.append (A := c.x ++ c.w) (C := c.cy) hi hf
    simpa [labels] using this
  have hi' : c.x.length + c.w.length + i < c.labels.length := by rw [labels_length]; omega
  have hf' : c.x.length + c.w.length + f < c.labels.length := by rw [labels_length]; omega
  refine ⟨_, hrun, ⟨⟨.refl _, .refl _, ?_, .refl _, rfl, rfl, ?_, ?_⟩, ?_, ?_⟩,
    h3.position hi hf, k3.position (hc.uy ▸ hi) (hc.uy ▸ hf), rfl, rfl, rfl⟩
  · exact (h3.zip k3 hc.uy.symm hi hf).perm (by simp [hc.uy, hi]) (by simp [hc.uy, hf])
  · exact fun p hp q hq => coef_moved hlab h5 hi2 hf2 hc.nodup hp hq
  · exact structEq_moved (labels_length c) hlab h5 hi2 hf2
  · have hx := h3.1
    refine ⟨?_, ?_, ?_, hc.cucy, hc.wz, hc.dxH, hc.xl, hc.wl,
      (hlab.perm hi' hf').nodup_iff.2 hc.nodup⟩
    · simpa [tot, hx] using h5.1
    · simpa [tot, hx] using h5.2.1
    · show z'.length = w'.length
      rw [hx, k3.1, hc.uy]
  · exact ⟨rfl, rfl, h3.1, rfl, rfl⟩

/-- **C02** for connectors. -/
theorem C02_move_connector (c : Core K) (hc : WF c) (i f : ℕ) (hi : i < c.cy.length)
    (hf : f < c.cy.length) :
    ∃ c', c.moveConn i f = some c' ∧ MoveOK c c' ∧ MovedTo i f c.cy c'.cy ∧
      MovedTo i f c.cu c'.cu ∧ c'.x = c.x ∧ c'.w = c.w ∧ c'.y = c.y ∧ c'.u = c.u ∧
      c'.z = c.z := by
  obtain ⟨new, w', h1, h2, h3⟩ := reorder_myrange (l := c.cy) rfl hi hf
  obtain ⟨new', z', k1, k2, k3⟩ := reorder_myrange (l := c.cu) hc.cucy hi hf
  rw [h1] at k1
  obtain rfl := Option.some.inj k1
  have hi2 : c.x.length + c.w.length + c.y.length + i < c.tot := by unfold tot; omega
  have hf2 : c.x.length + c.w.length + c.y.length + f < c.tot := by unfold tot; omega
  obtain ⟨M', h4, h5⟩ := moveCoreM_spec (c := { c with cu := z', cy := w' })
    (i := c.x.length + c.w.length + c.y.length + i)
    (f := c.x.length + c.w.length + c.y.length + f) hc.Mr hc.Mc hi2 hf2
  have hrun : c.moveConn i f = some { c with cu := z', cy := w', M := M' } := by
    unfold moveConn
    simp only [h1, h2, k2, Option.bind_eq_bind, Option.bind_some, h4]
  have hlab : MovedBy (c.x.length + c.w.length + c.y.length + i)
      (c.x.length + c.w.length + c.y.length + f) c.labels
      ({ c with cu := z', cy := w', M := M' } : Core K).labels := by
    have := h3.append (A := c.x ++ c.w ++ c.y) (C := []) hi hf
    simpa [labels, Nat.add_assoc] using this
  have hi' : c.x.length + c.w.length + c.y.length + i < c.labels.length := by
    rw [labels_length]; omega
  have hf' : c.x.length + c.w.length + c.y.length + f < c.labels.length := by
    rw [labels_length]; omega
  refine ⟨_, hrun, ⟨⟨.refl _, .refl _, .refl _, ?_, rfl, rfl, ?_, ?_⟩, ?_, ?_⟩,
    h3.position hi hf, k3.position (hc.cucy ▸ hi) (hc.cucy ▸ hf), rfl, rfl, rfl, rfl, rfl⟩
  · exact (h3.zip k3 hc.cucy.symm hi hf).perm (by simp [hc.cucy, hi]) (by simp [hc.cucy, hf])
  · exact fun p hp q hq => coef_moved hlab h5 hi2 hf2 hc.nodup hp hq
  · exact structEq_moved (labels_length c) hlab h5 hi2 hf2
  · have hx := h3.1
    refine ⟨?_, ?_, hc.uy, ?_, hc.wz, hc.dxH, hc.xl, hc.wl,
      (hlab.perm hi' hf').nodup_iff.2 hc.nodup⟩
    · simpa [tot, hx] using h5.1
    · simpa [tot, hx] using h5.2.1
    · show z'.length = w'.length
      rw [hx, k3.1, hc.cucy]
  · exact ⟨rfl, rfl, rfl, h3.1, rfl⟩

/-! ### Histories of moves -/

theorem SameSystem.refl (c : Core K) : SameSystem c c :=
  ⟨.refl _, .refl _, .refl _, .refl _, rfl, rfl, fun _ _ _ _ => rfl, fun _ _ => Iff.rfl⟩

theorem zip_fst_perm {α β : Type} {l l' : List α} {m m' : List β} (h1 : l.length = m.length)
    (h2 : l'.length = m'.length) (h : (l'.zip m').Perm (l.zip m)) : l'.Perm l := by
  have := h.map Prod.fst
  rwa [List.map_fst_zip (by omega), List.map_fst_zip (by omega)] at this

theorem SameSystem.labels_perm {c c' : Core K} (hc : WF c) (hc' : WF c') (h : SameSystem c c') :
    c'.labels.Perm c.labels := by
  unfold labels
  exact ((h.x.append (zip_fst_perm hc.wz hc'.wz h.laws)).append
    (zip_fst_perm hc.uy.symm hc'.uy.symm h.ports)).append
    (zip_fst_perm hc.cucy.symm hc'.cucy.symm h.conns)

theorem SameSystem.trans {c c' c'' : Core K} (hc : WF c) (hc' : WF c')
    (h : SameSystem c c') (h' : SameSystem c' c'') : SameSystem c c'' := by
  have hp := h.labels_perm hc hc'
  exact ⟨h'.x.trans h.x, h'.laws.trans h.laws, h'.ports.trans h.ports, h'.conns.trans h.conns,
    h'.H.trans h.H, h'.connectors.trans h.connectors,
    fun p hp1 q hq1 => (h'.coef p (hp.mem_iff.2 hp1) q (hp.mem_iff.2 hq1)).trans
      (h.coef p hp1 q hq1),
    fun β α => (h'.eqs β α).trans (h.eqs β α)⟩

/-- One call of a move function. -/
inductive Move
  | stor (i f : ℕ) | diss (i f : ℕ) | port (i f : ℕ) | conn (i f : ℕ)

/-- Effect of a call. -/
def Move.run : Move → Core K → Option (Core K)
  | .stor i f, c => c.moveStor i f
  | .diss i f, c => c.moveDiss i f
  | .port i f, c => c.movePort i f
  | .conn i f, c => c.moveConn i f

/-- The positions given to the call exist in the core. -/
def Move.InRange : Move → Core K → Prop
  | .stor i f, c => i < c.x.length ∧ f < c.x.length
  | .diss i f, c => i < c.w.length ∧ f < c.w.length
  | .port i f, c => i < c.y.length ∧ f < c.y.length
  | .conn i f, c => i < c.cy.length ∧ f < c.cy.length

/-- A sequence of calls. -/
def runMoves : List Move → Core K → Option (Core K)
  | [], c => some c
  | m :: ms, c => (m.run c).bind (runMoves ms)

/-- Invariant on the linear dissipation matrix kept by the moves. -/
def ZlOK (c : Core K) : Prop := c.Zl.IsZero ∨ (c.Zl.r = c.wl ∧ c.Zl.c = c.wl)

theorem moveCoreM_fields {c c' : Core K} {i f : ℕ} (h : c.moveCoreM i f = some c') :
    c'.Zl = c.Zl ∧ c'.wl = c.wl := by
  unfold moveCoreM at h
  split_ifs at h with hz
  · simp only [Option.some.injEq] at h; subst h; exact ⟨rfl, rfl⟩
  · cases hm : moveSquare c.M i f with
    | none => simp [hm] at h
    | some M => simp [hm] at h; subst h; exact ⟨rfl, rfl⟩

theorem ZlOK_run {c c' : Core K} {m : Move} (hZ : ZlOK c)
    (h : m.run c = some c') : ZlOK c' := by
  have key : ∀ {d d' : Core K} {i f : ℕ}, d.moveCoreM i f = some d' → d.Zl = c.Zl → d.wl = c.wl →
      ZlOK d' := by
    intro d d' i f h1 h2 h3
    obtain ⟨e1, e2⟩ := moveCoreM_fields h1
    unfold ZlOK
    rw [e1, e2, h2, h3]; exact hZ
  cases m with
  | stor i f =>
    simp only [Move.run, moveStor, Option.bind_eq_bind, Option.bind_eq_some_iff] at h
    obtain ⟨_, _, _, _, _, _, h⟩ := h
    exact key h rfl rfl
  | port i f =>
    simp only [Move.run, movePort, Option.bind_eq_bind, Option.bind_eq_some_iff] at h
    obtain ⟨_, _, _, _, _, _, h⟩ := h
    exact key h rfl rfl
  | conn i f =>
    simp only [Move.run, moveConn, Option.bind_eq_bind, Option.bind_eq_some_iff] at h
    obtain ⟨_, _, _, _, _, _, h⟩ := h
    exact key h rfl rfl
  | diss i f =>
    simp only [Move.run, moveDiss, Option.bind_eq_bind, Option.bind_eq_some_iff] at h
    obtain ⟨_, _, _, _, _, _, d', hd, h⟩ := h
    obtain ⟨e1, e2⟩ := moveCoreM_fields hd
    split_ifs at h with hz1 hz2
    · simp only [Option.bind_eq_some_iff] at h
      obtain ⟨Zl, hZl, h⟩ := h
      simp only [Option.pure_def, Option.some.injEq] at h
      subst h
      rcases hZ with hZ | ⟨hr, hcc⟩
      · exact absurd hZ hz1.1
      · right
        obtain ⟨Zl', e3, e4⟩ := moveSquare_spec hr hcc hz1.2.1 hz1.2.2
        rw [e3] at hZl
        obtain rfl := Option.some.inj hZl
        exact ⟨by simpa [e2] using e4.1, by simpa [e2] using e4.2.1⟩
    · simp only [Option.pure_def, Option.some.injEq] at h
      subst h
      exact key hd rfl rfl
    · simp only [Option.pure_def, Option.some.injEq] at h
      subst h
      left
      intro a ha
      simp [Mat.slice] at ha

/-- **C02**: one in-range call of any of the four functions. -/
theorem C02_move (c : Core K) (hc : WF c) (hZ : ZlOK c) (m : Move) (hm : m.InRange c) :
    ∃ c', m.run c = some c' ∧ MoveOK c c' := by
  cases m with
  | stor i f => obtain ⟨c', h1, h2, _⟩ := C02_move_storage c hc i f hm.1 hm.2; exact ⟨c', h1, h2⟩
  | diss i f =>
    obtain ⟨c', h1, h2, _⟩ := C02_move_dissipative c hc hZ i f hm.1 hm.2; exact ⟨c', h1, h2⟩
  | port i f => obtain ⟨c', h1, h2, _⟩ := C02_move_port c hc i f hm.1 hm.2; exact ⟨c', h1, h2⟩
  | conn i f =>
    obtain ⟨c', h1, h2, _⟩ := C02_move_connector c hc i f hm.1 hm.2; exact ⟨c', h1, h2⟩

theorem Move.InRange.congr {c c' : Core K} (h : c'.x.length = c.x.length ∧
    c'.w.length = c.w.length ∧ c'.y.length = c.y.length ∧ c'.cy.length = c.cy.length ∧
    c'.wl = c.wl) (m : Move) (hm : m.InRange c) : m.InRange c' := by
  obtain ⟨h1, h2, h3, h4, _⟩ := h
  cases m <;> simp only [Move.InRange] at * <;> omega

/-- **C02**, any history: every sequence of in-range moves succeeds and leaves the system
unchanged. -/
theorem C02_moves_history (ms : List Move) : ∀ (c : Core K), WF c → ZlOK c →
    (∀ m ∈ ms, m.InRange c) → ∃ c', runMoves ms c = some c' ∧ MoveOK c c' := by
  induction ms with
  | nil => intro c hc _ _; exact ⟨c, rfl, SameSystem.refl c, hc, rfl, rfl, rfl, rfl, rfl⟩
  | cons m ms ih =>
    intro c hc hZ hm
    obtain ⟨c1, h1, h2⟩ := C02_move c hc hZ m (hm m (by simp))
    obtain ⟨c2, h3, h4⟩ := ih c1 h2.wf (ZlOK_run hZ h1)
      (fun m' hm' => (hm m' (List.mem_cons_of_mem _ hm')).congr h2.dims)
    refine ⟨c2, by simp [runMoves, h1, h3], h2.same.trans hc h2.wf h4.same, h4.wf, ?_⟩
    obtain ⟨a1, a2, a3, a4, a5⟩ := h2.dims
    obtain ⟨b1, b2, b3, b4, b5⟩ := h4.dims
    exact ⟨b1.trans a1, b2.trans a2, b3.trans a3, b4.trans a4, b5.trans a5⟩

/-- A concrete non-trivial core for the examples: two states, two dissipations, one port. -/
def exCore : Core ℚ :=
  { (Core.empty : Core ℚ) with
    x := ["x1", "x2"], w := ["w1", "w2"], u := ["u1"], y := ["y1"],
    z := [fun e => e "w1", fun e => 2 * e "w2"]
    M := ⟨5, 5, fun i j => (i : ℚ) * 5 + j⟩ }

theorem exCore_wf : WF exCore :=
  ⟨rfl, rfl, rfl, rfl, rfl, by simp [exCore, Core.empty], by simp [exCore, Core.empty],
    by simp [exCore, Core.empty], by decide⟩

example : ∀ m ∈ [Move.stor 0 1, Move.diss 1 0, Move.port 0 0, Move.stor 1 0], m.InRange exCore := by
  simp [Move.InRange, exCore]

example : ZlOK exCore := Or.inl (by intro i hi; simp [exCore, Core.empty, Mat.zeros] at hi)

/-- **C02** is limited to in-range targets: `move_dissipative(i, dims.w())`, with a target one
past the end (as `reduce_z` calls it, R.py:52), leaves the list of dissipations as it is but
exchanges the rows and columns of `M` with the first port. -/
theorem C02_out_of_range_counterexample :
    ∃ (c c' : Core ℚ), WF c ∧ c.moveDiss 1 2 = some c' ∧ c'.labels = c.labels ∧
      c'.coef "w2" "x1" ≠ c.coef "w2" "x1" := by
  refine ⟨exCore, (exCore.moveDiss 1 2).get (by decide +kernel), exCore_wf, (Option.some_get _).symm,
    by decide +kernel, by decide +kernel⟩

end Core
end Pyphs
