/-
Property C63: the equations solved at each step of a simulation are those of the circuit.
-/
import Verif.Circuit.Method
import Verif.Circuit.Build

namespace Pyphs
namespace Circuit
open Scheme Core Graph

/-- The value of the component of the discrete gradient for a state. -/
noncomputable def gradOf (m : Meth) (l : String) (e : Env ℝ) : ℝ :=
  (m.dxH.getD (m.g.x.idxOf l) fun _ => 0) e

/-- The value of the output of a port. -/
noncomputable def outOf (m : Meth) (l : String) (e : Env ℝ) : ℝ :=
  (m.out e).getD (m.y.idxOf l) 0

/-- The equations of a circuit at one step of a simulation, for values `e` of the symbols: some
efforts `E` and flows `F` of the edges satisfy the laws of Kirchhoff and of the connectors, and
* those of a storage are the variation of its state and its discrete gradient;
* those of a dissipative edge are its variable and its law;
* those of a port are its output and its input. -/
structure StepEqs (law : String → Env ℝ → ℝ) (nodes : List String) (edges : List (Edge ℝ))
    (c : Core ℝ) (m : Meth) (ec : String → Prop) (e : Env ℝ) (E F : String → ℝ) : Prop where
  net : Network nodes edges ec E F
  stor : ∀ d ∈ edges, d.type = .storage → Side (ec d.label) (E d.label) (F d.label)
    (m.fs * e (dn d.label)) (gradOf m d.label e)
  diss : ∀ d ∈ edges, d.type = .dissipative →
    (ec d.label → E d.label = e d.label ∧ F d.label = law d.ze e) ∧
    (¬ ec d.label → F d.label = e d.label ∧ E d.label = law d.zf e)
  port : ∀ d ∈ edges, d.type = .port → Side (ec d.label) (E d.label) (F d.label)
    (outOf m d.label e) (e (inputOf c d.label))

/-- The same equations without the outputs: what a circuit imposes when its inputs are given. -/
structure InputEqs (law : String → Env ℝ → ℝ) (nodes : List String) (edges : List (Edge ℝ))
    (c : Core ℝ) (m : Meth) (ec : String → Prop) (e : Env ℝ) (E F : String → ℝ) : Prop where
  net : Network nodes edges ec E F
  stor : ∀ d ∈ edges, d.type = .storage → Side (ec d.label) (E d.label) (F d.label)
    (m.fs * e (dn d.label)) (gradOf m d.label e)
  diss : ∀ d ∈ edges, d.type = .dissipative →
    (ec d.label → E d.label = e d.label ∧ F d.label = law d.ze e) ∧
    (¬ ec d.label → F d.label = e d.label ∧ E d.label = law d.zf e)
  port : ∀ d ∈ edges, d.type = .port →
    (ec d.label → F d.label = e (inputOf c d.label)) ∧
    (¬ ec d.label → E d.label = e (inputOf c d.label))

/-- The laws of the dissipative edges do not depend on the states. -/
def StaticLaws (law : String → Env ℝ → ℝ) (edges : List (Edge ℝ)) : Prop :=
  ∀ d ∈ edges, d.type = .dissipative →
    Static ((ofType .storage edges).map (·.label)) (law d.ze) ∧
    Static ((ofType .storage edges).map (·.label)) (law d.zf)

theorem zip_lookup {α : Type} {l : List String} {v : List α} (hn : l.Nodup) {a : String} {b dflt : α}
    (h : (a, b) ∈ l.zip v) : v.getD (l.idxOf a) dflt = b := by
  obtain ⟨i, hi, e⟩ := List.getElem_of_mem h
  rw [List.length_zip] at hi
  rw [List.getElem_zip, Prod.mk.injEq] at e
  obtain ⟨rfl, rfl⟩ := e
  rw [hn.idxOf_getElem i (by omega), List.getD_eq_getElem?_getD, List.getElem?_eq_getElem (by omega)]
  rfl

theorem getD_idxOf {l : List String} {a : String} (h : a ∈ l) : l.getD (l.idxOf a) "" = a := by
  rw [List.getD_eq_getElem?_getD, List.getElem?_idxOf h]; rfl

/-- Position of a value in the vector of the right side. -/
theorem aV_at {m : Meth} (h : MethWF m) (e : Env ℝ) {i : ℕ}
    (hi : i < (m.g.x ++ m.w ++ m.y).length) :
    (m.aV e).getD i 0 =
      let l := (m.g.x ++ m.w ++ m.y).getD i ""
      if l ∈ m.g.x then gradOf m l e
      else if l ∈ m.w then (m.z.getD (m.w.idxOf l) fun _ => 0) e
      else e (m.u.getD (m.y.idxOf l) "") := by
  have hnd := h.nodup
  obtain ⟨hn1, hny, hd1⟩ := List.nodup_append.1 hnd
  obtain ⟨hnx, hnw, hd2⟩ := List.nodup_append.1 hn1
  have hg : (evs m.dxH e).length = m.g.x.length := by simp [evs, h.gx]
  have hz : (evs m.z e).length = m.w.length := by simp [evs, h.wz]
  simp only [List.length_append] at hi
  dsimp only
  unfold Meth.aV
  by_cases h1 : i < m.g.x.length
  · have e1 : (m.g.x ++ m.w ++ m.y).getD i "" = m.g.x.getD i "" := by
      rw [getD_append_left' _ _ (by simp; omega), getD_append_left' _ _ h1]
    rw [e1, if_pos (getD_mem' _ h1)]
    unfold gradOf
    rw [idxOf_getD hnx h1, List.getD_eq_getElem?_getD, List.getElem?_append_left (by simp; omega),
      List.getElem?_append_left (by omega), ← List.getD_eq_getElem?_getD, evs_getD]
    rfl
  · by_cases h2 : i < m.g.x.length + m.w.length
    · have h3 : i - m.g.x.length < m.w.length := by omega
      have e1 : (m.g.x ++ m.w ++ m.y).getD i "" = m.w.getD (i - m.g.x.length) "" := by
        rw [getD_append_left' _ _ (by simp; omega), getD_append_right' _ _ (by omega)]
      have hm := getD_mem' _ h3
      rw [e1, if_neg (fun hh => hd2 _ hh _ hm rfl), if_pos hm, idxOf_getD hnw h3,
        List.getD_eq_getElem?_getD, List.getElem?_append_left (by simp; omega),
        List.getElem?_append_right (by omega), ← List.getD_eq_getElem?_getD, evs_getD, hg]
      rfl
    · have h3 : i - (m.g.x ++ m.w).length < m.y.length := by simp only [List.length_append]; omega
      have e1 : (m.g.x ++ m.w ++ m.y).getD i "" = m.y.getD (i - (m.g.x ++ m.w).length) "" := by
        rw [getD_append_right' _ _ (by simp; omega)]
      have hm := getD_mem' _ h3
      have hne : m.y.getD (i - (m.g.x ++ m.w).length) "" ∉ m.g.x ++ m.w :=
        fun hh => hd1 _ hh _ hm rfl
      rw [List.mem_append, not_or] at hne
      rw [e1, if_neg hne.1, if_neg hne.2, idxOf_getD hny h3,
        List.getD_eq_getElem?_getD, List.getElem?_append_right (by simp; omega),
        ← List.getD_eq_getElem?_getD]
      have hl : (evs m.dxH e ++ evs m.z e).length = (m.g.x ++ m.w).length := by simp; omega
      rw [hl, map_getD _ _ (by rw [h.uy]; exact h3)]
      rfl

theorem zip_fst_perm {α β : Type} {l : List String} {v : List α} {es : List β} {f : β → String × α}
    (hl : l.length = v.length) (h : (l.zip v).Perm (es.map f)) : l.Perm (es.map fun d => (f d).1) := by
  have := h.map Prod.fst
  rw [List.map_fst_zip hl.le, List.map_map] at this
  exact this

/-- The power of the structure equations of a skew-symmetric matrix is zero. -/
theorem struct_power {labels : List String} {M : Mat ℝ} (hM : M.IsSkew) (hr : M.r = labels.length)
    {β α : Env ℝ} (h : StructEq labels M β α) : (labels.map fun l => β l * α l).sum = 0 := by
  have hq := (Mat.isSkew_iff_quad two_ne_zero M hM.1).1 hM fun i => α (labels.getD i "")
  rw [← hq]
  unfold Mat.quad Mat.dot
  rw [hr]
  have : ∀ (ls : List String) (f : String → ℝ),
      (ls.map f).sum = ∑ i ∈ Finset.range ls.length, f (ls.getD i "") := by
    intro ls f
    induction ls with
    | nil => simp
    | cons a ls ih => rw [List.length_cons, Finset.sum_range_succ']; simp [ih, add_comm]
  rw [this]
  refine Finset.sum_congr rfl fun i hi => ?_
  rw [h i (Finset.mem_range.1 hi)]
  unfold Mat.mv
  rw [← hM.1, hr]
  ring

/-- A reordered system keeps a skew-symmetric structure. -/
theorem same_skew {c c' : Core ℝ} (hw : WF c) (hw' : WF c') (h : SameSystem c c')
    (hl : ∀ l, l ∈ c'.labels → l ∈ c.labels) (hs : c.M.IsSkew) : c'.M.IsSkew := by
  have tl : ∀ d : Core ℝ, d.tot = d.labels.length := fun d => by simp [tot, labels, Nat.add_assoc]
  refine ⟨hw'.Mr.trans hw'.Mc.symm, fun i hi j hj => ?_⟩
  rw [hw'.Mr, tl] at hi hj
  have key : ∀ i < c'.labels.length, ∀ j < c'.labels.length,
      c'.M.e i j = c.coef (c'.labels.getD i "") (c'.labels.getD j "") := by
    intro i hi j hj
    rw [← h.coef _ (hl _ (getD_mem' _ hi)) _ (hl _ (getD_mem' _ hj))]
    unfold coef
    rw [idxOf_getD hw'.nodup hi, idxOf_getD hw'.nodup hj]
  rw [key i hi j hj, key j hj i hi]
  have lt : ∀ l ∈ c'.labels, c.labels.idxOf l < c.M.r := fun l h => by
    rw [hw.Mr, tl]; exact List.idxOf_lt_length_iff.2 (hl l h)
  exact hs.2 _ (lt _ (getD_mem' _ hi)) _ (lt _ (getD_mem' _ hj))

/-- The power of the edges of a type. -/
noncomputable def power (t : EType) (edges : List (Edge ℝ)) (E F : String → ℝ) : ℝ :=
  ((ofType t edges).map fun d => E d.label * F d.label).sum

theorem gdot_gradOf {m : Meth} (h : MethWF m) (e : Env ℝ) :
    gdot m.dxH m.g.x e = (m.g.x.map fun x => gradOf m x e * e (dn x)).sum := by
  have hn := (List.nodup_append.1 (List.nodup_append.1 h.nodup).1).1
  rw [gdot_sum _ _ _ h.gx]
  have : ∀ (ls : List String) (f : String → ℝ),
      (ls.map f).sum = ∑ i ∈ Finset.range ls.length, f (ls.getD i "") := by
    intro ls f
    induction ls with
    | nil => simp
    | cons a ls ih => rw [List.length_cons, Finset.sum_range_succ']; simp [ih, add_comm]
  rw [this]
  refine Finset.sum_congr rfl fun i hi => ?_
  unfold gradOf
  rw [idxOf_getD hn (Finset.mem_range.1 hi)]
  rfl

theorem ready_of {law : String → Env ℝ → ℝ} {fuel : ℕ} {nodes : List String}
    {edges : List (Edge ℝ)} {c c2 : Core ℝ} (h : CircuitOK nodes edges c)
    (hstat : StaticLaws law edges) (hc : toCore law fuel nodes edges c = some c2) : Ready c2 := by
  classical
  obtain ⟨ec, -, hwf, hcy, -, -, hx, hw, -⟩ := C63_core h hc two_ne_zero
  refine ⟨hwf, fun f hf => ?_, hcy⟩
  obtain ⟨i, hi, rfl⟩ := List.getElem_of_mem hf
  have : (c2.w[i]'(by rw [hwf.wz]; exact hi), c2.z[i]) ∈ c2.w.zip c2.z := by
    rw [List.mem_iff_getElem]
    exact ⟨i, by simp [hwf.wz, hi], by simp⟩
  obtain ⟨d, hd, e⟩ := List.mem_map.1 (hw.mem_iff.1 this)
  rw [Prod.mk.injEq] at e
  rw [← e.2]
  obtain ⟨hd1, hd2⟩ := mem_ofType.1 hd
  split_ifs
  · exact (hstat d hd1 hd2).1.congr hx
  · exact (hstat d hd1 hd2).2.congr hx

/-- The equations of a method built on a core that is the core of the circuit in another order. -/
theorem step_facts_of {law : String → Env ℝ → ℝ} {nodes : List String}
    {edges : List (Edge ℝ)} {c c2 c' : Core ℝ} {ec : String → Prop} [DecidablePred ec] (hwf : WF c2)
    (hcy : c2.cy = []) (hskew : c2.M.IsSkew)
    (hx : c2.x.Perm ((ofType .storage edges).map (·.label)))
    (hw : (c2.w.zip c2.z).Perm ((ofType .dissipative edges).map fun d =>
        (d.label, law (if ec d.label then d.ze else d.zf))))
    (hy : (c2.y.zip c2.u).Perm ((ofType .port edges).map fun d => (d.label, inputOf c d.label)))
    (heq : ∀ β α : Env ℝ, StructEq c2.labels c2.M β α ↔ ∃ E F, Network nodes edges ec E F ∧
        ∀ d ∈ edges, d.type ≠ .connector →
          Side (ec d.label) (E d.label) (F d.label) (β d.label) (α d.label))
    (hsame : SameSystem c2 c') (hwf' : WF c') (hcy' : c'.cy = []) (o : Config) (n : ℕ)
    (hmw : MethWF (asMeth o n c')) :
      (asMeth o n c').g.x.Perm ((ofType .storage edges).map (·.label)) ∧
      (∃ M, M.IsSkew ∧ (∀ e, (asMeth o n c').M e = M) ∧
        (asMeth o n c').w.Perm ((ofType .dissipative edges).map (·.label)) ∧
        ((asMeth o n c').y.zip (asMeth o n c').u).Perm
          ((ofType .port edges).map fun d => (d.label, inputOf c d.label))) ∧
      (∀ e, (asMeth o n c').Solved e ↔ ∃ E F, StepEqs law nodes edges c (asMeth o n c') ec e E F) ∧
      ∀ e,
        (∀ E F, StepEqs law nodes edges c (asMeth o n c') ec e E F →
          (asMeth o n c').fs * gdot (asMeth o n c').dxH (asMeth o n c').g.x e +
            power .dissipative edges E F + power .port edges E F = 0) ∧
        ∀ E F, InputEqs law nodes edges c (asMeth o n c') ec e E F →
          StepEqs law nodes edges c (asMeth o n c') ec e E F := by
  set m := asMeth o n c' with hmdef
  have mx : m.g.x = c'.x := groups_x n
  have hx' : m.g.x.Perm ((ofType .storage edges).map (·.label)) := by
    rw [mx]; exact hsame.x.trans hx
  have hw' := hsame.laws.trans hw
  have hy' := hsame.ports.trans hy
  refine ⟨hx', ⟨c'.M, ?_, fun _ => rfl, zip_fst_perm hwf'.wz hw', hy'⟩, ?_⟩
  · refine same_skew hwf hwf' hsame (fun l hl => ?_) hskew
    simp only [labels, hcy, hcy', List.append_nil, List.mem_append] at hl ⊢
    rcases hl with (hl | hl) | hl
    · exact .inl (.inl (hsame.x.mem_iff.1 hl))
    · refine .inl (.inr ?_)
      have := (hsame.laws.map Prod.fst)
      rw [List.map_fst_zip hwf'.wz.le, List.map_fst_zip hwf.wz.le] at this
      exact this.mem_iff.1 hl
    · refine .inr ?_
      have := (hsame.ports.map Prod.fst)
      rw [List.map_fst_zip hwf'.uy.ge, List.map_fst_zip hwf.uy.ge] at this
      exact this.mem_iff.1 hl
  rw [← forall_and]
  intro e
  obtain ⟨hn1, hny, hd1⟩ := List.nodup_append.1 hmw.nodup
  obtain ⟨hnx, hnw, hd2⟩ := List.nodup_append.1 hn1
  let β : Env ℝ := fun l => if l ∈ m.g.x then m.fs * e (dn l) else if l ∈ m.w then e l
    else outOf m l e
  let α : Env ℝ := fun l => if l ∈ m.g.x then gradOf m l e
      else if l ∈ m.w then (m.z.getD (m.w.idxOf l) fun _ => 0) e
      else e (m.u.getD (m.y.idxOf l) "")
  have hsol : m.Solved e ↔ StructEq (m.g.x ++ m.w ++ m.y) (m.M e) β α := by
    refine solved_iff hmw e β α (fun x hx => by simp [β, hx]) ?_ ?_ ?_
    · intro w hw
      have : w ∉ m.g.x := fun hh => hd2 _ hh _ hw rfl
      simp [β, hw, this]
    · intro k hk
      have hm' := getD_mem' _ hk
      have hne : m.y.getD k "" ∉ m.g.x ++ m.w := fun hh => hd1 _ hh _ hm' rfl
      rw [List.mem_append, not_or] at hne
      simp only [β, if_neg hne.1, if_neg hne.2, outOf]
      rw [idxOf_getD hny hk]
    · intro i hi
      rw [aV_at hmw e hi]
  have hlabels : c'.labels = m.g.x ++ m.w ++ m.y := by
    rw [mx]
    show c'.x ++ c'.w ++ c'.y ++ c'.cy = _
    rw [hcy', List.append_nil]
    rfl
  have heqs := hsame.eqs β α
  rw [hlabels] at heqs
  rw [hsol, show m.M e = c'.M from rfl, heqs]
  -- values by edge
  have vs : ∀ d ∈ edges, d.type = .storage →
      β d.label = m.fs * e (dn d.label) ∧ α d.label = gradOf m d.label e := by
    intro d hd ht
    have : d.label ∈ m.g.x := hx'.mem_iff.2
      (List.mem_map_of_mem (f := fun d : Edge ℝ => d.label) (mem_ofType.2 ⟨hd, ht⟩))
    simp [β, α, this]
  have vd : ∀ d ∈ edges, d.type = .dissipative →
      β d.label = e d.label ∧ α d.label = law (if ec d.label then d.ze else d.zf) e := by
    intro d hd ht
    have hp : (d.label, law (if ec d.label then d.ze else d.zf)) ∈ m.w.zip m.z :=
      hw'.mem_iff.2 (List.mem_map.2 ⟨d, mem_ofType.2 ⟨hd, ht⟩, rfl⟩)
    have h1 : d.label ∈ m.w := (List.of_mem_zip hp).1
    have h2 : d.label ∉ m.g.x := fun hh => hd2 _ hh _ h1 rfl
    simp only [β, α, if_neg h2, if_pos h1, zip_lookup hnw hp, and_self]
  have vp : ∀ d ∈ edges, d.type = .port →
      β d.label = outOf m d.label e ∧ α d.label = e (inputOf c d.label) := by
    intro d hd ht
    have hp : (d.label, inputOf c d.label) ∈ m.y.zip m.u :=
      hy'.mem_iff.2 (List.mem_map.2 ⟨d, mem_ofType.2 ⟨hd, ht⟩, rfl⟩)
    have h1 : d.label ∈ m.y := (List.of_mem_zip hp).1
    have h2 : d.label ∉ m.g.x ++ m.w := fun hh => hd1 _ hh _ h1 rfl
    rw [List.mem_append, not_or] at h2
    simp only [β, α, if_neg h2.1, if_neg h2.2, zip_lookup hny hp, and_self]
  have bwd : ∀ E F, StepEqs law nodes edges c m ec e E F → ∀ d ∈ edges, d.type ≠ .connector →
      Side (ec d.label) (E d.label) (F d.label) (β d.label) (α d.label) := by
    intro E F hq d hd ht
    cases hty : d.type with
    | storage => rw [(vs d hd hty).1, (vs d hd hty).2]; exact hq.stor d hd hty
    | dissipative =>
      rw [(vd d hd hty).1, (vd d hd hty).2]
      refine ⟨fun hh => ?_, fun hh => ?_⟩
      · obtain ⟨a1, a2⟩ := (hq.diss d hd hty).1 hh
        rw [if_pos hh]; exact ⟨a1.symm, a2.symm⟩
      · obtain ⟨a1, a2⟩ := (hq.diss d hd hty).2 hh
        rw [if_neg hh]; exact ⟨a1.symm, a2.symm⟩
    | port => rw [(vp d hd hty).1, (vp d hd hty).2]; exact hq.port d hd hty
    | connector => exact absurd hty ht
  constructor
  · rw [heq]
    constructor
    · rintro ⟨E, F, hnet, hside⟩
      refine ⟨E, F, hnet, ?_, ?_, ?_⟩
      · intro d hd ht
        have := hside d hd (by rw [ht]; decide)
        rw [(vs d hd ht).1, (vs d hd ht).2] at this
        exact this
      · intro d hd ht
        have := hside d hd (by rw [ht]; decide)
        rw [(vd d hd ht).1, (vd d hd ht).2] at this
        refine ⟨fun hh => ?_, fun hh => ?_⟩
        · obtain ⟨a1, a2⟩ := this.1 hh
          rw [if_pos hh] at a2
          exact ⟨a1.symm, a2.symm⟩
        · obtain ⟨a1, a2⟩ := this.2 hh
          rw [if_neg hh] at a2
          exact ⟨a1.symm, a2.symm⟩
      · intro d hd ht
        have := hside d hd (by rw [ht]; decide)
        rw [(vp d hd ht).1, (vp d hd ht).2] at this
        exact this
    · rintro ⟨E, F, hq⟩
      exact ⟨E, F, hq.net, bwd E F hq⟩
  refine ⟨?_, ?_⟩
  · intro E F hq
    have hst : StructEq c2.labels c2.M β α := (heq β α).2 ⟨E, F, hq.net, bwd E F hq⟩
    have h0 := struct_power hskew (hwf.Mr.trans (by simp [tot, labels, Nat.add_assoc])) hst
    have hpow : ∀ d ∈ edges, d.type ≠ .connector →
        β d.label * α d.label = E d.label * F d.label := by
      intro d hd ht
      obtain ⟨s1, s2⟩ := bwd E F hq d hd ht
      by_cases hh : ec d.label
      · rw [(s1 hh).1, (s1 hh).2]
      · rw [(s2 hh).1, (s2 hh).2, mul_comm]
    have hsum : ∀ t, t ≠ EType.connector → ∀ l : List String,
        l.Perm ((ofType t edges).map (·.label)) →
        (l.map fun l => β l * α l).sum = power t edges E F := by
      intro t ht l hl
      rw [(hl.map _).sum_eq, List.map_map, power]
      refine congrArg _ (List.map_congr_left fun d hd => ?_)
      obtain ⟨a1, a2⟩ := mem_ofType.1 hd
      exact hpow d a1 (by rw [a2]; exact ht)
    have p1 := hsum .storage (by decide) c2.x hx
    have p2 := hsum .dissipative (by decide) c2.w (zip_fst_perm hwf.wz hw)
    have p3 := hsum .port (by decide) c2.y (zip_fst_perm hwf.uy.symm hy)
    have p4 := hsum .storage (by decide) m.g.x hx'
    have p5 : (m.g.x.map fun l => β l * α l).sum = m.fs * gdot m.dxH m.g.x e := by
      rw [gdot_gradOf hmw, ← List.sum_map_mul_left]
      refine congrArg _ (List.map_congr_left fun x hx => ?_)
      simp only [β, α, if_pos hx]
      ring
    simp only [labels, hcy, List.append_nil, List.map_append, List.sum_append] at h0
    rw [p1, p2, p3] at h0
    rw [← p5, p4]
    exact h0
  · intro E F hq
    refine ⟨hq.net, hq.stor, hq.diss, fun d hd ht => ?_⟩
    -- the outputs are the values left free
    let β' : Env ℝ := fun l => if l ∈ m.g.x then m.fs * e (dn l) else if l ∈ m.w then e l
      else if ec l then E l else F l
    have hp : ∀ d ∈ edges, d.type = .port → d.label ∉ m.g.x ∧ d.label ∉ m.w ∧ d.label ∈ m.y := by
      intro d hd ht
      have hp : (d.label, inputOf c d.label) ∈ m.y.zip m.u :=
        hy'.mem_iff.2 (List.mem_map.2 ⟨d, mem_ofType.2 ⟨hd, ht⟩, rfl⟩)
      have h1 : d.label ∈ m.y := (List.of_mem_zip hp).1
      have h2 : d.label ∉ m.g.x ++ m.w := fun hh => hd1 _ hh _ h1 rfl
      rw [List.mem_append, not_or] at h2
      exact ⟨h2.1, h2.2, h1⟩
    have hside : ∀ d ∈ edges, d.type ≠ .connector →
        Side (ec d.label) (E d.label) (F d.label) (β' d.label) (α d.label) := by
      intro d hd ht
      cases hty : d.type with
      | storage =>
        have : d.label ∈ m.g.x := hx'.mem_iff.2
          (List.mem_map_of_mem (f := fun d : Edge ℝ => d.label) (mem_ofType.2 ⟨hd, hty⟩))
        rw [show β' d.label = m.fs * e (dn d.label) by simp [β', this], (vs d hd hty).2]
        exact hq.stor d hd hty
      | dissipative =>
        have hb : β' d.label = e d.label := by
          have hp : (d.label, law (if ec d.label then d.ze else d.zf)) ∈ m.w.zip m.z :=
            hw'.mem_iff.2 (List.mem_map.2 ⟨d, mem_ofType.2 ⟨hd, hty⟩, rfl⟩)
          have h1 : d.label ∈ m.w := (List.of_mem_zip hp).1
          have h2 : d.label ∉ m.g.x := fun hh => hd2 _ hh _ h1 rfl
          simp only [β', if_neg h2, if_pos h1]
        rw [hb, (vd d hd hty).2]
        refine ⟨fun hh => ?_, fun hh => ?_⟩
        · obtain ⟨a1, a2⟩ := (hq.diss d hd hty).1 hh
          rw [if_pos hh]; exact ⟨a1.symm, a2.symm⟩
        · obtain ⟨a1, a2⟩ := (hq.diss d hd hty).2 hh
          rw [if_neg hh]; exact ⟨a1.symm, a2.symm⟩
      | port =>
        obtain ⟨h1, h2, -⟩ := hp d hd hty
        rw [(vp d hd hty).2]
        refine ⟨fun hh => ⟨?_, ((hq.port d hd hty).1 hh).symm⟩,
          fun hh => ⟨?_, ((hq.port d hd hty).2 hh).symm⟩⟩
        · simp only [β', if_neg h1, if_neg h2, if_pos hh]
        · simp only [β', if_neg h1, if_neg h2, if_neg hh]
      | connector => exact absurd hty ht
    have hst : StructEq c2.labels c2.M β' α := (heq β' α).2 ⟨E, F, hq.net, hside⟩
    have hst2 := (hsame.eqs β' α).2 hst
    rw [hlabels] at hst2
    obtain ⟨h1, h2, h3⟩ := hp d hd ht
    have hi : m.y.idxOf d.label < m.y.length := List.idxOf_lt_length_iff.2 h3
    have hrow := hst2 ((m.g.x ++ m.w).length + m.y.idxOf d.label)
      (by simp only [List.length_append]; omega)
    rw [getD_append_right' _ _ (by omega), Nat.add_sub_cancel_left, getD_idxOf h3] at hrow
    have hout : outOf m d.label e = β' d.label := by
      rw [hrow]
      unfold outOf
      rw [out_getD hmw e hi]
      unfold Mat.mv
      rw [hmw.Mc, List.length_append, List.length_append]
      refine Finset.sum_congr rfl fun j hj => ?_
      beta_reduce
      rw [aV_at hmw e (by simpa [Nat.add_assoc] using hj)]
      rfl
    rw [hout]
    have := hside d hd (by rw [ht]; decide)
    rw [(vp d hd ht).2] at this
    exact this

/-- The method of a circuit: its equations, and the power they exchange. The controls of the edges are
those of the graph, whatever the options of the method. -/
theorem step_facts_laws {law : String → Env ℝ → ℝ} {fuel : ℕ} {nodes : List String}
    {edges : List (Edge ℝ)} {c c2 : Core ℝ} (h : CircuitOK nodes edges c)
    (hstat : StaticLaws law edges) (hc : toCore law fuel nodes edges c = some c2) :
    ∃ ec : String → Prop, (∀ d ∈ edges, (d.ctrl = .e → ec d.label) ∧ (d.ctrl = .f → ¬ ec d.label)) ∧
    (∀ p ∈ c2.w.zip c2.z, ∃ d ∈ edges, d.type = .dissipative ∧ d.label = p.1 ∧
      (ec d.label → p.2 = law d.ze) ∧ (¬ ec d.label → p.2 = law d.zf)) ∧
    ∀ (s : Sympy) (_ : s.OK) (o : Config), ∃ m, toMethod s o c2 = some m ∧ MethWF m ∧ m.H = c.H ∧
      m.fs = o.fs ∧
      m.g.x.Perm ((ofType .storage edges).map (·.label)) ∧
      m.dxH = buildGradient m.H m.g o.kind o.θ o.epsdg ∧
      (∃ M, M.IsSkew ∧ (∀ e, m.M e = M) ∧ m.w.Perm ((ofType .dissipative edges).map (·.label)) ∧
        (m.y.zip m.u).Perm ((ofType .port edges).map fun d => (d.label, inputOf c d.label))) ∧
      (∀ e, m.Solved e ↔ ∃ E F, StepEqs law nodes edges c m ec e E F) ∧
      ∀ e,
        (∀ E F, StepEqs law nodes edges c m ec e E F →
          m.fs * gdot m.dxH m.g.x e + power .dissipative edges E F + power .port edges E F = 0) ∧
        ∀ E F, InputEqs law nodes edges c m ec e E F → StepEqs law nodes edges c m ec e E F := by
  classical
  obtain ⟨ec, hctl, hwf, hcy, hH, hskew, hx, hw, hy, heq⟩ := C63_core h hc two_ne_zero
  have hready := ready_of h hstat hc
  refine ⟨ec, hctl, fun p hp => ?_, fun s hs o => ?_⟩
  · obtain ⟨d, hd, rfl⟩ := List.mem_map.1 (hw.mem_iff.1 hp)
    obtain ⟨q1, q2⟩ := mem_ofType.1 hd
    exact ⟨d, q1, q2, rfl, fun q => by rw [if_pos q], fun q => by rw [if_neg q]⟩
  obtain ⟨n, c', hm, hk, hdx⟩ := toMethod_spec s hs o c2 hready
  have hmw := asMeth_wf hk o n hdx
  obtain ⟨f1, f2, f3, f4⟩ := step_facts_of hwf hcy hskew hx hw hy heq hk.same hk.wf hk.cy o n hmw
  refine ⟨_, hm, hmw, hk.same.H.trans hH, rfl, f1, ?_, f2, f3, f4⟩
  show c'.dxH.getD [] = _
  rw [hdx]; rfl

/-- The same, without the laws of the core. -/
theorem step_facts_all {law : String → Env ℝ → ℝ} {fuel : ℕ} {nodes : List String}
    {edges : List (Edge ℝ)} {c c2 : Core ℝ} (h : CircuitOK nodes edges c)
    (hstat : StaticLaws law edges) (hc : toCore law fuel nodes edges c = some c2) :
    ∃ ec : String → Prop, (∀ d ∈ edges, (d.ctrl = .e → ec d.label) ∧ (d.ctrl = .f → ¬ ec d.label)) ∧
    ∀ (s : Sympy) (_ : s.OK) (o : Config), ∃ m, toMethod s o c2 = some m ∧ MethWF m ∧ m.H = c.H ∧
      m.fs = o.fs ∧
      m.g.x.Perm ((ofType .storage edges).map (·.label)) ∧
      m.dxH = buildGradient m.H m.g o.kind o.θ o.epsdg ∧
      (∃ M, M.IsSkew ∧ (∀ e, m.M e = M) ∧ m.w.Perm ((ofType .dissipative edges).map (·.label)) ∧
        (m.y.zip m.u).Perm ((ofType .port edges).map fun d => (d.label, inputOf c d.label))) ∧
      (∀ e, m.Solved e ↔ ∃ E F, StepEqs law nodes edges c m ec e E F) ∧
      ∀ e,
        (∀ E F, StepEqs law nodes edges c m ec e E F →
          m.fs * gdot m.dxH m.g.x e + power .dissipative edges E F + power .port edges E F = 0) ∧
        ∀ E F, InputEqs law nodes edges c m ec e E F → StepEqs law nodes edges c m ec e E F := by
  obtain ⟨ec, h0, -, h1⟩ := step_facts_laws h hstat hc
  exact ⟨ec, h0, h1⟩

/-- The same, for given options. -/
theorem step_facts {law : String → Env ℝ → ℝ} {fuel : ℕ} {nodes : List String}
    {edges : List (Edge ℝ)} {c c2 : Core ℝ} (h : CircuitOK nodes edges c)
    (hstat : StaticLaws law edges) (hc : toCore law fuel nodes edges c = some c2)
    (s : Sympy) (hs : s.OK) (o : Config) :
    ∃ m ec, toMethod s o c2 = some m ∧ MethWF m ∧ m.H = c.H ∧ m.fs = o.fs ∧
      m.g.x.Perm ((ofType .storage edges).map (·.label)) ∧
      m.dxH = buildGradient m.H m.g o.kind o.θ o.epsdg ∧
      (∃ M, M.IsSkew ∧ (∀ e, m.M e = M) ∧ m.w.Perm ((ofType .dissipative edges).map (·.label)) ∧
        (m.y.zip m.u).Perm ((ofType .port edges).map fun d => (d.label, inputOf c d.label))) ∧
      (∀ d ∈ edges, (d.ctrl = .e → ec d.label) ∧ (d.ctrl = .f → ¬ ec d.label)) ∧
      (∀ e, m.Solved e ↔ ∃ E F, StepEqs law nodes edges c m ec e E F) ∧
      ∀ e,
        (∀ E F, StepEqs law nodes edges c m ec e E F →
          m.fs * gdot m.dxH m.g.x e + power .dissipative edges E F + power .port edges E F = 0) ∧
        ∀ E F, InputEqs law nodes edges c m ec e E F → StepEqs law nodes edges c m ec e E F := by
  obtain ⟨ec, h0, h⟩ := step_facts_all h hstat hc
  obtain ⟨m, h1, h2, h3, h4, h5, h6, h7, h8⟩ := h s hs o
  exact ⟨m, ec, h1, h2, h3, h4, h5, h6, h7, h0, h8⟩

/-- C63. The equations solved by a simulation of a circuit. The method built on the core of a circuit
exists; it has the energy of the core; and some values of the symbols solve its implicit
equations exactly when there are efforts and flows of the edges for which the equations of the
circuit hold. The controls respect those prescribed by the components. -/
theorem C63_step {law : String → Env ℝ → ℝ} {fuel : ℕ} {nodes : List String}
    {edges : List (Edge ℝ)} {c c2 : Core ℝ} (h : CircuitOK nodes edges c)
    (hstat : StaticLaws law edges) (hc : toCore law fuel nodes edges c = some c2)
    (s : Sympy) (hs : s.OK) (o : Config) :
    ∃ m ec, toMethod s o c2 = some m ∧ MethWF m ∧ m.H = c.H ∧ m.fs = o.fs ∧
      m.g.x.Perm ((ofType .storage edges).map (·.label)) ∧
      m.dxH = buildGradient m.H m.g o.kind o.θ o.epsdg ∧
      (∀ d ∈ edges, (d.ctrl = .e → ec d.label) ∧ (d.ctrl = .f → ¬ ec d.label)) ∧
      ∀ e, m.Solved e ↔ ∃ E F, StepEqs law nodes edges c m ec e E F := by
  obtain ⟨m, ec, h1, h2, h3, h4, h5, h6, -, h7, h8, -⟩ := step_facts h hstat hc s hs o
  exact ⟨m, ec, h1, h2, h3, h4, h5, h6, h7, h8⟩

/-- C63. Conversely, efforts and flows that satisfy the laws of the circuit for the given inputs are a
solution of the implicit equations, and the outputs computed by the method are those of the ports. -/
theorem C63_outputs {law : String → Env ℝ → ℝ} {fuel : ℕ} {nodes : List String}
    {edges : List (Edge ℝ)} {c c2 : Core ℝ} (h : CircuitOK nodes edges c)
    (hstat : StaticLaws law edges) (hc : toCore law fuel nodes edges c = some c2)
    (s : Sympy) (hs : s.OK) (o : Config) :
    ∃ m ec, toMethod s o c2 = some m ∧
      (∀ d ∈ edges, (d.ctrl = .e → ec d.label) ∧ (d.ctrl = .f → ¬ ec d.label)) ∧
      ∀ e E F, InputEqs law nodes edges c m ec e E F → m.Solved e ∧
        ∀ d ∈ edges, d.type = .port → (ec d.label → outOf m d.label e = E d.label) ∧
          (¬ ec d.label → outOf m d.label e = F d.label) := by
  obtain ⟨m, ec, h1, -, -, -, -, -, -, h7, h8, h9⟩ := step_facts h hstat hc s hs o
  refine ⟨m, ec, h1, h7, fun e E F hq => ?_⟩
  have hst := (h9 e).2 E F hq
  refine ⟨(h8 e).2 ⟨E, F, hst⟩, fun d hd ht => ?_⟩
  exact ⟨fun hh => ((hst.port d hd ht).1 hh).1, fun hh => ((hst.port d hd ht).2 hh).1⟩

end Circuit
end Pyphs
