/-
The construction of a method only reorders the system.
-/
import Verif.Circuit.Model
import Verif.Core.SplitProps
import Verif.Scheme.BalanceProps

namespace Pyphs
namespace Circuit
open Scheme Core Graph

/-- A law depends neither on the states nor on the symbols of the gradient. -/
def Static (xs : List String) (f : Sc) : Prop :=
  ∀ e e' : Env ℝ, (∀ s, s ∉ xs → s ∉ xs.map gn → e s = e' s) → f e = f e'

theorem Static.congr {xs ys : List String} {f : Sc} (h : Static xs f) (hp : ys.Perm xs) :
    Static ys f := fun e e' he => h e e' fun s h1 h2 => he s (fun h => h1 (hp.mem_iff.1 h))
      (fun h => h2 ((hp.map gn).mem_iff.1 h))

theorem lookup_none' {σ : List (String × Sc)} {s : String} (h : s ∉ σ.map (·.1)) :
    σ.lookup s = none := by
  rw [List.lookup_eq_none_iff]
  intro p hp
  simp only [beq_eq_false_iff_ne, ne_eq, bne_iff_ne]
  rintro rfl
  exact h (List.mem_map_of_mem hp)

theorem Static.subs {xs : List String} {f : Sc} (h : Static xs f) (dxH : List Sc) (θ : ℝ)
    (e : Env ℝ) : subs (structSubs xs dxH θ) f e = f e := by
  refine h _ _ fun s h1 h2 => ?_
  have : (structSubs xs dxH θ).lookup s = none := by
    apply lookup_none'
    unfold structSubs
    rw [List.map_append, List.mem_append, not_or]
    refine ⟨fun h => ?_, fun h => ?_⟩
    · obtain ⟨p, hp, rfl⟩ := List.mem_map.1 h
      exact h2 (List.of_mem_zip hp).1
    · simp only [List.map_map, Function.comp_def, List.map_id'] at h
      exact h1 h
  rw [this]

theorem Static.evalLaw {xs : List String} {f : Sc} (h : Static xs f) (kind : Grad) (θ : ℝ)
    (dxH : List Sc) : evalLaw kind θ xs dxH f = f := by
  funext e
  cases kind with
  | trapez =>
    show 0.5 * (f e + Scheme.subs _ f e) = f e
    rw [h.subs]; norm_num; ring
  | discret => exact h.subs dxH θ e
  | theta => exact h.subs dxH θ e

/-- Shapes of the answers of sympy. -/
structure Sympy.OK (s : Sympy) : Prop where
  hess : ∀ c, (s.hess c).r = c.x.length ∧ (s.hess c).c = c.x.length
  jacz : ∀ c, (s.jacz c).r = c.w.length ∧ (s.jacz c).c = c.w.length
  nz : ∀ c, (s.nz c).r = c.x.length - c.xl ∧ (s.nz c).c = c.x.length - c.xl ∧
    ∀ i < c.x.length - c.xl, ∀ j < c.x.length - c.xl, (s.nz c).e i j = (s.nz c).e j i
  jacF : ∀ c, (s.jacF c).r = c.x.length + c.w.length ∧ (s.jacF c).c = c.x.length + c.w.length
  jac : ∀ zs ws, (s.jac zs ws).r = zs.length ∧ (s.jac zs ws).c = ws.length

theorem groups_x {c : Core ℝ} (n : ℕ) : (groups c n).x = c.x := by
  simp [groups, Groups.x]

theorem buildGradient_length (H : Sc) (g : Groups) (kind : Grad) (θ tol : ℝ) :
    (buildGradient H g kind θ tol).length = g.x.length := by
  cases kind with
  | discret =>
    simp only [buildGradient, List.length_append, gradLin_length, gradMono_length,
      gradMulti_length, Groups.x]
  | theta => simp [buildGradient, gradTheta, gradient]
  | trapez => simp [buildGradient, gradTrapez, gradient]

/-- Two cores of the same system, with static laws and no connector. -/
structure Kept (c c' : Core ℝ) : Prop where
  same : SameSystem c c'
  wf : WF c'
  zl : ZlOK c'
  static : ∀ f ∈ c'.z, Static c'.x f
  cy : c'.cy = []

theorem mem_of_zip_perm {c c' : Core ℝ} (h : SameSystem c c') (hw : WF c') {f : Sc}
    (hf : f ∈ c'.z) : f ∈ c.z := by
  obtain ⟨i, hi, rfl⟩ := List.mem_iff_getElem.1 hf
  have : (c'.w[i]'(by rw [hw.wz]; exact hi), c'.z[i]) ∈ c'.w.zip c'.z := by
    rw [List.mem_iff_getElem]
    exact ⟨i, by simp [hw.wz, hi], by simp⟩
  exact (List.of_mem_zip (h.laws.mem_iff.1 this)).2

/-- What is asked from a core before a method is built on it. -/
structure Ready (c : Core ℝ) : Prop where
  wf : WF c
  static : ∀ f ∈ c.z, Static c.x f
  cy : c.cy = []

theorem Kept.of_same {c c' : Core ℝ} (hc : Ready c) (h : SameSystem c c') (hw : WF c')
    (hz : ZlOK c') : Kept c c' where
  same := h
  wf := hw
  zl := hz
  static := fun f hf => (hc.static f (mem_of_zip_perm h hw hf)).congr h.x
  cy := by
    have := h.conns
    rw [hc.cy, List.zip_nil_left, List.perm_nil, List.zip_eq_nil_iff] at this
    rcases this with h | h
    · exact h
    · have := hw.cucy; rw [h] at this; exact List.length_eq_zero_iff.1 this.symm

theorem Kept.ready {c c' : Core ℝ} (h : Kept c c') : Ready c' := ⟨h.wf, h.static, h.cy⟩

theorem Kept.trans {a b c : Core ℝ} (ha : WF a) (h : Kept a b) (h' : Kept b c) : Kept a c where
  same := h.same.trans ha h.wf h'.same
  wf := h'.wf
  zl := h'.zl
  static := h'.static
  cy := h'.cy

theorem Kept.eval {c c' : Core ℝ} (h : Kept c c') (o : Config) (n : ℕ) :
    Kept c (buildEval o n c') ∧ (buildEval o n c').dxH =
      some (buildGradient c'.H (groups c' n) o.kind o.θ o.epsdg) ∧
      (buildEval o n c').z = c'.z := by
  have hz : (buildEval o n c').z = c'.z := by
    show c'.z.map _ = _
    conv_rhs => rw [← List.map_id c'.z]
    exact List.map_congr_left fun f hf => (h.static f hf).evalLaw _ _ _
  refine ⟨⟨⟨h.same.x, ?_, h.same.ports, h.same.conns, h.same.H, h.same.connectors, h.same.coef,
    h.same.eqs⟩, ⟨h.wf.Mr, h.wf.Mc, h.wf.uy, h.wf.cucy, ?_, ?_, h.wf.xl, h.wf.wl, h.wf.nodup⟩, h.zl,
    ?_, h.cy⟩, rfl, hz⟩
  · rw [hz]; exact h.same.laws
  · rw [hz]; exact h.wf.wz
  · intro d hd
    obtain rfl := Option.some.inj hd
    show (buildGradient _ _ _ _ _).length = c'.x.length
    rw [buildGradient_length, groups_x]
  · rw [hz]; exact h.static

theorem splitLoop_inv {S : Type} {test : ℕ → S → Bool} {move : ℕ → S → Option S} (P : S → Prop)
    (h : ∀ k s s', move k s = some s' → P s → P s') :
    ∀ (m k : ℕ) (s : S) (r : S × ℕ), splitLoop test move m k s = some r → P s → P r.1 := by
  intro m
  induction m with
  | zero => intro k s r hr hs; obtain rfl := Option.some.inj hr; exact hs
  | succ m ih =>
    intro k s r hr hs
    unfold splitLoop at hr
    split_ifs at hr
    · exact ih _ _ _ hr hs
    · obtain ⟨s', h1, h2⟩ := Option.bind_eq_some_iff.1 hr
      exact ih _ _ _ h2 (h _ _ _ h1 hs)

theorem monovar_zl {c : Core ℝ} {nz : Mat Bool} {r : Core ℝ × ℕ}
    (h : c.monovarMultivar nz = some r) (hz : ZlOK c) : ZlOK r.1 := by
  unfold monovarMultivar at h
  obtain ⟨⟨s, n⟩, h1, h2⟩ := Option.bind_eq_some_iff.1 h
  obtain rfl := Option.some.inj h2
  refine splitLoop_inv (fun s : Core ℝ × Mat Bool => ZlOK s.1) ?_ _ _ _ _ h1 hz
  intro k s s' hm hs
  obtain ⟨c', e1, e2⟩ := Option.bind_eq_some_iff.1 hm
  obtain ⟨h', _, e3⟩ := Option.bind_eq_some_iff.1 e2
  obtain rfl := Option.some.inj e3
  exact ZlOK_run (m := .stor _ _) hs e1

/-- The core of a method after the two evaluations, and the groups of its states: the system is
the one given. -/
theorem toMethod_spec (s : Sympy) (hs : s.OK) (o : Config) (c : Core ℝ) (hc : Ready c) :
    ∃ n c', toMethod s o c = some (asMeth o n c') ∧ Kept c c' ∧
      c'.dxH = some (buildGradient c'.H (groups c' n) o.kind o.θ o.epsdg) := by
  set c0 : Core ℝ := reset c with h0
  have k0 : Kept c c0 := by
    refine ⟨⟨List.Perm.refl _, List.Perm.refl _, List.Perm.refl _, List.Perm.refl _, rfl, rfl,
      fun _ _ _ _ => rfl, fun _ _ => Iff.rfl⟩, ?_, Or.inr ⟨?_, ?_⟩, hc.static, hc.cy⟩
    · exact ⟨hc.wf.Mr, hc.wf.Mc, hc.wf.uy, hc.wf.cucy, hc.wf.wz, hc.wf.dxH, Nat.zero_le _,
        Nat.zero_le _, hc.wf.nodup⟩
    · simp [h0, reset, Mat.slice]
    · simp [h0, reset, Mat.slice]
  have lin : ∀ (d : Core ℝ), Kept c d → ∀ sq hess argx jacz argz, hess.c = d.x.length →
      (sq = true → hess.r = d.x.length) → jacz.c = d.w.length →
      (sq = true → jacz.r = d.w.length) →
      ∃ d', d.linearNonlinear sq hess argx jacz argz s.jac = some d' ∧ Kept c d' := by
    intro d hd sq hess argx jacz argz a1 a2 a3 a4
    obtain ⟨d', b1, b2, b3, -, -, -, -, -, -, b10, -⟩ :=
      C13_linear_nonlinear d hd.wf hd.zl sq hess jacz argx argz s.jac a1 a2 a3 a4
    refine ⟨d', b1, hd.trans hc.wf (Kept.of_same hd.ready b2 b3 (Or.inr ?_))⟩
    rw [b10, (hs.jac _ _).1, (hs.jac _ _).2, List.length_take, List.length_take]
    have e1 := b3.wz
    have e2 := b3.wl
    omega
  obtain ⟨c1, e1, k1⟩ : ∃ c1, firstSplit s o c0 = some c1 ∧ Kept c c1 := by
    unfold firstSplit
    split_ifs
    · exact lin c0 k0 _ _ _ _ _ (hs.hess c0).2 (fun _ => (hs.hess c0).1) (hs.jacz c0).2
        (fun _ => (hs.jacz c0).1)
    · exact ⟨_, rfl, k0⟩
  obtain ⟨n1, n2, n3⟩ := hs.nz c1
  obtain ⟨c2, e2, m2, -, -⟩ := C14_monovar_multivar c1 k1.wf k1.zl (s.nz c1) n1 n2 n3
  have k2 : Kept c c2 := k1.trans hc.wf
    (Kept.of_same k1.ready m2.same m2.wf (monovar_zl e2 k1.zl))
  set n := Core.count (c1.x.length - c1.xl)
    (Separable (c1.x.length - c1.xl) (s.nz c1)) with hn
  obtain ⟨k3, d3, -⟩ := k2.eval o n
  by_cases hsp : o.split = true
  · have hsl : ∀ (A : Mat FS) (a b : ℕ), (A.slice 0 A.r a b).c = min b A.c - a := fun _ _ _ => rfl
    obtain ⟨c4, e4, k4⟩ := lin (buildEval o n c2) k3 false
      ((s.jacF (buildEval o n c2)).slice 0 (s.jacF (buildEval o n c2)).r 0
        (buildEval o n c2).x.length) (vars (buildEval o n c2))
      ((s.jacF (buildEval o n c2)).slice 0 (s.jacF (buildEval o n c2)).r
        (buildEval o n c2).x.length (s.jacF (buildEval o n c2)).c) (vars (buildEval o n c2))
      (by rw [hsl, (hs.jacF _).2]; omega) (by simp) (by rw [hsl, (hs.jacF _).2]; omega) (by simp)
    obtain ⟨k5, d5, -⟩ := k4.eval o n
    refine ⟨n, _, ?_, k5, d5⟩
    unfold toMethod
    refine Option.bind_eq_some_iff.2 ⟨c1, e1, ?_⟩
    refine Option.bind_eq_some_iff.2 ⟨(c2, n), e2, ?_⟩
    have : explicitImplicit s (buildEval o n c2) = some c4 := e4
    simp only [lastSplit, hsp, if_true, this, Option.map_some]
  · refine ⟨n, _, ?_, k3, d3⟩
    unfold toMethod
    refine Option.bind_eq_some_iff.2 ⟨c1, e1, ?_⟩
    refine Option.bind_eq_some_iff.2 ⟨(c2, n), e2, ?_⟩
    simp only [lastSplit, if_neg hsp, Option.map_some]

/-- The method built on a core of the same system is well formed. -/
theorem asMeth_wf {c c' : Core ℝ} (h : Kept c c') (o : Config) (n : ℕ) {d : List Sc}
    (hd : c'.dxH = some d) : MethWF (asMeth o n c') where
  Mr := fun e => by
    show c'.M.r = (groups c' n).x.length + c'.w.length + c'.y.length
    rw [groups_x, h.wf.Mr]; simp [tot, h.cy]
  Mc := fun e => by
    show c'.M.c = (groups c' n).x.length + c'.w.length + c'.y.length
    rw [groups_x, h.wf.Mc]; simp [tot, h.cy]
  uy := h.wf.uy
  wz := h.wf.wz
  gx := by
    show (c'.dxH.getD []).length = (groups c' n).x.length
    rw [groups_x, hd]; exact h.wf.dxH d hd
  wl := h.wf.wl
  nodup := by
    show ((groups c' n).x ++ c'.w ++ c'.y).Nodup
    rw [groups_x]
    have := h.wf.nodup
    simpa [labels, h.cy] using this

theorem getD_append_left' (l l' : List String) {i : ℕ} (h : i < l.length) :
    (l ++ l').getD i "" = l.getD i "" := by
  rw [List.getD_eq_getElem?_getD, List.getElem?_append_left h, ← List.getD_eq_getElem?_getD]

theorem getD_append_right' (l l' : List String) {i : ℕ} (h : l.length ≤ i) :
    (l ++ l').getD i "" = l'.getD (i - l.length) "" := by
  rw [List.getD_eq_getElem?_getD, List.getElem?_append_right h, ← List.getD_eq_getElem?_getD]

theorem getD_mem' (l : List String) {i : ℕ} (h : i < l.length) : l.getD i "" ∈ l := by
  rw [List.getD_eq_getElem?_getD, List.getElem?_eq_getElem h]
  exact List.getElem_mem h

/-- The implicit equations are the structure equations of the variables. -/
theorem solved_iff {m : Meth} (h : MethWF m) (e β α : Env ℝ)
    (hx : ∀ x ∈ m.g.x, β x = m.fs * e (dn x)) (hw : ∀ w ∈ m.w, β w = e w)
    (hy : ∀ k < m.y.length, β (m.y.getD k "") = (m.out e).getD k 0)
    (hα : ∀ i < (m.g.x ++ m.w ++ m.y).length,
      α ((m.g.x ++ m.w ++ m.y).getD i "") = (m.aV e).getD i 0) :
    m.Solved e ↔ StructEq (m.g.x ++ m.w ++ m.y) (m.M e) β α := by
  have hvl : (m.v .all).length = m.g.x.length + m.w.length := v_length h e .all
  have hmv : ∀ i, (∑ j ∈ Finset.range (m.g.x ++ m.w ++ m.y).length,
      (m.M e).e i j * α ((m.g.x ++ m.w ++ m.y).getD j "")) =
      (m.M e).mv (fun j => (m.aV e).getD j 0) i := by
    intro i
    unfold Mat.mv
    rw [h.Mc, List.length_append, List.length_append]
    refine Finset.sum_congr rfl fun j hj => ?_
    rw [hα j (by simpa [Nat.add_assoc] using hj)]
  have hF : ∀ i < m.g.x.length + m.w.length, m.F .all i e =
      β ((m.g.x ++ m.w ++ m.y).getD i "") - (m.M e).mv (fun j => (m.aV e).getD j 0) i := by
    intro i hi
    rw [F_eq_res h e .all (by rw [hvl]; exact hi), row_all, mv_aV h]
    have : β ((m.g.x ++ m.w ++ m.y).getD i "") = (if i < m.g.x.length then
        m.fs * e (dn (m.g.x.getD i "")) else e (m.w.getD (i - m.g.x.length) "")) := by
      rw [getD_append_left' _ _ (by simp; exact hi)]
      split_ifs with h1
      · rw [getD_append_left' _ _ h1]
        exact hx _ (getD_mem' _ h1)
      · rw [getD_append_right' _ _ (by omega)]
        exact hw _ (getD_mem' _ (by omega))
    rw [this]
    unfold Meth.res
    ring
  unfold StructEq Meth.Solved
  rw [hvl]
  constructor
  · intro hs i hi
    rw [hmv]
    by_cases h1 : i < m.g.x.length + m.w.length
    · have := hs i h1
      rw [hF i h1] at this
      linarith
    · have hi' : i - (m.g.x ++ m.w).length < m.y.length := by
        simp only [List.length_append] at hi ⊢; omega
      rw [getD_append_right' _ _ (by simp; omega), hy _ hi', out_getD h e hi']
      congr 1
      simp only [List.length_append] at hi ⊢; omega
  · intro hs i hi
    rw [hF i hi]
    have := hs i (by simp only [List.length_append]; omega)
    rw [hmv] at this
    linarith

end Circuit
end Pyphs
