/-
Dissipation laws that depend on the states: where a method evaluates them.
-/
import Verif.Circuit.Passive

namespace Pyphs
namespace Circuit
open Scheme Core Graph Finset

/-! ### Construction of a method -/

/-- The core with other laws. -/
def mapLaws (ev : Sc → Sc) (c : Core ℝ) : Core ℝ := { c with z := c.z.map ev }

theorem mapLaws_wf {c : Core ℝ} (h : WF c) (ev : Sc → Sc) : WF (mapLaws ev c) :=
  ⟨h.Mr, h.Mc, h.uy, h.cucy, by simpa [mapLaws] using h.wz, h.dxH, h.xl, h.wl, h.nodup⟩

theorem same_mapLaws {c c' : Core ℝ} (h : SameSystem c c') (ev : Sc → Sc) (d : Option (List Sc)) :
    SameSystem (mapLaws ev c) { c' with z := c'.z.map ev, dxH := d } :=
  ⟨h.x, by
    have := h.laws.map (Prod.map id ev)
    rw [← List.zip_map_right, ← List.zip_map_right] at this
    exact this,
    h.ports, h.conns, h.H, h.connectors, h.coef, h.eqs⟩

/-- Two cores of the same system, with no connector. -/
structure Moved (c c' : Core ℝ) : Prop where
  same : SameSystem c c'
  wf : WF c'
  zl : ZlOK c'
  cy : c'.cy = []

theorem Moved.step {a b c : Core ℝ} (ha : WF a) (h : Moved a b) (hs : SameSystem b c) (hw : WF c)
    (hz : ZlOK c) : Moved a c where
  same := h.same.trans ha h.wf hs
  wf := hw
  zl := hz
  cy := by
    have := hs.conns
    rw [h.cy, List.zip_nil_left, List.perm_nil, List.zip_eq_nil_iff] at this
    rcases this with h | h
    · exact h
    · have := hw.cucy; rw [h] at this; exact List.length_eq_zero_iff.1 this.symm

theorem Moved.eval {c c' : Core ℝ} (h : Moved c c') (o : Config) (n : ℕ) :
    Moved (mapLaws (evalLaw o.kind o.θ c'.x (buildGradient c'.H (groups c' n) o.kind o.θ o.epsdg)) c)
      (buildEval o n c') := by
  refine ⟨same_mapLaws h.same _ _, ⟨h.wf.Mr, h.wf.Mc, h.wf.uy, h.wf.cucy, ?_, ?_, h.wf.xl, h.wf.wl,
    h.wf.nodup⟩, h.zl, h.cy⟩
  · show c'.w.length = (c'.z.map _).length
    rw [List.length_map]; exact h.wf.wz
  · intro d hd
    obtain rfl := Option.some.inj hd
    show (buildGradient _ _ _ _ _).length = c'.x.length
    rw [buildGradient_length, groups_x]

/-- The core of a method is the one given in another order, with its laws evaluated once or twice. -/
theorem toMethod_moved (s : Sympy) (hs : s.OK) (o : Config) (c : Core ℝ) (hwf : WF c)
    (hcy : c.cy = []) :
    ∃ n c' ev, toMethod s o c = some (asMeth o n c') ∧ Moved (mapLaws ev c) c' ∧
      c'.dxH = some (buildGradient c'.H (groups c' n) o.kind o.θ o.epsdg) ∧
      ∃ xs d, xs.Perm c.x ∧
        (o.split = false → ev = evalLaw o.kind o.θ xs d) ∧
        (o.split = true → ∃ xs' d', xs'.Perm c.x ∧
          ev = fun z => evalLaw o.kind o.θ xs d (evalLaw o.kind o.θ xs' d' z)) := by
  set c0 : Core ℝ := reset c with h0
  have k0 : Moved c c0 := by
    refine ⟨⟨List.Perm.refl _, List.Perm.refl _, List.Perm.refl _, List.Perm.refl _, rfl, rfl,
      fun _ _ _ _ => rfl, fun _ _ => Iff.rfl⟩, ?_, Or.inr ⟨?_, ?_⟩, hcy⟩
    · exact ⟨hwf.Mr, hwf.Mc, hwf.uy, hwf.cucy, hwf.wz, hwf.dxH, Nat.zero_le _,
        Nat.zero_le _, hwf.nodup⟩
    · simp [h0, reset, Mat.slice]
    · simp [h0, reset, Mat.slice]
  have lin : ∀ (a d : Core ℝ), WF a → Moved a d → ∀ sq hess argx jacz argz, hess.c = d.x.length →
      (sq = true → hess.r = d.x.length) → jacz.c = d.w.length →
      (sq = true → jacz.r = d.w.length) →
      ∃ d', d.linearNonlinear sq hess argx jacz argz s.jac = some d' ∧ Moved a d' := by
    intro a d ha hd sq hess argx jacz argz a1 a2 a3 a4
    obtain ⟨d', b1, b2, b3, -, -, -, -, -, -, b10, -⟩ :=
      C13_linear_nonlinear d hd.wf hd.zl sq hess jacz argx argz s.jac a1 a2 a3 a4
    refine ⟨d', b1, hd.step ha b2 b3 (Or.inr ?_)⟩
    rw [b10, (hs.jac _ _).1, (hs.jac _ _).2, List.length_take, List.length_take]
    have e1 := b3.wz
    have e2 := b3.wl
    omega
  obtain ⟨c1, e1, k1⟩ : ∃ c1, firstSplit s o c0 = some c1 ∧ Moved c c1 := by
    unfold firstSplit
    split_ifs
    · exact lin c c0 hwf k0 _ _ _ _ _ (hs.hess c0).2 (fun _ => (hs.hess c0).1) (hs.jacz c0).2
        (fun _ => (hs.jacz c0).1)
    · exact ⟨_, rfl, k0⟩
  obtain ⟨n1, n2, n3⟩ := hs.nz c1
  obtain ⟨c2, e2, m2, -, -⟩ := C14_monovar_multivar c1 k1.wf k1.zl (s.nz c1) n1 n2 n3
  have k2 : Moved c c2 := k1.step hwf m2.same m2.wf (monovar_zl e2 k1.zl)
  set n := Core.count (c1.x.length - c1.xl)
    (Separable (c1.x.length - c1.xl) (s.nz c1)) with hn
  have k3 := k2.eval o n
  by_cases hsp : o.split = true
  · have hsl : ∀ (A : Mat FS) (a b : ℕ), (A.slice 0 A.r a b).c = min b A.c - a := fun _ _ _ => rfl
    obtain ⟨c4, e4, k4⟩ := lin _ (buildEval o n c2) (mapLaws_wf hwf _) k3 false
      ((s.jacF (buildEval o n c2)).slice 0 (s.jacF (buildEval o n c2)).r 0
        (buildEval o n c2).x.length) (vars (buildEval o n c2))
      ((s.jacF (buildEval o n c2)).slice 0 (s.jacF (buildEval o n c2)).r
        (buildEval o n c2).x.length (s.jacF (buildEval o n c2)).c) (vars (buildEval o n c2))
      (by rw [hsl, (hs.jacF _).2]; omega) (by simp) (by rw [hsl, (hs.jacF _).2]; omega) (by simp)
    have k5 := k4.eval o n
    refine ⟨n, buildEval o n c4, fun z => evalLaw o.kind o.θ c4.x
        (buildGradient c4.H (groups c4 n) o.kind o.θ o.epsdg) (evalLaw o.kind o.θ c2.x
        (buildGradient c2.H (groups c2 n) o.kind o.θ o.epsdg) z), ?_, ?_, rfl, c4.x, _,
        k4.same.x, fun h => ?_, fun _ => ⟨c2.x, _, k2.same.x, rfl⟩⟩
    · unfold toMethod
      refine Option.bind_eq_some_iff.2 ⟨c1, e1, ?_⟩
      refine Option.bind_eq_some_iff.2 ⟨(c2, n), e2, ?_⟩
      have : explicitImplicit s (buildEval o n c2) = some c4 := e4
      simp only [lastSplit, hsp, if_true, this, Option.map_some]
    · have e : mapLaws (fun z => evalLaw o.kind o.θ c4.x
          (buildGradient c4.H (groups c4 n) o.kind o.θ o.epsdg) (evalLaw o.kind o.θ c2.x
          (buildGradient c2.H (groups c2 n) o.kind o.θ o.epsdg) z)) c =
        mapLaws (evalLaw o.kind o.θ c4.x (buildGradient c4.H (groups c4 n) o.kind o.θ o.epsdg))
          (mapLaws (evalLaw o.kind o.θ c2.x
            (buildGradient c2.H (groups c2 n) o.kind o.θ o.epsdg)) c) := by
        simp [mapLaws]
      rw [e]; exact k5
    · rw [hsp] at h; cases h
  · refine ⟨n, buildEval o n c2, _, ?_, k3, rfl, c2.x, _, k2.same.x, fun _ => rfl, fun h => absurd h hsp⟩
    unfold toMethod
    refine Option.bind_eq_some_iff.2 ⟨c1, e1, ?_⟩
    refine Option.bind_eq_some_iff.2 ⟨(c2, n), e2, ?_⟩
    simp only [lastSplit, if_neg hsp, Option.map_some]

theorem moved_wf {c c' : Core ℝ} (h : Moved c c') (o : Config) (n : ℕ) {d : List Sc}
    (hd : c'.dxH = some d) : MethWF (asMeth o n c') where
  Mr := fun e => by
    show c'.M.r = (groups c' n).x.length + c'.w.length + c'.y.length
    rw [groups_x, h.wf.Mr]; simp [tot, h.cy]
  Mc := fun e => by
    show c'.M.c = (groups c' n).x.length + c'.w.length + c'.y.length
    rw [groups_x, h.wf.Mc]; simp [tot, h.cy]
  uy := h.wf.uy
  wz := h.wf.wz
  gx := by
    show (c'.dxH.getD []).length = (groups c' n).x.length
    rw [groups_x, hd]; exact h.wf.dxH d hd
  wl := h.wf.wl
  nodup := by
    show ((groups c' n).x ++ c'.w ++ c'.y).Nodup
    rw [groups_x]
    have := h.wf.nodup
    simpa [labels, h.cy] using this

/-! ### Points at which the laws are evaluated -/

/-- The values of the symbols with the states `xs` moved by `k` times their increments. -/
noncomputable def shift (xs : List String) (k : ℝ) (e : Env ℝ) : Env ℝ :=
  fun s => if s ∈ xs then e s + k * e (dn s) else e s

/-- What a method makes of a law which depends on the states: the law in the middle of the step (at
`x + θ δx`), or the mean of its values at both ends for the trapezoidal rule. With `split=True` this is
done twice. -/
noncomputable def seen (o : Config) (xs : List String) (z : Sc) : Sc := fun e =>
  match o.kind, o.split with
  | .trapez, false => (z e + z (shift xs 1 e)) / 2
  | .trapez, true => (z e + 2 * z (shift xs 1 e) + z (shift xs 2 e)) / 4
  | _, false => z (shift xs o.θ e)
  | _, true => z (shift xs (2 * o.θ) e)

/-- A law does not depend on the symbols of the gradient. -/
def NoGrad (xs : List String) (f : Sc) : Prop :=
  ∀ e e' : Env ℝ, (∀ s, s ∉ xs.map gn → e s = e' s) → f e = f e'

/-- The symbols of the increments of the states are not names of states. -/
def StateNames (xs : List String) : Prop := ∀ x ∈ xs, dn x ∉ xs

theorem dn_gn (x y : String) : dn x ≠ gn y := by
  intro h
  have := congrArg String.toList h
  simp [dn, gn, String.toList_append] at this

theorem lookup_zip_none {xs : List String} {d : List Sc} {s : String} (h : s ∉ xs) :
    (xs.zip d).lookup s = none := by
  apply lookup_none'
  intro hh
  obtain ⟨p, hp, rfl⟩ := List.mem_map.1 hh
  exact h (List.of_mem_zip hp).1

theorem lookup_shift {xs : List String} (θ : ℝ) (s : String) (e : Env ℝ) :
    (match (xs.map fun x => (x, (fun e => e x + θ * e (dn x) : Sc))).lookup s with
      | some g => g e
      | none => e s) = shift xs θ e s := by
  unfold shift
  induction xs with
  | nil => simp
  | cons a xs ih =>
    rw [List.map_cons, List.lookup_cons]
    by_cases h : s = a
    · subst h; simp
    · have : (s == a) = false := by simpa using h
      rw [this]
      simp only [List.mem_cons, h, false_or]
      exact ih

theorem subs_shift {xs ys : List String} (hp : ys.Perm xs) {f : Sc}
    (hf : NoGrad xs f) (d : List Sc) (θ : ℝ) (e : Env ℝ) :
    subs (structSubs ys d θ) f e = f (shift xs θ e) := by
  refine hf _ _ fun s hs => ?_
  have h1 : s ∉ ys.map gn := fun h => hs ((hp.map gn).mem_iff.1 h)
  have h2 : (structSubs ys d θ).lookup s =
      (ys.map fun x => (x, (fun e => e x + θ * e (dn x) : Sc))).lookup s := by
    unfold structSubs
    rw [List.lookup_append, lookup_zip_none h1, Option.none_or]
  have h3 := lookup_shift (xs := ys) θ s e
  simp only [shift, hp.mem_iff] at h3 ⊢
  rw [← h3, h2]
  rfl

theorem shift_noGrad {xs : List String} {f : Sc} (hf : NoGrad xs f) (k : ℝ) :
    NoGrad xs fun e => f (shift xs k e) := by
  intro e e' he
  refine hf _ _ fun s hs => ?_
  have hd : dn s ∉ xs.map gn := by
    intro h
    obtain ⟨y, -, hy⟩ := List.mem_map.1 h
    exact dn_gn s y hy.symm
  simp only [shift, he s hs, he _ hd]

theorem shift_shift {xs : List String} (hn : ∀ x ∈ xs, dn x ∉ xs) (a b : ℝ) (e : Env ℝ) :
    shift xs a (shift xs b e) = shift xs (a + b) e := by
  funext s
  by_cases h : s ∈ xs
  · simp only [shift, if_pos h, if_neg (hn s h)]; ring
  · simp only [shift, if_neg h]

theorem noGrad_mean {xs : List String} {f g : Sc} (hf : NoGrad xs f) (hg : NoGrad xs g) :
    NoGrad xs fun e => 0.5 * (f e + g e) := fun e e' he => by
    show 0.5 * (f e + g e) = 0.5 * (f e' + g e')
    rw [hf e e' he, hg e e' he]

theorem eval_once {xs ys : List String} (hp : ys.Perm xs) {f : Sc}
    (hf : NoGrad xs f) (kind : Grad) (θ : ℝ) (d : List Sc) (e : Env ℝ) :
    evalLaw kind θ ys d f e =
      if kind = .trapez then 0.5 * (f e + f (shift xs 1 e)) else f (shift xs θ e) := by
  cases kind with
  | trapez =>
    show 0.5 * (f e + Scheme.subs _ f e) = _
    rw [subs_shift hp hf, if_pos rfl]
  | discret => rw [if_neg (by decide)]; exact subs_shift hp hf _ _ _
  | theta => rw [if_neg (by decide)]; exact subs_shift hp hf _ _ _

theorem eval_seen {o : Config} {xs : List String} (hn : StateNames xs) {f : Sc} (hf : NoGrad xs f)
    {ev : Sc → Sc} {ys : List String} {d : List Sc} (hy : ys.Perm xs)
    (h0 : o.split = false → ev = evalLaw o.kind o.θ ys d)
    (h1 : o.split = true → ∃ ys' d', ys'.Perm xs ∧
      ev = fun z => evalLaw o.kind o.θ ys d (evalLaw o.kind o.θ ys' d' z)) : ev f = seen o xs f := by
  funext e
  cases hsp : o.split with
  | false =>
    rw [h0 hsp, eval_once hy hf]
    unfold seen
    cases hk : o.kind <;> simp only [hsp]
    · rw [if_neg (by decide)]
    · rw [if_neg (by decide)]
    · rw [if_pos trivial]; norm_num; ring
  | true =>
    obtain ⟨ys', d', hy', rfl⟩ := h1 hsp
    show evalLaw _ _ _ _ (evalLaw _ _ _ _ f) e = _
    have e1 : evalLaw o.kind o.θ ys' d' f = fun e =>
        if o.kind = .trapez then 0.5 * (f e + f (shift xs 1 e)) else f (shift xs o.θ e) :=
      funext fun e => eval_once hy' hf _ _ _ e
    have hng : NoGrad xs (evalLaw o.kind o.θ ys' d' f) := by
      rw [e1]
      split_ifs
      · exact noGrad_mean hf (shift_noGrad hf 1)
      · exact shift_noGrad hf _
    rw [eval_once hy hng, e1]
    unfold seen
    cases hk : o.kind <;> simp only [hsp, shift_shift hn]
    · rw [if_neg (by decide), if_neg (by decide), ← two_mul]
    · rw [if_neg (by decide), if_neg (by decide), ← two_mul]
    · rw [if_pos trivial, if_pos trivial, if_pos trivial]; norm_num; ring

/-! ### Power of the evaluated laws -/

theorem subs_passive {xs : List String} {w : String} {f : Sc} (hx : w ∉ xs) (hg : w ∉ xs.map gn)
    (hf : ∀ e : Env ℝ, 0 ≤ e w * f e) (d : List Sc) (θ : ℝ) (e : Env ℝ) :
    0 ≤ e w * subs (structSubs xs d θ) f e := by
  have h := hf (fun s => match (structSubs xs d θ).lookup s with
    | some g => g e
    | none => e s)
  have hl : (structSubs xs d θ).lookup w = none := by
    unfold structSubs
    rw [List.lookup_append, lookup_zip_none hg, Option.none_or]
    apply lookup_none'
    simpa [Function.comp_def] using hx
  simp only [hl] at h
  exact h

theorem eval_passive {xs : List String} {w : String} {f : Sc} (hx : w ∉ xs) (hg : w ∉ xs.map gn)
    (hf : ∀ e : Env ℝ, 0 ≤ e w * f e) (kind : Grad) (θ : ℝ) (d : List Sc) (e : Env ℝ) :
    0 ≤ e w * evalLaw kind θ xs d f e := by
  cases kind with
  | trapez =>
    show 0 ≤ e w * (0.5 * (f e + Scheme.subs _ f e))
    have h1 := hf e
    have h2 := subs_passive hx hg hf d 1 e
    have : e w * (0.5 * (f e + Scheme.subs (structSubs xs d 1) f e)) =
      (e w * f e + e w * Scheme.subs (structSubs xs d 1) f e) / 2 := by ring
    rw [this]; positivity
  | discret => exact subs_passive hx hg hf d θ e
  | theta => exact subs_passive hx hg hf d θ e

/-- The variables of the dissipative edges are neither states nor symbols of the gradient. -/
def DissNames (edges : List (Edge ℝ)) : Prop :=
  ∀ d ∈ edges, d.type = .dissipative → ∀ d' ∈ edges, d'.type = .storage → d.label ≠ gn d'.label

/-! ### The equations of a step -/

/-- The method of a circuit with any laws: its equations, and the power they exchange. -/
theorem dyn_facts {law : String → Env ℝ → ℝ} {fuel : ℕ} {nodes : List String}
    {edges : List (Edge ℝ)} {c c2 : Core ℝ} (h : CircuitOK nodes edges c)
    (hc : toCore law fuel nodes edges c = some c2) (s : Sympy) (hs : s.OK) (o : Config) :
    ∃ (m : Meth) (ec : String → Prop) (ev : Sc → Sc), toMethod s o c2 = some m ∧ MethWF m ∧
      m.H = c.H ∧ m.fs = o.fs ∧
      m.g.x.Perm ((ofType .storage edges).map (·.label)) ∧
      m.dxH = buildGradient m.H m.g o.kind o.θ o.epsdg ∧
      (∀ d ∈ edges, (d.ctrl = .e → ec d.label) ∧ (d.ctrl = .f → ¬ ec d.label)) ∧
      (∀ e, m.Solved e ↔ ∃ E F, StepEqs (fun s => ev (law s)) nodes edges c m ec e E F) ∧
      (∀ e,
        (∀ E F, StepEqs (fun s => ev (law s)) nodes edges c m ec e E F →
          m.fs * gdot m.dxH m.g.x e + power .dissipative edges E F + power .port edges E F = 0) ∧
        ∀ E F, InputEqs (fun s => ev (law s)) nodes edges c m ec e E F →
          StepEqs (fun s => ev (law s)) nodes edges c m ec e E F) ∧
      ∃ xs d, xs.Perm ((ofType .storage edges).map (·.label)) ∧
        (o.split = false → ev = evalLaw o.kind o.θ xs d) ∧
        (o.split = true → ∃ xs' d', xs'.Perm ((ofType .storage edges).map (·.label)) ∧
          ev = fun z => evalLaw o.kind o.θ xs d (evalLaw o.kind o.θ xs' d' z)) := by
  classical
  obtain ⟨ec, hctl, hwf, hcy, hH, hskew, hx, hw, hy, heq⟩ := C63_core h hc two_ne_zero
  obtain ⟨n, c', ev, hm, hk, hdx, xs, d, hxs, hev⟩ := toMethod_moved s hs o c2 hwf hcy
  have hmw := moved_wf hk o n hdx
  have hw2 : ((mapLaws ev c2).w.zip (mapLaws ev c2).z).Perm ((ofType .dissipative edges).map fun d =>
      (d.label, (fun s => ev (law s)) (if ec d.label then d.ze else d.zf))) := by
    have := hw.map (Prod.map id ev)
    rw [← List.zip_map_right, List.map_map] at this
    exact this
  obtain ⟨f1, -, f3, f4⟩ := step_facts_of (law := fun s => ev (law s)) (c := c) (mapLaws_wf hwf ev) hcy
    hskew hx hw2 hy heq hk.same hk.wf hk.cy o n hmw
  refine ⟨_, ec, ev, hm, hmw, hk.same.H.trans hH, rfl, f1, ?_, hctl, f3, f4, xs, d, hxs.trans hx,
    hev.1, fun hsp => ?_⟩
  · show c'.dxH.getD [] = _
    rw [hdx]; rfl
  · obtain ⟨xs', d', h1, h2⟩ := hev.2 hsp
    exact ⟨xs', d', h1.trans hx, h2⟩

theorem ev_passive {law : String → Env ℝ → ℝ} {edges : List (Edge ℝ)}
    (hl : (edges.map (·.label)).Nodup) (hn : DissNames edges) (hp : PassiveLaws law edges)
    {o : Config} {ev : Sc → Sc} {xs : List String} {d : List Sc}
    (hx : xs.Perm ((ofType .storage edges).map (·.label)))
    (h0 : o.split = false → ev = evalLaw o.kind o.θ xs d)
    (h1 : o.split = true → ∃ xs' d', xs'.Perm ((ofType .storage edges).map (·.label)) ∧
      ev = fun z => evalLaw o.kind o.θ xs d (evalLaw o.kind o.θ xs' d' z)) :
    PassiveLaws (fun s => ev (law s)) edges := by
  intro a ha ht
  have key : ∀ ys : List String, ys.Perm ((ofType .storage edges).map (·.label)) →
      a.label ∉ ys ∧ a.label ∉ ys.map gn := by
    intro ys hy
    refine ⟨fun hh => ?_, fun hh => ?_⟩
    · obtain ⟨b, hb, e⟩ := List.mem_map.1 (hy.mem_iff.1 hh)
      obtain ⟨b1, b2⟩ := mem_ofType.1 hb
      have := List.inj_on_of_nodup_map hl b1 ha e
      rw [this, ht] at b2; cases b2
    · obtain ⟨y, hy', e⟩ := List.mem_map.1 hh
      obtain ⟨b, hb, rfl⟩ := List.mem_map.1 (hy.mem_iff.1 hy')
      obtain ⟨b1, b2⟩ := mem_ofType.1 hb
      exact hn a ha ht b b1 b2 e.symm
  have ev1 : ∀ f : Sc, (∀ e : Env ℝ, 0 ≤ e a.label * f e) → ∀ e : Env ℝ, 0 ≤ e a.label * ev f e := by
    intro f hf e
    cases hsp : o.split with
    | false =>
      rw [h0 hsp]
      exact eval_passive (key xs hx).1 (key xs hx).2 hf _ _ _ e
    | true =>
      obtain ⟨xs', d', hx', rfl⟩ := h1 hsp
      exact eval_passive (key xs hx).1 (key xs hx).2
        (eval_passive (key xs' hx').1 (key xs' hx').2 hf _ _ _) _ _ _ e
  intro e
  exact ⟨ev1 _ (fun e => (hp a ha ht e).1) e, ev1 _ (fun e => (hp a ha ht e).2) e⟩

theorem StepEqs.congr {law law' : String → Env ℝ → ℝ} {nodes : List String} {edges : List (Edge ℝ)}
    {c : Core ℝ} {m : Meth} {ec : String → Prop} {e : Env ℝ} {E F : String → ℝ}
    (hl : ∀ d ∈ edges, d.type = .dissipative → law d.ze e = law' d.ze e ∧ law d.zf e = law' d.zf e)
    (h : StepEqs law nodes edges c m ec e E F) : StepEqs law' nodes edges c m ec e E F :=
  ⟨h.net, h.stor, fun d hd ht => by
    rw [← (hl d hd ht).1, ← (hl d hd ht).2]; exact h.diss d hd ht, h.port⟩

theorem InputEqs.congr {law law' : String → Env ℝ → ℝ} {nodes : List String} {edges : List (Edge ℝ)}
    {c : Core ℝ} {m : Meth} {ec : String → Prop} {e : Env ℝ} {E F : String → ℝ}
    (hl : ∀ d ∈ edges, d.type = .dissipative → law d.ze e = law' d.ze e ∧ law d.zf e = law' d.zf e)
    (h : InputEqs law nodes edges c m ec e E F) : InputEqs law' nodes edges c m ec e E F :=
  ⟨h.net, h.stor, fun d hd ht => by
    rw [← (hl d hd ht).1, ← (hl d hd ht).2]; exact h.diss d hd ht, h.port⟩

end Circuit
end Pyphs
