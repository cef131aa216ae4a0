/-
Property C66: what a method classifies as explicit is explicit.
-/
import Verif.Circuit.ClassifyRows

namespace Pyphs
namespace Circuit
open Scheme Core Graph Finset

/-! ### Differentiability -/

theorem CDiff.of_indep {f : Sc} {y : String} (h : Indep f y) : CDiff f y := fun e => by
  simp only [h e]
  exact differentiable_const _

theorem cdiff_symb (s y : String) : CDiff (fun e => e s) y := (Aff.symb (V := []) s).diff.1

theorem CDiff.add' {f g : Sc} {y : String} (hf : CDiff f y) (hg : CDiff g y) :
    CDiff (fun e => f e + g e) y := fun e => (hf e).add (hg e)

theorem CDiff.sub' {f g : Sc} {y : String} (hf : CDiff f y) (hg : CDiff g y) :
    CDiff (fun e => f e - g e) y := fun e => (hf e).sub (hg e)

theorem CDiff.cmul' {f : Sc} {y : String} (c : ℝ) (hf : CDiff f y) :
    CDiff (fun e => c * f e) y := fun e => (hf e).const_mul c

theorem CDiff.sum' {ι : Type} {l : List ι} {f : ι → Sc} {y : String}
    (h : ∀ p ∈ l, CDiff (f p) y) : CDiff (fun e => (l.map fun p => f p e).sum) y := by
  induction l with
  | nil => intro e; simp
  | cons p l ih =>
    have := CDiff.add' (h p (by simp)) (ih fun q hq => h q (by simp [hq]))
    refine cast (congrFun (congrArg _ (funext fun e => ?_)) _) this
    simp

theorem cdiff_rowRes {c : Core ℝ} {fs : ℝ} {d : List Sc} {l y : String}
    (hd : ∀ f ∈ d, CDiff f y) (hz : ∀ f ∈ c.z, CDiff f y) : CDiff (rowRes c fs d l) y := by
  unfold rowRes
  refine CDiff.sub' (CDiff.sub' (CDiff.sub' ?_ ?_) ?_) ?_
  · split_ifs
    · exact CDiff.cmul' _ (cdiff_symb _ _)
    · exact cdiff_symb _ _
  · exact CDiff.sum' fun p hp => CDiff.cmul' _ (hd _ (List.of_mem_zip hp).2)
  · exact CDiff.sum' fun p hp => CDiff.cmul' _ (hz _ (List.of_mem_zip hp).2)
  · exact CDiff.sum' fun p _ => CDiff.cmul' _ (cdiff_symb _ _)

theorem aff_rowRes {V : List String} {c : Core ℝ} {fs : ℝ} {d : List Sc} {l y : String}
    (hd : ∀ f ∈ d, Aff V y f) (hz : ∀ f ∈ c.z, Aff V y f) : Aff V y (rowRes c fs d l) := by
  unfold rowRes
  refine Aff.sub (Aff.sub (Aff.sub ?_ ?_) ?_) ?_
  · exact Aff.ite (Aff.cmul _ (Aff.symb _)) (Aff.symb _)
  · exact Aff.sum fun p hp => Aff.cmul _ (hd _ (List.of_mem_zip hp).2)
  · exact Aff.sum fun p hp => Aff.cmul _ (hz _ (List.of_mem_zip hp).2)
  · exact Aff.sum fun p _ => Aff.cmul _ (Aff.symb _)

/-! ### What is asked from the system -/

/-- The names of states, increments and dissipation variables are distinct; the energy is a
function of the states, twice differentiable; the laws do not depend on the increments and are
differentiable. -/
structure Regular (c : Core ℝ) : Prop where
  nodup : (c.x ++ c.x.map dn ++ c.w).Nodup
  H : ∀ v ∈ vars c, Indep c.H v
  H2 : ∀ x ∈ c.x, ∀ s ∈ c.x, CDiff (pdiff c.H x) s
  z : ∀ f ∈ c.z, ∀ x ∈ c.x, Indep f (dn x)
  zw : ∀ f ∈ c.z, ∀ w ∈ c.w, CDiff f w

theorem vars_perm {c c' : Core ℝ} (h : SameSystem c c') (hw : WF c) (hw' : WF c') :
    (vars c').Perm (vars c) := by
  have : c'.w.Perm c.w := by
    have := h.laws.map Prod.fst
    rwa [List.map_fst_zip (by rw [hw'.wz]), List.map_fst_zip (by rw [hw.wz])] at this
  exact (h.x.map dn).append this

theorem w_perm {c c' : Core ℝ} (h : SameSystem c c') (hw : WF c) (hw' : WF c') :
    c'.w.Perm c.w := by
  have := h.laws.map Prod.fst
  rwa [List.map_fst_zip (by rw [hw'.wz]), List.map_fst_zip (by rw [hw.wz])] at this

theorem Regular.of_kept {c c' : Core ℝ} (h : Regular c) (hc : Ready c) (k : Kept c c') :
    Regular c' where
  nodup := by
    refine (List.Perm.nodup_iff ?_).2 h.nodup
    exact (k.same.x.append (k.same.x.map dn)).append (w_perm k.same hc.wf k.wf)
  H := fun v hv => by
    rw [k.same.H]; exact h.H v ((vars_perm k.same hc.wf k.wf).mem_iff.1 hv)
  H2 := fun x hx s hs => by
    rw [k.same.H]; exact h.H2 x (k.same.x.mem_iff.1 hx) s (k.same.x.mem_iff.1 hs)
  z := fun f hf x hx => h.z f (mem_of_zip_perm k.same k.wf hf) x (k.same.x.mem_iff.1 hx)
  zw := fun f hf w hw => h.zw f (mem_of_zip_perm k.same k.wf hf) w
    ((w_perm k.same hc.wf k.wf).mem_iff.1 hw)

theorem dn_inj {a b : String} (h : dn a = dn b) : a = b := by
  unfold dn at h
  have := congrArg String.toList h
  simp only [String.toList_append] at this
  exact String.toList_injective (List.append_cancel_left this)

/-- The symbols that sympy finds in the Jacobian of the implicit equations contain the ones on
which its entries depend. -/
def JacSound (s : Sympy) (o : Config) (c : Core ℝ) : Prop :=
  ∀ n c', Kept c c' → c'.dxH = some (buildGradient c'.H (groups c' n) o.kind o.θ o.epsdg) →
    ∀ i < (s.jacF c').r, ∀ j < (s.jacF c').c, ∀ k, k ∉ (s.jacF c').e i j →
      Indep (pdiff ((asMeth o n c').F .all i) ((vars c').getD j "")) k

/-! ### Gradients of the methods -/

theorem indep_buildGradient {c : Core ℝ} (h : Regular c) (n : ℕ) (o : Config) {w : String}
    (hw : w ∈ c.w) : ∀ f ∈ buildGradient c.H (groups c n) o.kind o.θ o.epsdg, Indep f w := by
  have hH : Indep c.H w := h.H w (by simp [vars, hw])
  have hnd := h.nodup
  rw [List.nodup_append] at hnd
  have hx : w ∉ c.x := fun hh => hnd.2.2 w (by simp [hh]) w hw rfl
  have hd : w ∉ c.x.map dn := fun hh => hnd.2.2 w (List.mem_append_right _ hh) w hw rfl
  have hgx := groups_x (c := c) n
  have sub : ∀ l : List String, (∀ s ∈ l, s ∈ c.x) → w ∉ l ∧ w ∉ l.map dn := fun l hl =>
    ⟨fun hh => hx (hl w hh), fun hh => by
      obtain ⟨s, hs, he⟩ := List.mem_map.1 hh
      exact hd (he ▸ List.mem_map_of_mem (hl s hs))⟩
  have m1 : ∀ s ∈ (groups c n).mono, s ∈ c.x := fun s hs => by
    rw [← hgx]; simp [Groups.x, hs]
  have m2 : ∀ s ∈ (groups c n).multi, s ∈ c.x := fun s hs => by
    rw [← hgx]; simp [Groups.x, hs]
  have m0 : ∀ s ∈ (groups c n).xl, s ∈ c.x := fun s hs => by
    rw [← hgx]; simp [Groups.x, hs]
  intro f hf
  unfold buildGradient at hf
  split at hf
  · rw [List.mem_append, List.mem_append] at hf
    rcases hf with (hf | hf) | hf
    · exact indep_gradLin hH (sub _ m0).1 (sub _ m0).2 f hf
    · exact indep_gradMono hH (sub _ m1).1 (sub _ m1).2 f hf
    · exact indep_gradMulti hH (sub _ m2).1 (sub _ m2).2 f hf
  · rw [hgx] at hf; exact indep_gradTheta hH hx hd f hf
  · rw [hgx] at hf; exact indep_gradTrapez hH hx hd f hf

theorem aff_discrete {c : Core ℝ} (h : Regular c) (n : ℕ) (o : Config) {s : String}
    (ho : o.kind = .discret) (hs : s ∈ (groups c n).xl) :
    ∀ f ∈ buildGradient c.H (groups c n) o.kind o.θ o.epsdg, Aff (vars c) (dn s) f := by
  have hgx := groups_x (c := c) n
  have m0 : ∀ s ∈ (groups c n).xl, s ∈ c.x := fun s hs => by
    rw [← hgx]; simp [Groups.x, hs]
  have hv : dn s ∈ vars c := List.mem_append_left _ (List.mem_map_of_mem (m0 s hs))
  have hH := h.H _ hv
  have hnd := h.nodup
  rw [List.nodup_append, List.nodup_append] at hnd
  have hxd : ∀ l : List String, (∀ r ∈ l, r ∈ c.x) → dn s ∉ l := fun l hl hh =>
    hnd.1.2.2 _ (hl _ hh) _ (List.mem_map_of_mem (m0 s hs)) rfl
  have hx0 : ((groups c n).xl ++ (groups c n).mono ++ (groups c n).multi).Nodup := by
    have := hnd.1.1
    rwa [← hgx] at this
  rw [List.append_assoc, List.nodup_append] at hx0
  have hdd : ∀ l : List String, (∀ r ∈ l, r ∈ (groups c n).mono ++ (groups c n).multi) →
      dn s ∉ l.map dn := fun l hl hh => by
    obtain ⟨r, hr, he⟩ := List.mem_map.1 hh
    exact hx0.2.2 s hs r (hl r hr) (dn_inj he).symm
  have m1 : ∀ s ∈ (groups c n).mono, s ∈ c.x := fun s hs => by
    rw [← hgx]; simp [Groups.x, hs]
  have m2 : ∀ s ∈ (groups c n).multi, s ∈ c.x := fun s hs => by
    rw [← hgx]; simp [Groups.x, hs]
  intro f hf
  rw [ho] at hf
  simp only [buildGradient, List.mem_append] at hf
  rcases hf with (hf | hf) | hf
  · exact aff_gradLin hH h.H f hf
  · exact .of_indep (indep_gradMono hH (hxd _ m1) (hdd _ fun r hr => by simp [hr]) f hf)
  · exact .of_indep (indep_gradMulti hH (hxd _ m2) (hdd _ fun r hr => by simp [hr]) f hf)

theorem cdiff_subs_shift {f : Sc} {xs : List String} {θ : ℝ} {s : String}
    (h : CDiff f s) (hi : Indep f (dn s)) (hs : s ∈ xs) (hx : dn s ∉ xs) :
    CDiff (subs (shift xs θ) f) (dn s) := by
  intro e
  have hne : s ≠ dn s := fun hh => hx (hh ▸ hs)
  have key : ∀ t, subs (shift xs θ) f (Function.update e (dn s) t) =
      f (Function.update (moved e (fun s => θ * incr e s) xs) s (e s + θ * t)) := by
    intro t
    rw [Scheme.subs_shift]
    rw [← hi (Function.update (moved e (fun s => θ * incr e s) xs) s (e s + θ * t)) t]
    congr 1
    funext r
    by_cases h1 : r = dn s
    · subst h1
      simp [moved, hx]
    · rw [Function.update_of_ne h1]
      by_cases h2 : r = s
      · subst h2
        simp [moved, hs, incr, Function.update_of_ne hne]
      · rw [Function.update_of_ne h2]
        have h3 : dn r ≠ dn s := fun hh => h2 (dn_inj hh)
        simp [moved, incr, Function.update_of_ne h1, Function.update_of_ne h3]
  have : (fun t => subs (shift xs θ) f (Function.update e (dn s) t)) =
      (fun t => f (Function.update (moved e (fun s => θ * incr e s) xs) s t)) ∘
        fun t => e s + θ * t := funext key
  rw [this]
  refine (h _).comp ?_
  fun_prop

theorem cdiff_other {c : Core ℝ} (h : Regular c) (n : ℕ) (o : Config) {s : String}
    (ho : o.kind ≠ .discret) (hs : s ∈ c.x) :
    ∀ f ∈ buildGradient c.H (groups c n) o.kind o.θ o.epsdg, CDiff f (dn s) := by
  have hgx := groups_x (c := c) n
  have hv : dn s ∈ vars c := List.mem_append_left _ (List.mem_map_of_mem hs)
  have hH := h.H _ hv
  have hnd := h.nodup
  rw [List.nodup_append, List.nodup_append] at hnd
  have hx : dn s ∉ c.x := fun hh => hnd.1.2.2 _ hh _ (List.mem_map_of_mem hs) rfl
  intro f hf
  unfold buildGradient at hf
  split at hf
  · exact absurd (by assumption) ho
  · rw [hgx] at hf
    obtain ⟨g, hg, rfl⟩ := List.mem_map.1 hf
    obtain ⟨x, hxm, rfl⟩ := List.mem_map.1 hg
    exact cdiff_subs_shift (h.H2 x hxm s hs) (indep_pdiff hH) hs hx
  · rw [hgx] at hf
    obtain ⟨g, hg, rfl⟩ := List.mem_map.1 hf
    obtain ⟨x, hxm, rfl⟩ := List.mem_map.1 hg
    exact CDiff.cmul' _ (CDiff.add' (CDiff.of_indep (indep_pdiff hH))
      (cdiff_subs_shift (h.H2 x hxm s hs) (indep_pdiff hH) hs hx))

theorem subs_shift_perm {xs ys : List String} (h : ys.Perm xs) (θ : ℝ) :
    subs (shift ys θ) = subs (shift xs θ) := by
  funext f e
  rw [Scheme.subs_shift, Scheme.subs_shift]
  congr 1
  funext s
  simp only [moved, h.mem_iff]

/-- The gradient of a scheme other than the discrete gradient does not depend on the order of the
states. -/
theorem gradient_perm {c c' : Core ℝ} (h : SameSystem c c') (n n' : ℕ) (o : Config)
    (ho : o.kind ≠ .discret) :
    (c'.x.zip (buildGradient c'.H (groups c' n') o.kind o.θ o.epsdg)).Perm
      (c.x.zip (buildGradient c.H (groups c n) o.kind o.θ o.epsdg)) := by
  have key : ∃ G : String → Sc, ∀ xs : List String, xs.Perm c.x → ∀ g : Groups, g.x = xs →
      buildGradient c.H g o.kind o.θ o.epsdg = xs.map G := by
    cases hk : o.kind with
    | discret => exact absurd hk ho
    | theta =>
      refine ⟨fun x => subs (shift c.x o.θ) (pdiff c.H x), fun xs hp g hg => ?_⟩
      subst hg
      simp only [buildGradient, gradTheta, gradient, List.map_map, subs_shift_perm hp]
      rfl
    | trapez =>
      refine ⟨fun x e => 0.5 * (pdiff c.H x e + subs (shift c.x 1) (pdiff c.H x) e),
        fun xs hp g hg => ?_⟩
      subst hg
      simp only [buildGradient, gradTrapez, gradient, List.map_map, subs_shift_perm hp]
      rfl
  obtain ⟨G, hG⟩ := key
  rw [h.H, hG _ h.x _ (groups_x n'), hG _ (List.Perm.refl _) _ (groups_x n)]
  have : ∀ xs : List String, xs.zip (xs.map G) = xs.map fun x => (x, G x) := fun xs => by
    induction xs with
    | nil => rfl
    | cons a xs ih => simp [ih]
  rw [this, this]
  exact h.x.map _

/-! ### The splitting -/

theorem mem_take_stable {l : List String} {p : ℕ → Prop} [DecidablePred p] {s : String}
    (h : s ∈ (pick (stable l.length p) l).take (Core.count l.length p)) :
    ∃ k < l.length, p k ∧ l.getD k "" = s := by
  unfold stable at h
  rw [pick_append] at h
  have hlen : (pick ((List.range l.length).filter fun k => decide (p k)) l).length =
      Core.count l.length p := by
    rw [pick_length fun k hk => List.mem_range.1 (List.mem_filter.1 hk).1, Core.count,
      List.countP_eq_length_filter]
  rw [← hlen, List.take_left] at h
  obtain ⟨k, hk, he⟩ := List.mem_filterMap.1 h
  obtain ⟨h1, h2⟩ := List.mem_filter.1 hk
  refine ⟨k, List.mem_range.1 h1, of_decide_eq_true h2, ?_⟩
  rw [List.getD_eq_getElem?_getD, he]
  rfl

/-- The steps of the construction of a method. -/
theorem toMethod_trace (s : Sympy) (hs : s.OK) (o : Config) (c : Core ℝ) (hc : Ready c) :
    ∃ n c', toMethod s o c = some (asMeth o n c') ∧ Kept c c' ∧
      c'.dxH = some (buildGradient c'.H (groups c' n) o.kind o.θ o.epsdg) ∧
      (o.split = false → c'.xl = 0 ∧ c'.wl = 0) ∧
      (o.split = true → ∃ c3, Kept c c3 ∧ SameSystem c3 c' ∧
        c3.dxH = some (buildGradient c3.H (groups c3 n) o.kind o.θ o.epsdg) ∧
        (∀ x ∈ c'.x.take c'.xl, ∃ k < c3.x.length, c3.x.getD k "" = x ∧
          ColIndep (s.jacF c3) (vars c3) k) ∧
        (∀ w ∈ c'.w.take c'.wl, ∃ k < c3.w.length, c3.w.getD k "" = w ∧
          ColIndep (s.jacF c3) (vars c3) (c3.x.length + k))) := by
  set c0 : Core ℝ := reset c with h0
  have k0 : Kept c c0 := by
    refine ⟨⟨List.Perm.refl _, List.Perm.refl _, List.Perm.refl _, List.Perm.refl _, rfl, rfl,
      fun _ _ _ _ => rfl, fun _ _ => Iff.rfl⟩, ?_, Or.inr ⟨?_, ?_⟩, hc.static, hc.cy⟩
    · exact ⟨hc.wf.Mr, hc.wf.Mc, hc.wf.uy, hc.wf.cucy, hc.wf.wz, hc.wf.dxH, Nat.zero_le _,
        Nat.zero_le _, hc.wf.nodup⟩
    · simp [h0, reset, Mat.slice]
    · simp [h0, reset, Mat.slice]
  have lin : ∀ (d : Core ℝ), Kept c d → ∀ sq hess argx jacz argz, hess.c = d.x.length →
      (sq = true → hess.r = d.x.length) → jacz.c = d.w.length →
      (sq = true → jacz.r = d.w.length) →
      ∃ d', d.linearNonlinear sq hess argx jacz argz s.jac = some d' ∧ Kept c d' ∧
        SameSystem d d' ∧
        (∀ x ∈ d'.x.take d'.xl, ∃ k < d.x.length, ColIndep hess argx k ∧ d.x.getD k "" = x) ∧
        (∀ w ∈ d'.w.take d'.wl, ∃ k < d.w.length, ColIndep jacz argz k ∧ d.w.getD k "" = w) := by
    intro d hd sq hess argx jacz argz a1 a2 a3 a4
    obtain ⟨d', b1, b2, b3, b4, -, b6, -, b8, b9, b10, -⟩ :=
      C13_linear_nonlinear d hd.wf hd.zl sq hess jacz argx argz s.jac a1 a2 a3 a4
    refine ⟨d', b1, hd.trans hc.wf (Kept.of_same hd.ready b2 b3 (Or.inr ?_)), b2, ?_, ?_⟩
    · rw [b10, (hs.jac _ _).1, (hs.jac _ _).2, List.length_take, List.length_take]
      have e1 := b3.wz
      have e2 := b3.wl
      omega
    · intro x hx
      rw [b4, b8] at hx
      exact mem_take_stable hx
    · intro x hx
      rw [b6, b9] at hx
      exact mem_take_stable hx
  obtain ⟨c1, e1, k1, z1⟩ : ∃ c1, firstSplit s o c0 = some c1 ∧ Kept c c1 ∧
      (o.split = false → c1.xl = 0 ∧ c1.wl = 0) := by
    unfold firstSplit
    split_ifs with hh
    · obtain ⟨d, d1, d2, -⟩ := lin c0 k0 true (s.hess c0) (c0.x ++ c0.x.map dn ++ c0.w)
        (s.jacz c0) (vars c0) (hs.hess c0).2 (fun _ => (hs.hess c0).1) (hs.jacz c0).2
        (fun _ => (hs.jacz c0).1)
      exact ⟨d, d1, d2, fun h => by simp [hh] at h⟩
    · exact ⟨_, rfl, k0, fun _ => ⟨rfl, rfl⟩⟩
  obtain ⟨n1, n2, n3⟩ := hs.nz c1
  obtain ⟨c2, e2, m2, x2, -⟩ := C14_monovar_multivar c1 k1.wf k1.zl (s.nz c1) n1 n2 n3
  have k2 : Kept c c2 := k1.trans hc.wf
    (Kept.of_same k1.ready m2.same m2.wf (monovar_zl e2 k1.zl))
  set n := Core.count (c1.x.length - c1.xl)
    (Separable (c1.x.length - c1.xl) (s.nz c1)) with hn
  obtain ⟨k3, d3, -⟩ := k2.eval o n
  by_cases hsp : o.split = true
  · have hsl : ∀ (A : Mat FS) (a b : ℕ), (A.slice 0 A.r a b).c = min b A.c - a := fun _ _ _ => rfl
    set c3 := buildEval o n c2 with hc3
    obtain ⟨c4, e4, k4, s4, l4, w4⟩ := lin c3 k3 false
      ((s.jacF c3).slice 0 (s.jacF c3).r 0 c3.x.length) (vars c3)
      ((s.jacF c3).slice 0 (s.jacF c3).r c3.x.length (s.jacF c3).c) (vars c3)
      (by rw [hsl, (hs.jacF _).2]; omega) (by simp) (by rw [hsl, (hs.jacF _).2]; omega) (by simp)
    obtain ⟨k5, d5, z5⟩ := k4.eval o n
    refine ⟨n, buildEval o n c4, ?_, k5, d5, fun h => by simp [hsp] at h, fun _ =>
      ⟨c3, k3, ?_, d3, fun x hx => ?_, fun w hw => ?_⟩⟩
    · unfold toMethod
      refine Option.bind_eq_some_iff.2 ⟨c1, e1, ?_⟩
      refine Option.bind_eq_some_iff.2 ⟨(c2, n), e2, ?_⟩
      have : explicitImplicit s c3 = some c4 := e4
      simp only [lastSplit, hsp, if_true, ← hc3, this, Option.map_some]
    · refine ⟨s4.x, ?_, s4.ports, s4.conns, s4.H, s4.connectors, s4.coef, s4.eqs⟩
      rw [z5]; exact s4.laws
    · obtain ⟨k, hk, hci, he⟩ := l4 x hx
      refine ⟨k, hk, he, fun i hi => ?_⟩
      have := hci i (by simpa [Mat.slice] using hi)
      simpa [Mat.slice] using this
    · obtain ⟨k, hk, hci, he⟩ := w4 w hw
      refine ⟨k, hk, he, fun i hi => ?_⟩
      have := hci i (by simpa [Mat.slice] using hi)
      simpa [Mat.slice] using this
  · have hf : o.split = false := by simpa using hsp
    refine ⟨n, buildEval o n c2, ?_, k3, d3, fun _ => ?_, fun h => absurd h hsp⟩
    · unfold toMethod
      refine Option.bind_eq_some_iff.2 ⟨c1, e1, ?_⟩
      refine Option.bind_eq_some_iff.2 ⟨(c2, n), e2, ?_⟩
      simp only [lastSplit, if_neg hsp, Option.map_some]
    · exact ⟨x2.trans (z1 hf).1, m2.dims.2.2.2.2.trans (z1 hf).2⟩

/-- The equations of a split method are affine in every unknown classified as linear. -/
theorem split_aff {s : Sympy} (hs : s.OK) {o : Config} {c c3 c' : Core ℝ} (hc : Ready c)
    (hr : Regular c) (hj : JacSound s o c) {n : ℕ} (k3 : Kept c c3) (k' : Kept c c')
    (h3 : SameSystem c3 c')
    (d3 : c3.dxH = some (buildGradient c3.H (groups c3 n) o.kind o.θ o.epsdg))
    (d' : c'.dxH = some (buildGradient c'.H (groups c' n) o.kind o.θ o.epsdg))
    (hx : ∀ x ∈ c'.x.take c'.xl, ∃ k < c3.x.length, c3.x.getD k "" = x ∧
      ColIndep (s.jacF c3) (vars c3) k)
    (hw : ∀ w ∈ c'.w.take c'.wl, ∃ k < c3.w.length, c3.w.getD k "" = w ∧
      ColIndep (s.jacF c3) (vars c3) (c3.x.length + k))
    {l : String} (hl : l ∈ c'.x ++ c'.w) {y : String}
    (hy : y ∈ (c'.x.take c'.xl).map dn ++ c'.w.take c'.wl) :
    Aff (vars c') y
      (rowRes c' o.fs (buildGradient c'.H (groups c' n) o.kind o.θ o.epsdg) l) := by
  have r3 := hr.of_kept hc k3
  have r' := hr.of_kept hc k'
  have hvp := vars_perm h3 k3.wf k'.wf
  have hwp := w_perm h3 k3.wf k'.wf
  have hl3 : l ∈ c3.x ++ c3.w := (h3.x.append hwp).mem_iff.1 hl
  obtain ⟨i, hi, hF⟩ := row_F k3 d3 o n hl3
  have hir : i < (s.jacF c3).r := by rw [(hs.jacF c3).1]; exact hi
  set D3 := buildGradient c3.H (groups c3 n) o.kind o.θ o.epsdg with hD3
  set D' := buildGradient c'.H (groups c' n) o.kind o.θ o.epsdg with hD'
  have ind : ∀ k < c3.x.length + c3.w.length, ColIndep (s.jacF c3) (vars c3) k →
      ∀ v ∈ vars c', Indep (pdiff (rowRes c3 o.fs D3 l) ((vars c3).getD k "")) v := by
    intro k hk hci v hv
    have := hj n c3 k3 d3 i hir k (by rw [(hs.jacF c3).2]; exact hk) v
      (fun hh => hci i hir v hh (hvp.mem_iff.1 hv))
    rwa [hF] at this
  have hrel : ∀ e, rowRes c' o.fs D' l e = rowRes c3 o.fs D3 l e +
      ((c3.x.zip D3).map fun p => coef c3 l p.1 * p.2 e).sum -
      ((c'.x.zip D').map fun p => coef c' l p.1 * p.2 e).sum := fun e => by
    have := rowRes_same h3 o.fs D3 D' hl3 e
    linarith
  rcases List.mem_append.1 hy with hy | hy
  · -- an increment
    obtain ⟨x, hxm, rfl⟩ := List.mem_map.1 hy
    have hxc : x ∈ c'.x := List.mem_of_mem_take hxm
    by_cases hk : o.kind = .discret
    · refine aff_rowRes (aff_discrete r' n o hk ?_) fun f hf => .of_indep (r'.z f hf x hxc)
      exact hxm
    · obtain ⟨k, hkl, rfl, hci⟩ := hx x hxm
      have hvk : (vars c3).getD k "" = dn (c3.x.getD k "") := by
        unfold vars
        rw [getD_append_left' _ _ (by simpa using hkl), List.getD_eq_getElem?_getD,
          List.getElem?_map, List.getElem?_eq_getElem hkl, List.getD_eq_getElem?_getD,
          List.getElem?_eq_getElem hkl]
        rfl
      have hI := ind k (by omega) hci
      rw [hvk] at hI
      have hA : Aff (vars c') (dn (c3.x.getD k "")) (rowRes c3 o.fs D3 l) := by
        refine Aff.of_diff (cdiff_rowRes (cdiff_other r3 n o hk (getD_mem' _ hkl)) ?_)
          (hvp.mem_iff.2 ?_) hI
        · exact fun f hf => CDiff.of_indep (r3.z f hf _ (getD_mem' _ hkl))
        · exact List.mem_append_left _ (List.mem_map_of_mem (getD_mem' _ hkl))
      have he : rowRes c' o.fs D' l = rowRes c3 o.fs D3 l := by
        funext e
        rw [hrel]
        have hsum : ((c'.x.zip D').map fun p => coef c' l p.1 * p.2 e).sum =
            ((c3.x.zip D3).map fun p => coef c3 l p.1 * p.2 e).sum := by
          rw [((gradient_perm h3 n n o hk).map _).sum_eq]
          congr 1
          refine List.map_congr_left fun p hp => ?_
          rw [h3.coef l]
          · unfold labels; rw [List.append_assoc]; exact List.mem_append_left _ hl3
          · have := (List.of_mem_zip hp).1
            simp [labels, this]
        rw [hsum]; ring
      rw [he]; exact hA
  · -- a dissipation variable
    have hyc : y ∈ c'.w := List.mem_of_mem_take hy
    have hyc3 : y ∈ c3.w := hwp.mem_iff.1 hyc
    obtain ⟨k, hkl, hye, hci⟩ := hw y hy
    have hvk : (vars c3).getD (c3.x.length + k) "" = y := by
      unfold vars
      rw [getD_append_right' _ _ (by simp), List.length_map, Nat.add_sub_cancel_left]
      exact hye
    have hI := ind (c3.x.length + k) (by omega) hci
    rw [hvk] at hI
    have i3 := indep_buildGradient r3 n o hyc3
    have i' := indep_buildGradient r' n o hyc
    have hA : Aff (vars c') y (rowRes c3 o.fs D3 l) :=
      Aff.of_diff (cdiff_rowRes (fun f hf => CDiff.of_indep (i3 f hf))
        fun f hf => r3.zw f hf y hyc3) (hvp.mem_iff.2 (List.mem_append_right _ hyc3)) hI
    rw [show rowRes c' o.fs D' l = _ from funext hrel]
    refine Aff.sub (Aff.add hA ?_) ?_
    · exact Aff.sum fun p hp => Aff.cmul _ (.of_indep (i3 _ (List.of_mem_zip hp).2))
    · exact Aff.sum fun p hp => Aff.cmul _ (.of_indep (i' _ (List.of_mem_zip hp).2))

/-- The splitting is exact; nothing is asked from sympy when the method does not split. -/
theorem split_exact (s : Sympy) (hs : s.OK) (o : Config) (c : Core ℝ) (hc : Ready c)
    (hr : Regular c) (hj : o.split = true → JacSound s o c) {m : Meth} (hm : toMethod s o c = some m) :
    MethWF m ∧ SplitOK m := by
  obtain ⟨n, c', e, k', d', z', t'⟩ := toMethod_trace s hs o c hc
  rw [e] at hm
  obtain rfl := Option.some.inj hm
  have hgx : (asMeth o n c').g.x = c'.x := groups_x n
  have r' := hr.of_kept hc k'
  have hall : (asMeth o n c').v .all = vars c' := by
    simp only [Meth.v, Sfx.pick, hgx]; rfl
  have hxl : (asMeth o n c').g.xl.length = c'.xl := by
    show (c'.x.take c'.xl).length = _
    rw [List.length_take]; exact min_eq_left k'.wf.xl
  have hlin : (asMeth o n c').v .l = (c'.x.take c'.xl).map dn ++ c'.w.take c'.wl := by
    simp only [Meth.v, Sfx.pick, hgx, hxl]; rfl
  have key : ∀ a, ∀ i < ((asMeth o n c').v a).length, ∀ y ∈ (asMeth o n c').v .l,
      Aff (vars c') y ((asMeth o n c').F a i) := by
    intro a i hi y hy
    rw [hlin] at hy
    cases hsp : o.split with
    | false =>
      obtain ⟨z1, z2⟩ := z' hsp
      rw [z1, z2] at hy
      simp at hy
    | true =>
      obtain ⟨c3, k3, s3, d3, hx, hw⟩ := t' hsp
      obtain ⟨l, hl, he⟩ := F_row k' d' o n a hi
      rw [he]
      exact split_aff hs hc hr (hj hsp) k3 k' s3 d3 d' hx hw hl hy
  refine ⟨asMeth_wf k' o n d', ⟨?_, fun a _ i hi y hy => (key a i hi y hy).diff.1,
    fun a _ i hi y hy k hk => (key a i hi y hy).diff.2 k (hall ▸ hk)⟩⟩
  rw [hall]
  have := r'.nodup
  rw [List.append_assoc] at this
  exact (List.nodup_append.1 this).2.1

/-- **C66**: whatever the scheme and the option `split`, the implicit equations of the method
built on a core are affine in the unknowns it classifies as linear, with coefficients that depend
on no unknown. -/
theorem C66_split_exact (s : Sympy) (hs : s.OK) (o : Config) (c : Core ℝ) (hc : Ready c)
    (hr : Regular c) (hj : JacSound s o c) {m : Meth} (hm : toMethod s o c = some m) :
    MethWF m ∧ SplitOK m :=
  split_exact s hs o c hc hr (fun _ => hj) hm

end Circuit
end Pyphs
