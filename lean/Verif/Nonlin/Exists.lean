/-
C86: the equations of a step have a solution.
-/
import Verif.Nonlin.Unique
import Verif.Circuit.Exact

namespace Pyphs
namespace Nonlin
open Scheme Core Graph Params Circuit Numeric
open _root_.Pyphs.System (Branch Device dn_x devX storage_labels ofType_perm mem_dissipative devX_pre pre_ne pre_inj mem_edges)
open Netlist (Row)

variable {V : Type} {val : V → ℝ} {rows : List (Row V)} {css : List (List Component)} {cs : List Component}

/-- Laws that are defined everywhere, differentiable and increasing, for the variables `ec`: the conductors are
computed from their efforts. -/
structure Smooth (cs : List Component) (ec : String → Prop) : Prop where
  conductors : ∀ b g, .conductor b g ∈ cs → ec b.id ∧ Differentiable ℝ g
  storages : ∀ b h f dom, (.fluxStorage b h f dom ∈ cs ∨ .effortStorage b h f dom ∈ cs) →
    dom = Set.univ ∧ Differentiable ℝ f ∧ Monotone f

theorem smooth_stors {ec : String → Prop} (hs : Smooth cs ec) (hp : ∀ c ∈ cs, c.Physical)
    {p : String × (ℝ → ℝ)} (h : p ∈ cs.flatMap stors) :
    Differentiable ℝ (deriv p.2) ∧ ∀ t, 0 ≤ deriv (deriv p.2) t := by
  have lin : ∀ k : ℝ, 0 < k → Differentiable ℝ (deriv fun t : ℝ => k * t ^ 2 / 2) ∧
      ∀ t, 0 ≤ deriv (deriv fun t : ℝ => k * t ^ 2 / 2) t := fun k hk =>
    ⟨by rw [quad_deriv]; fun_prop, fun t => by rw [quad_deriv2]; exact hk.le⟩
  have non : ∀ {b h f dom}, (.fluxStorage b h f dom ∈ cs ∨ .effortStorage b h f dom ∈ cs) →
      Differentiable ℝ (deriv h) ∧ ∀ t, 0 ≤ deriv (deriv h) t := by
    intro b h f dom hb
    obtain ⟨rfl, h1, h2⟩ := hs.storages b h f dom hb
    have hph : ∀ x ∈ Set.univ, HasDerivAt h (f x) x := by rcases hb with hb | hb <;> exact (hp _ hb).2
    have : deriv h = f := funext fun x => (hph x trivial).deriv
    rw [this]
    exact ⟨h1, fun t => h2.deriv_nonneg⟩
  obtain ⟨a, ha, h⟩ := List.mem_flatMap.1 h
  cases a with
  | linear d =>
    cases d <;> simp only [stors, List.mem_cons, List.not_mem_nil, or_false] at h
    · subst h; exact lin _ (hp _ ha)
    · subst h; exact lin _ (hp _ ha)
  | fluxStorage b h' f dom =>
    simp only [stors, List.mem_cons, List.not_mem_nil, or_false] at h
    subst h; exact non (.inl ha)
  | effortStorage b h' f dom =>
    simp only [stors, List.mem_cons, List.not_mem_nil, or_false] at h
    subst h; exact non (.inr ha)
  | conductor => cases h

theorem smooth_law {ec : String → Prop} (hs : Smooth cs ec) (hp : ∀ c ∈ cs, c.Physical)
    {p : String × Sc} (h : Chosen cs ec p) :
    ∃ φ : ℝ → ℝ, p.2 = (fun e => φ (e p.1)) ∧ Differentiable ℝ φ ∧ ∀ t, 0 ≤ deriv φ t := by
  obtain ⟨b, hb, ⟨r, h1, h2, h3⟩ | ⟨g, h1, h2, -⟩⟩ := h
  · have hr : (0 : ℝ) < r := hp _ h1
    have lin : ∀ k : ℝ, 0 < k → Differentiable ℝ (fun t : ℝ => k * t) ∧ ∀ t, 0 ≤ deriv (fun t : ℝ => k * t) t :=
      fun k hk => ⟨by fun_prop, fun t => by simpa using hk.le⟩
    by_cases hh : ec b.id
    · exact ⟨_, by rw [h2 hh, hb], lin _ (inv_pos.2 hr)⟩
    · exact ⟨_, by rw [h3 hh, hb], lin _ hr⟩
  · obtain ⟨hh, hd⟩ := hs.conductors b g h1
    have hm : StrictMono g := (hp _ h1).1
    exact ⟨g, by rw [h2 hh, hb], hd, fun t => hm.monotone.deriv_nonneg⟩

theorem own_indep {φ : ℝ → ℝ} {a k : String} (h : k ≠ a) : Indep (fun e => φ (e a)) k := fun e t => by
  dsimp only; rw [Function.update_of_ne (Ne.symm h)]

theorem own_diff {φ : ℝ → ℝ} (h : Differentiable ℝ φ) (a k : String) : CDiff (fun e => φ (e a)) k := by
  intro e
  by_cases hk : k = a
  · subst hk; simpa only [Function.update_self] using h
  · simp only [Function.update_of_ne (Ne.symm hk)]; exact differentiable_const _

theorem own_pdiff (φ : ℝ → ℝ) (a : String) (e : Env ℝ) : pdiff (fun e => φ (e a)) a e = deriv φ (e a) := by
  unfold pdiff
  simp only [Function.update_self]

variable {lw : String → Env ℝ → ℝ} {L : List (String × (ℝ → ℝ) × (ℝ → ℝ))} {nodes : List String}
  {edges : List (Edge ℝ)} {c c2 : Core ℝ} {fuel : ℕ}

theorem Facts.storage (f : Facts lw cs L nodes edges c) {d : Edge ℝ} (hd : d ∈ edges) (ht : d.type = .storage) :
    ∃ p ∈ cs.flatMap stors, p.1 = d.label := by
  have : d.label ∈ (ofType .storage edges).map (·.label) := List.mem_map_of_mem (mem_ofType.2 ⟨hd, ht⟩)
  have := ((ofType_perm f.perm).map _).mem_iff.1 this
  rw [storage_labels, ← stors_keys] at this
  exact List.mem_map.1 this

theorem Facts.storage_x (f : Facts lw cs L nodes edges c) {d : Edge ℝ} (hd : d ∈ edges) (ht : d.type = .storage) :
    ∃ i, d.label = "x" ++ i := by
  obtain ⟨p, hp, hpl⟩ := f.storage hd ht
  have : p.1 ∈ (cs.map Component.shadow).flatMap devX := by rw [← stors_keys]; exact List.mem_map_of_mem hp
  obtain ⟨i, hi⟩ := devX_pre this
  exact ⟨i, hpl.symm.trans hi⟩

theorem Facts.diss_w (f : Facts lw cs L nodes edges c) {d : Edge ℝ} (hd : d ∈ edges) (ht : d.type = .dissipative) :
    ∃ i, d.label = "w" ++ i := by
  obtain ⟨b, -, -, h, -⟩ := mem_dissipative (f.perm.mem_iff.1 hd) ht
  exact ⟨_, h⟩

theorem Facts.sep (f : Facts lw cs L nodes edges c) {p : String × (ℝ → ℝ)} (hp : p ∈ cs.flatMap stors) :
    SepAt c.H p.1 p.2 := by
  have h : p.1 ∈ (cs.map Component.shadow).flatMap devX := by rw [← stors_keys]; exact List.mem_map_of_mem hp
  have := energy_sep f.distinct f.energy h
  rwa [energyAt_eq f.distinct hp] at this

theorem Facts.regular (f : Facts lw cs L nodes edges c) {ec : String → Prop} (hs : Smooth cs ec) :
    RegularFor (fun d g => Chosen cs ec (d.label, g)) edges c.H where
  nodup := by
    have hx : ∀ s ∈ (ofType .storage edges).map (·.label), ∃ i, s = "x" ++ i := fun s hs => by
      obtain ⟨d, h1, h2, rfl⟩ := mem_labels_of hs
      exact f.storage_x h1 h2
    have hd : ∀ s ∈ ((ofType .storage edges).map (·.label)).map dn, ∃ i, s = "d" ++ i := fun s hs => by
      obtain ⟨l, -, rfl⟩ := List.mem_map.1 hs; exact ⟨l, rfl⟩
    have hw : ∀ s ∈ (ofType .dissipative edges).map (·.label), ∃ i, s = "w" ++ i := fun s hs => by
      obtain ⟨d, h1, h2, rfl⟩ := mem_labels_of hs
      exact f.diss_w h1 h2
    have sub : ∀ t, ((ofType t edges).map (·.label)).Nodup := fun t =>
      List.Nodup.sublist (List.Sublist.map _ List.filter_sublist) f.ok.labels
    refine List.nodup_append.2 ⟨List.nodup_append.2 ⟨sub _, (sub _).map fun a b hab => pre_inj "d" hab, ?_⟩,
      sub _, ?_⟩
    · rintro a ha b hb rfl
      obtain ⟨i, h1⟩ := hx a ha
      obtain ⟨j, h2⟩ := hd a hb
      exact pre_ne (s := 'x') (t := 'd') (by decide) (h1.symm.trans h2)
    · rintro a ha b hb rfl
      obtain ⟨j, h2⟩ := hw a hb
      rcases List.mem_append.1 ha with ha | ha
      · obtain ⟨i, h1⟩ := hx a ha
        exact pre_ne (s := 'x') (t := 'w') (by decide) (h1.symm.trans h2)
      · obtain ⟨i, h1⟩ := hd a ha
        exact pre_ne (s := 'd') (t := 'w') (by decide) (h1.symm.trans h2)
  Hx := by
    rw [f.energy]
    refine ⟨fun d hd ht e t => ?_, fun d hd ht e t => ?_⟩
    · exact congrArg (stored cs) (funext fun i => Function.update_of_ne
        (fun hh => pre_ne (s := 'x') (t := 'd') (by decide) hh) _ _)
    · obtain ⟨j, hj⟩ := f.diss_w hd ht
      exact congrArg (stored cs) (funext fun i => Function.update_of_ne
        (fun hh => pre_ne (s := 'x') (t := 'w') (by decide) (hh.trans hj)) _ _)
  H2 := by
    intro d hd ht r _ _
    obtain ⟨p, hp, hpl⟩ := f.storage hd ht
    rw [← hpl, (f.sep hp).pdiff]
    exact own_diff (smooth_stors hs f.physical hp).1 _ _
  laws := by
    intro d hd ht g hg
    obtain ⟨φ, h1, h2, -⟩ := smooth_law hs f.physical hg
    dsimp only at h1
    rw [h1]
    refine ⟨fun r hr hrt => own_indep fun hh => ?_, fun r hr hrt => own_diff h2 _ _⟩
    obtain ⟨j, hj⟩ := f.diss_w hd ht
    exact pre_ne (s := 'd') (t := 'w') (by decide) (hh.trans hj)

theorem Facts.monotone (f : Facts lw cs L nodes edges c) {ec : String → Prop} (hs : Smooth cs ec) :
    MonotoneFor (fun d g => Chosen cs ec (d.label, g)) edges c.H where
  cross := by
    intro d hd ht r _ _ hne
    obtain ⟨p, hp, hpl⟩ := f.storage hd ht
    rw [← hpl, (f.sep hp).pdiff]
    exact own_indep (by rwa [hpl])
  convex := by
    intro d hd ht e
    obtain ⟨p, hp, hpl⟩ := f.storage hd ht
    rw [← hpl, (f.sep hp).pdiff, own_pdiff]
    exact (smooth_stors hs f.physical hp).2 _
  own := by
    intro d hd ht g hg r _ _ hne
    obtain ⟨φ, h1, -⟩ := smooth_law hs f.physical hg
    dsimp only at h1
    rw [h1]
    exact own_indep hne
  mono := by
    intro d hd ht g hg e
    obtain ⟨φ, h1, -, h3⟩ := smooth_law hs f.physical hg
    dsimp only at h1
    rw [h1, own_pdiff]
    exact h3 _

theorem Smooth.inDomain {ec : String → Prop} (hs : Smooth cs ec) (o : Rule) (e : String → ℝ) :
    InDomain cs ec o e where
  storages := by
    intro b h f dom hb
    obtain ⟨rfl, -⟩ := hs.storages b h f dom hb
    unfold Rule.Inside
    split
    · exact fun _ _ => trivial
    · trivial
    · exact ⟨trivial, trivial⟩
  conductors := fun b g hb hh => absurd (hs.conductors b g hb).1 hh

theorem x_storing {x : String} (hx : x ∈ (cs.map Component.shadow).flatMap devX) :
    ∃ a ∈ cs, ∃ b ∈ a.storing, x = "x" ++ b.id := by
  rw [← stors_keys] at hx
  obtain ⟨p, hp, rfl⟩ := List.mem_map.1 hx
  obtain ⟨a, ha, hp⟩ := List.mem_flatMap.1 hp
  refine ⟨a, ha, ?_⟩
  cases a with
  | linear d =>
    cases d <;> simp only [stors, List.mem_cons, List.not_mem_nil, or_false] at hp
    · exact ⟨_, List.mem_cons_self, by rw [hp]⟩
    · exact ⟨_, List.mem_cons_self, by rw [hp]⟩
  | fluxStorage =>
    simp only [stors, List.mem_cons, List.not_mem_nil, or_false] at hp
    exact ⟨_, List.mem_cons_self, by rw [hp]⟩
  | effortStorage =>
    simp only [stors, List.mem_cons, List.not_mem_nil, or_false] at hp
    exact ⟨_, List.mem_cons_self, by rw [hp]⟩
  | conductor => cases hp

theorem Facts.diss_edge (f : Facts lw cs L nodes edges c) {a : Component} (ha : a ∈ cs) {b : Branch}
    (hb : b ∈ a.dissipative) : "w" ++ b.id ∈ (ofType .dissipative edges).map (·.label) := by
  have hr : ∃ r, .resistance b r ∈ cs.map Component.shadow := by
    cases a with
    | linear d =>
      cases d <;> simp only [Component.dissipative, List.mem_cons, List.not_mem_nil, or_false] at hb
      subst hb
      exact ⟨_, List.mem_map.2 ⟨_, ha, rfl⟩⟩
    | conductor b' g =>
      obtain rfl := List.mem_singleton.1 hb
      exact ⟨_, List.mem_map.2 ⟨_, ha, rfl⟩⟩
    | fluxStorage => cases hb
    | effortStorage => cases hb
  obtain ⟨r, hr⟩ := hr
  have hm := mem_edges f.perm hr List.mem_cons_self
  exact List.mem_map.2 ⟨_, mem_ofType.2 ⟨hm, rfl⟩, rfl⟩

/-- There are no nonlinear storages. -/
def LinearStorages (cs : List Component) : Prop :=
  ∀ a ∈ cs, ∀ b h f dom, a ≠ .fluxStorage b h f dom ∧ a ≠ .effortStorage b h f dom

theorem linear_stors (hl : LinearStorages cs) {p : String × (ℝ → ℝ)} (h : p ∈ cs.flatMap stors) :
    ∃ k : ℝ, p.2 = fun t => k * t ^ 2 / 2 := by
  obtain ⟨a, ha, h⟩ := List.mem_flatMap.1 h
  cases a with
  | linear d =>
    cases d <;> simp only [stors, List.mem_cons, List.not_mem_nil, or_false] at h
    · exact ⟨_, by rw [h]⟩
    · exact ⟨_, by rw [h]⟩
  | fluxStorage b h' f dom => exact absurd rfl (hl _ ha b h' f dom).1
  | effortStorage b h' f dom => exact absurd rfl (hl _ ha b h' f dom).2
  | conductor => cases h

/-- **C86**, existence. If the laws are smooth and increasing, and the diodes are computed from their voltages, the
equations of a step have exactly one solution: whatever the states, the inputs, and the sample rate, there is
exactly one choice of the increments of the states and of the variables of the dissipative components for which
Kirchhoff's laws and the laws of the components hold. The discrete gradient needs linear storages. -/
theorem C86_exists {I : Sym.Interp ℝ} {ps : List NPart} {nodes : List String}
    {edges : List (Edge ℝ)} {c c2 : Core ℝ} {fuel : ℕ} (hc : Compiled I val rows ps nodes edges c fuel c2)
    (h : NetOK val rows css) (hI : ArithNl I) : ∃ ec, Controls css.flatten ec ∧
    (∀ p ∈ c2.w.zip c2.z, Chosen css.flatten ec p) ∧
    (Smooth css.flatten ec → ∀ (s : Sympy) (_ : s.OK) (o : Config),
    (o.split = true → JacSound s o c2) → 0 < o.fs → 0 < o.epsdg →
    (o.kind = .theta → 0 ≤ o.θ) → (o.kind ≠ .discret ∨ LinearStorages css.flatten) →
    ∃ m, toMethod s o c2 = some m ∧ ∀ e : Env ℝ, ∃! e' : Env ℝ,
      (∀ q, (∀ a ∈ css.flatten, (∀ b ∈ a.storing, q ≠ "dx" ++ b.id) ∧ ∀ b ∈ a.dissipative, q ≠ "w" ++ b.id) →
        e' q = e q) ∧
      ∃ E F, Step css.flatten ec o.fs (ruleOf o) e' E F) := by
  obtain ⟨L, hf⟩ := hc.facts h hI
  obtain ⟨ec, h1, hz, h2⟩ := method_facts hf hc.analysed
  refine ⟨ec, h1, fun p hp => (hz p hp).1, fun hsm s hs o hj hfs ht hθ hk => ?_⟩
  obtain ⟨m, k1, kw, -, kf, kn, kd, k3⟩ := h2 s hs o ht
  obtain ⟨m', d1, d2, d3, d4, d5⟩ := diag_for hf.ok hf.static (hf.regular hsm) (hf.monotone hsm) hc.analysed
    (fun p hp => by
      obtain ⟨q1, d, q2, q3, q4⟩ := hz p hp
      refine ⟨d, q2, q3, q4, ?_⟩
      rwa [q4]) s hs o hj hθ
    (hk.imp id fun hl => ⟨quad_of_sep fun x hx => by
      obtain ⟨d, q1, q2, rfl⟩ := mem_labels_of hx
      obtain ⟨p, hp, hpl⟩ := hf.storage q1 q2
      obtain ⟨k, hk⟩ := linear_stors hl hp
      exact ⟨k, by rw [← hk, ← hpl]; exact hf.sep hp⟩, ht⟩)
  obtain rfl : m = m' := Option.some.inj (k1.symm.trans d1)
  obtain ⟨_, -, hall⟩ := step_facts_all hf.ok hf.static hc.analysed
  obtain ⟨m', d1', -, -, -, -, -, ⟨-, -, -, k7, -⟩, -⟩ := hall s hs o
  obtain rfl : m = m' := Option.some.inj (k1.symm.trans d1')
  have hfit : Fits css.flatten (ruleOf o) m.g := C86_groups hc h hI hs k1 (.inr hk)
  have hv : m.v .all = m.g.x.map dn ++ m.w := by simp [Meth.v, Sfx.pick]
  have hnd := kn.nodup hf.distinct
  have hinp : ∀ q ∈ m.v .all, q ∉ m.u := by
    intro q hq hu
    rw [hv] at hq
    rw [List.append_assoc m.g.x] at hnd
    exact (List.nodup_append.1 hnd).2.2 q (List.mem_append_right _ hq) q hu rfl
  have hoff : ∀ q, (∀ a ∈ css.flatten, (∀ b ∈ a.storing, q ≠ "dx" ++ b.id) ∧
      ∀ b ∈ a.dissipative, q ≠ "w" ++ b.id) ↔ q ∉ m.v .all := by
    intro q
    rw [hv, List.mem_append, not_or]
    constructor
    · intro hq
      refine ⟨fun hh => ?_, fun hh => ?_⟩
      · obtain ⟨x, hx, rfl⟩ := List.mem_map.1 hh
        obtain ⟨a, ha, b, hb, rfl⟩ := x_storing (kn.x.mem_iff.1 hx)
        exact (hq a ha).1 b hb (dn_x _)
      · obtain ⟨b, hb, rfl⟩ := kd q hh
        obtain ⟨a, ha, hb⟩ := List.mem_flatMap.1 hb
        exact (hq a ha).2 b hb rfl
    · rintro ⟨q1, q2⟩ a ha
      refine ⟨fun b hb hh => q1 ?_, fun b hb hh => q2 ?_⟩
      · rw [hh, ← dn_x]
        exact List.mem_map_of_mem (kn.x.mem_iff.2 (storing_x ha hb))
      · rw [hh]
        exact k7.mem_iff.2 (hf.diss_edge ha hb)
  refine ⟨m, k1, fun e => ?_⟩
  obtain ⟨e', ⟨a1, a2⟩, a3⟩ := C74_step kw d3 d5 (by rw [kf]; exact hfs) hinp e
  have hiff := fun e' => (k3 hfit e' (hsm.inDomain _ _)).1
  refine ⟨e', ⟨fun q hq => a1 q ((hoff q).1 hq), (hiff e').1 a2⟩, ?_⟩
  rintro e'' ⟨b1, b2⟩
  exact a3 e'' ⟨fun q hq => b1 q ((hoff q).2 hq), (hiff e'').2 b2⟩

end Nonlin
end Pyphs
