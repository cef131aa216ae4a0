/-
C86: a netlist with nonlinear components is simulated as documented.
-/
import Verif.Nonlin.Equations
import Verif.Nonlin.Power

namespace Pyphs
namespace Nonlin
open Scheme Core Graph Params Circuit Numeric Record
open _root_.Pyphs.System (Branch Device Distinct devEdges devX devPorts Declares Agree CtrlOK labelOf
  labelOf_eq dn_x pre_inj branch_edge circuitOK controls mem_dissipative storage_labels port_labels devX_pre
  ofType_perm input_eq agree_labelOf agree_strip strip_y mem_edges pre_ne)
open Netlist (Row)

variable {V : Type} {val : V → ℝ} {rows : List (Row V)} {css : List (List Component)} {cs : List Component}

/-- What pyphs builds from the lines of a netlist: components, nodes and edges of the graph (in any
order: the one of networkx is not specified), core of the graph, and core after the analysis. -/
structure Compiled (I : Sym.Interp ℝ) (val : V → ℝ) (rows : List (Row V)) (ps : List NPart)
    (nodes : List String) (edges : List (Edge ℝ)) (c : Core ℝ) (fuel : ℕ) (c2 : Core ℝ) : Prop where
  parts : buildParts val rows = .ok ps
  core : graphCore I ps = some c
  perm : edges.Perm (graphEdges I ps)
  nodup : nodes.Nodup
  ends : ∀ n, n ∈ nodes ↔ ∃ d ∈ edges, d.tail = n ∨ d.head = n
  analysed : toCore (law I ps) fuel nodes edges c = some c2

/-- The rule of a method. -/
def ruleOf (o : Config) : Rule := ⟨o.kind, o.θ, o.epsdg⟩

theorem parts_facts (h : NetOK val rows css) {I : Sym.Interp ℝ} (hI : ArithNl I) :
    ∃ ps L, buildParts val rows = .ok ps ∧ List.Forall₂ NRel ps css ∧ Resolved I ps css.flatten L := by
  obtain ⟨ps, h1, h2⟩ := buildParts_ok h.means h.works h.worksNl h.physical
  obtain ⟨L, h3⟩ := resolved_ok hI h2.rel (h2.namesOK h.values) (h2.namesFree h.names)
  exact ⟨ps, L, h1, h2.rel, h3⟩

theorem diss_sublist (c : Component) : c.dissipative.Sublist c.branches := by
  cases c with
  | linear d => cases d <;> simp [Component.dissipative, Component.branches, Device.branches]
  | _ => simp [Component.dissipative, Component.branches]

theorem diss_nodup (h : ((cs.flatMap Component.branches).map (·.id)).Nodup) :
    ((cs.flatMap Component.dissipative).map (·.id)).Nodup := by
  refine h.sublist (List.Sublist.map _ ?_)
  clear h
  induction cs with
  | nil => exact List.Sublist.refl _
  | cons c cs ih =>
    rw [List.flatMap_cons, List.flatMap_cons]
    exact (diss_sublist c).append ih

theorem shadow_diss {b : Branch} {r : ℝ} (hb : .resistance b r ∈ cs.map Component.shadow) :
    b ∈ cs.flatMap Component.dissipative := by
  obtain ⟨a, ha, hab⟩ := List.mem_map.1 hb
  refine List.mem_flatMap.2 ⟨a, ha, ?_⟩
  cases a with
  | linear d' =>
    have : d' = .resistance b r := hab
    subst this
    exact List.mem_cons_self
  | conductor b' g =>
    have : b' = b := by
      simp only [Component.shadow, Device.resistance.injEq] at hab
      exact hab.1
    subst this
    exact List.mem_cons_self
  | fluxStorage => cases hab
  | effortStorage => cases hab

/-- The facts about the graph of a netlist. -/
structure Facts (lw : String → Env ℝ → ℝ) (cs : List Component) (L : List (String × (ℝ → ℝ) × (ℝ → ℝ)))
    (nodes : List String) (edges : List (Edge ℝ)) (c : Core ℝ) : Prop where
  distinct : Distinct (cs.map Component.shadow)
  physical : ∀ c ∈ cs, c.Physical
  perm : edges.Perm ((cs.map Component.shadow).flatMap devEdges)
  ends : ∀ d ∈ edges, d.tail ∈ nodes ∧ d.head ∈ nodes
  declares : Declares c (cs.map Component.shadow)
  ok : CircuitOK nodes edges c
  energy : c.H = fun e => stored cs fun i => e ("x" ++ i)
  list : LawList cs L
  laws : ∀ q ∈ L, lw ("f:w" ++ q.1) = (fun e => q.2.1 (e ("w" ++ q.1))) ∧
    lw ("e:w" ++ q.1) = fun e => q.2.2 (e ("w" ++ q.1))
  static : StaticLaws lw edges

theorem Compiled.facts {I : Sym.Interp ℝ} {ps : List NPart} {nodes : List String}
    {edges : List (Edge ℝ)} {c c2 : Core ℝ} {fuel : ℕ} (hc : Compiled I val rows ps nodes edges c fuel c2)
    (h : NetOK val rows css) (hI : ArithNl I) : ∃ L, Facts (law I ps) css.flatten L nodes edges c := by
  obtain ⟨ps', L, h1, h2, h3⟩ := parts_facts h hI
  rw [hc.parts] at h1
  obtain rfl := Except.ok.inj h1
  obtain ⟨c', k1, k2, k3⟩ := graphCore_eq h2 h3.ratios
  rw [hc.core] at k1
  obtain rfl := Option.some.inj k1
  have hp := hc.perm
  rw [graphEdges_eq h2 h3.ratios] at hp
  have hd : Distinct (css.flatten.map Component.shadow) := by
    unfold Distinct; rw [shadow_flat]; exact h.ids
  have hends : ∀ d ∈ edges, d.tail ∈ nodes ∧ d.head ∈ nodes := fun d hd =>
    ⟨(hc.ends _).2 ⟨d, hd, .inl rfl⟩, (hc.ends _).2 ⟨d, hd, .inr rfl⟩⟩
  have hdat : datum ∈ nodes := by
    obtain ⟨b, hb, hg⟩ := h.ground
    rw [← shadow_flat] at hb
    obtain ⟨d, hdd, hbd⟩ := List.mem_flatMap.1 hb
    obtain ⟨q, hq, -, q2, q3⟩ := branch_edge hdd hbd
    refine (hc.ends _).2 ⟨q, hp.mem_iff.2 hq, ?_⟩
    rw [q2, q3]; exact hg
  have hpos : ∀ d ∈ css.flatten.map Component.shadow, d.Positive := by
    intro d hd
    obtain ⟨a, ha, rfl⟩ := List.mem_map.1 hd
    have := h.physical a ha
    cases a with
    | linear d => exact this
    | _ => exact zero_lt_one (α := ℝ)
  have hL : (L.map (·.1)).Nodup := by rw [h3.list.ids]; exact diss_nodup h.ids
  have hlaws : ∀ q ∈ L, law I ps ("f:w" ++ q.1) = (fun e => q.2.1 (e ("w" ++ q.1))) ∧
      law I ps ("e:w" ++ q.1) = fun e => q.2.2 (e ("w" ++ q.1)) := fun q hq => law_eq h3 hL hq
  refine ⟨L, hd, h.physical, hp, hends, k2, circuitOK hd hpos hp hdat hc.nodup hends k2, k3.trans h3.energy,
    h3.list, hlaws, ?_⟩
  intro d hdm ht
  obtain ⟨b, r, hb, q1, q2, q3⟩ := mem_dissipative (hp.mem_iff.1 hdm) ht
  have hbL : b.id ∈ L.map (·.1) := by
    rw [h3.list.ids]
    exact List.mem_map.2 ⟨b, shadow_diss hb, rfl⟩
  obtain ⟨q, hq, hqb⟩ := List.mem_map.1 hbL
  obtain ⟨l1, l2⟩ := hlaws q hq
  rw [hqb] at l1 l2
  have hx : ∀ s ∈ (ofType .storage edges).map (·.label), ∃ i, s = "x" ++ i := fun s hs => by
    have := ((ofType_perm hp).map _).mem_iff.1 hs
    rw [storage_labels] at this
    exact devX_pre this
  have n1 : "w" ++ b.id ∉ (ofType .storage edges).map (·.label) := fun hm => by
    obtain ⟨i, hi⟩ := hx _ hm
    exact pre_ne (s := 'w') (t := 'x') (by decide) hi
  have n2 : "w" ++ b.id ∉ ((ofType .storage edges).map (·.label)).map gn := fun hm => by
    obtain ⟨i, -, hi⟩ := List.mem_map.1 hm
    exact pre_ne (s := 'g') (t := 'w') (by decide) hi
  rw [q2, q3, l1, l2]
  exact ⟨fun e e' he => by dsimp only; rw [he _ n1 n2], fun e e' he => by dsimp only; rw [he _ n1 n2]⟩

/-- The controls that the laws of the components impose. -/
structure Controls (cs : List Component) (ec : String → Prop) : Prop where
  linear : System.Controls (cs.map Component.shadow) ec
  fluxStorage : ∀ b h f dom, .fluxStorage b h f dom ∈ cs → ¬ ec b.id
  effortStorage : ∀ b h f dom, .effortStorage b h f dom ∈ cs → ec b.id

theorem controls_of {ec : String → Prop} (h : System.Controls (cs.map Component.shadow) ec) : Controls cs ec where
  linear := h
  fluxStorage := fun b _ _ _ hb => h.fluxStorage b 1 (List.mem_map.2 ⟨_, hb, rfl⟩)
  effortStorage := fun b _ _ _ hb => h.effortStorage b 1 (List.mem_map.2 ⟨_, hb, rfl⟩)

/-- A law of the core: the one of a resistance or of a conductor, for the variable chosen by the analysis. -/
def Chosen (cs : List Component) (ec : String → Prop) (p : String × Sc) : Prop :=
  ∃ b : Branch, p.1 = "w" ++ b.id ∧
    ((∃ r, .linear (.resistance b r) ∈ cs ∧ (ec b.id → p.2 = fun e => r⁻¹ * e ("w" ++ b.id)) ∧
        (¬ ec b.id → p.2 = fun e => r * e ("w" ++ b.id))) ∨
      ∃ g, .conductor b g ∈ cs ∧ (ec b.id → p.2 = fun e => g (e ("w" ++ b.id))) ∧
        (¬ ec b.id → ∃ gi, Function.LeftInverse gi g ∧ p.2 = fun e => gi (e ("w" ++ b.id))))

theorem Facts.chosen {lw : String → Env ℝ → ℝ} {L : List (String × (ℝ → ℝ) × (ℝ → ℝ))} {nodes : List String}
    {edges : List (Edge ℝ)} {c : Core ℝ} (f : Facts lw cs L nodes edges c) {ec : String → Prop}
    {d : Edge ℝ} (hd : d ∈ edges) (ht : d.type = .dissipative) {g : Sc}
    (he : ec d.label → g = lw d.ze) (hf : ¬ ec d.label → g = lw d.zf) :
    Chosen cs (fun i => ec (labelOf (cs.map Component.shadow) i)) (d.label, g) := by
  obtain ⟨b, r, hb, q1, q2, q3⟩ := mem_dissipative (f.perm.mem_iff.1 hd) ht
  have hl : labelOf (cs.map Component.shadow) b.id = d.label := by
    rw [labelOf_eq f.distinct hb List.mem_cons_self, q1]; rfl
  refine ⟨b, q1, ?_⟩
  simp only [hl]
  rw [q2] at he
  rw [q3] at hf
  obtain ⟨a, ha, hab⟩ := List.mem_map.1 hb
  cases a with
  | linear d' =>
    obtain rfl : d' = .resistance b r := hab
    obtain ⟨l1, l2⟩ := f.laws _ (f.list.resistance b r ha)
    dsimp only at l1 l2
    exact .inl ⟨r, ha, fun hh => (he hh).trans l2, fun hh => (hf hh).trans l1⟩
  | conductor b' g' =>
    obtain rfl : b' = b := by
      simp only [Component.shadow, Device.resistance.injEq] at hab
      exact hab.1
    obtain ⟨gi, hgi, hq⟩ := f.list.conductor b' g' ha
    obtain ⟨l1, l2⟩ := f.laws _ hq
    dsimp only at l1 l2
    exact .inr ⟨g', ha, fun hh => (he hh).trans l2, fun hh => ⟨gi, hgi, (hf hh).trans l1⟩⟩
  | fluxStorage => cases hab
  | effortStorage => cases hab

/-- Everything about the method of a netlist. -/
theorem method_facts {lw : String → Env ℝ → ℝ} {L : List (String × (ℝ → ℝ) × (ℝ → ℝ))} {nodes : List String}
    {edges : List (Edge ℝ)} {c c2 : Core ℝ} {fuel : ℕ} (f : Facts lw cs L nodes edges c)
    (ha : toCore lw fuel nodes edges c = some c2) :
    ∃ ec, Controls cs ec ∧
    (∀ p ∈ c2.w.zip c2.z, Chosen cs ec p ∧ ∃ d ∈ edges, d.type = .dissipative ∧ d.label = p.1) ∧
    ∀ (s : Sympy) (_ : s.OK) (o : Config) (_ : 0 < o.epsdg), ∃ m, toMethod s o c2 = some m ∧ MethWF m ∧
      m.H = (fun e => stored cs fun i => e ("x" ++ i)) ∧ m.fs = o.fs ∧
      System.Names (cs.map Component.shadow) m ∧
      (∀ l ∈ m.w, ∃ b ∈ cs.flatMap Component.dissipative, l = "w" ++ b.id) ∧
      (Fits cs (ruleOf o) m.g → ∀ e, InDomain cs ec (ruleOf o) e →
        (m.Solved e ↔ ∃ E F, Step cs ec o.fs (ruleOf o) e E F) ∧
        ∀ E F, Step cs ec o.fs (ruleOf o) e E F →
          (∀ b, .linear (.fluxSource b) ∈ cs → outOf m ("y" ++ b.id) e = E b.id) ∧
          (∀ b, .linear (.effortSource b) ∈ cs → outOf m ("y" ++ b.id) e = F b.id)) := by
  obtain ⟨ec, hec, hlw, hall⟩ := step_facts_laws f.ok f.static ha
  refine ⟨_, controls_of (controls f.distinct f.perm hec), fun p hp => ?_, fun s hs o ht => ?_⟩
  · obtain ⟨d, q1, q2, q3, q4, q5⟩ := hlw p hp
    refine ⟨?_, d, q1, q2, q3⟩
    have := f.chosen q1 q2 (g := p.2) q4 q5
    rwa [q3] at this
  obtain ⟨m, h1, h2, h3, h4, h5, h6, ⟨M, -, -, h7, h8⟩, h9, h10⟩ := hall s hs o
  set ds := cs.map Component.shadow with hds
  have hx : m.g.x.Perm (ds.flatMap devX) := by
    have := h5.trans ((ofType_perm f.perm).map _)
    rwa [storage_labels] at this
  have hH : m.H = fun e => stored cs fun i => e ("x" ++ i) := (show m.H = c.H from h3).trans f.energy
  have hpp : (ofType .port edges).Perm (ofType .port (ds.flatMap devEdges)) := ofType_perm f.perm
  have hyu : (m.y.zip m.u).Perm ((ds.flatMap devPorts).map fun b => ("y" ++ b.id, "u" ++ b.id)) := by
    refine h8.trans ((hpp.map _).trans ?_)
    have e1 : (ofType .port (ds.flatMap devEdges)).map (fun d => (d.label, inputOf c d.label)) =
        ((ofType .port (ds.flatMap devEdges)).map (·.label)).map fun l => (l, inputOf c l) := by
      rw [List.map_map]; rfl
    rw [e1, port_labels, List.map_map]
    refine List.Perm.of_eq (List.map_congr_left fun b hb => ?_)
    simp only [Function.comp_apply]
    rw [input_eq f.distinct f.declares hb]
  refine ⟨m, h1, h2, hH, h4, ⟨hx, fun l hl => ?_, ?_, ?_, ?_⟩, fun l hl => ?_, fun hfit e hdom => ?_⟩
  · have := h7.mem_iff.1 hl
    obtain ⟨d, hd, rfl⟩ := List.mem_map.1 this
    obtain ⟨hd1, hd2⟩ := List.mem_filter.1 hd
    obtain ⟨b, r, -, hl, -⟩ := mem_dissipative (f.perm.mem_iff.1 hd1) (by simpa using hd2)
    exact ⟨b.id, hl⟩
  · exact (List.nodup_append.1 (List.nodup_append.1 h2.nodup).1).2.1
  · have := hyu.map Prod.snd
    rwa [List.map_snd_zip (le_of_eq h2.uy), List.map_map] at this
  · have := hyu.map Prod.fst
    rwa [List.map_fst_zip (le_of_eq h2.uy.symm), List.map_map] at this
  · have := h7.mem_iff.1 hl
    obtain ⟨d, hd, rfl⟩ := List.mem_map.1 this
    obtain ⟨hd1, hd2⟩ := List.mem_filter.1 hd
    obtain ⟨b, r, hb, hl, -⟩ := mem_dissipative (f.perm.mem_iff.1 hd1) (by simpa using hd2)
    exact ⟨b, shadow_diss hb, hl⟩
  have hsl : ∀ {p : String × (ℝ → ℝ)}, p ∈ cs.flatMap stors →
      gradOf m p.1 e = (ruleOf o).slope p.2 (deriv p.2) (e p.1) (e (dn p.1)) := fun hp =>
    grad_slope f.distinct (o := ruleOf o) ht hx hH h6 hfit hp e
  have hv : Values cs (fun i => ec (labelOf ds i)) (ruleOf o) e (fun i => gradOf m ("x" ++ i) e)
      (fun i => lw ("e:w" ++ i) e) (fun i => lw ("f:w" ++ i) e) := by
    refine ⟨fun b k hb => ?_, fun b h f' dom hb => ?_, fun b r hb => ?_, fun b g hb => ?_⟩
    · have hp : ("x" ++ b.id, fun t : ℝ => k * t ^ 2 / 2) ∈ cs.flatMap stors := by
        rcases hb with hb | hb <;> exact List.mem_flatMap.2 ⟨_, hb, List.mem_cons_self⟩
      have := hsl hp
      dsimp only at this ⊢
      rw [this, quad_deriv, slope_quad (o := ruleOf o) ht, dn_x]
    · have hp : ("x" ++ b.id, h) ∈ cs.flatMap stors := by
        rcases hb with hb | hb <;> exact List.mem_flatMap.2 ⟨_, hb, List.mem_cons_self⟩
      have hph : IsOpen dom ∧ ∀ x ∈ dom, HasDerivAt h (f' x) x := by
        rcases hb with hb | hb <;> exact f.physical _ hb
      have := hsl hp
      dsimp only at this ⊢
      rw [this, dn_x, slope_inside hph.1 hph.2 (hdom.storages b h f' dom hb)]
    · have hr : (0 : ℝ) < r := f.physical _ hb
      obtain ⟨l1, l2⟩ := f.laws _ (f.list.resistance b r hb)
      dsimp only at l1 l2 ⊢
      exact ⟨hr.ne', by rw [l1], by rw [l2]⟩
    · obtain ⟨gi, hgi, hq⟩ := f.list.conductor b g hb
      obtain ⟨l1, l2⟩ := f.laws _ hq
      dsimp only at l1 l2 ⊢
      exact ⟨gi, hgi, by rw [l1], by rw [l2], hdom.conductors b g hb⟩
  have hiff : ∀ {E F E' F' : String → ℝ}, Agree ds E E' → Agree ds F F' →
      (InputEqs lw nodes edges c m ec e E F ↔
        Step cs (fun i => ec (labelOf ds i)) o.fs (ruleOf o) e E' F') := by
    intro E F E' F' hE hF
    rw [← h4, ← step_iff hv]
    exact generic_iff f.distinct f.perm f.ends f.declares hec hE hF
  refine ⟨?_, fun E F hst => ?_⟩
  · rw [h9]
    constructor
    · rintro ⟨E, F, hst⟩
      refine ⟨_, _, (hiff (agree_labelOf f.distinct E) (agree_labelOf f.distinct F)).1 ?_⟩
      exact ⟨hst.net, hst.stor, hst.diss, fun d hd ht =>
        ⟨fun hh => ((hst.port d hd ht).1 hh).2.symm, fun hh => ((hst.port d hd ht).2 hh).2.symm⟩⟩
    · rintro ⟨E, F, hst⟩
      exact ⟨_, _, (h10 e).2 _ _ ((hiff (agree_strip E) (agree_strip F)).2 hst)⟩
  · have hs := (h10 e).2 _ _ ((hiff (agree_strip E) (agree_strip F)).2 hst)
    refine ⟨fun b hb => ?_, fun b hb => ?_⟩
    · have hm := mem_edges f.perm (List.mem_map.2 ⟨_, hb, rfl⟩ : (.fluxSource b : Device) ∈ ds)
        List.mem_cons_self
      have := ((hs.port _ hm rfl).1 ((hec _ hm).1 rfl)).1
      dsimp only at this
      rw [this, strip_y]
    · have hm := mem_edges f.perm (List.mem_map.2 ⟨_, hb, rfl⟩ : (.effortSource b : Device) ∈ ds)
        List.mem_cons_self
      have := ((hs.port _ hm rfl).2 ((hec _ hm).2 rfl)).1
      dsimp only at this
      rw [this, strip_y]

/-! ### The theorems -/

/-- **C86**, construction. The lines of an accepted netlist are turned into a graph and a core. The graph has
the edges of the components, between the nodes of the netlist and the inner nodes of the diodes; the core has one
state for each storage, one variable for each dissipative branch, one input and one output for each source;
its energy is the sum of the energies of the components. -/
theorem C86_build (h : NetOK val rows css) {I : Sym.Interp ℝ} (hI : ArithNl I) :
    ∃ ps c, buildParts val rows = .ok ps ∧ graphCore I ps = some c ∧
      (∀ e, c.H e = stored css.flatten fun i => e ("x" ++ i)) ∧
      (∀ s, s ∈ c.x ↔ ∃ b, s = "x" ++ b.id ∧
        ((∃ k, .linear (.fluxStorage b k) ∈ css.flatten ∨ .linear (.effortStorage b k) ∈ css.flatten) ∨
          ∃ h f dom, .fluxStorage b h f dom ∈ css.flatten ∨ .effortStorage b h f dom ∈ css.flatten)) ∧
      c.w = (css.flatten.flatMap Component.dissipative).map (fun b => "w" ++ b.id) ∧
      c.u.zip c.y = (sources css.flatten).map (fun b => ("u" ++ b.id, "y" ++ b.id)) ∧
      (graphEdges I ps).map (fun d => (d.tail, d.head)) =
        (css.flatten.flatMap Component.branches).map fun b => (b.tail, b.head) := by
  obtain ⟨ps, L, h1, h2, h3⟩ := parts_facts h hI
  obtain ⟨c, k1, k2, k3⟩ := graphCore_eq h2 h3.ratios
  refine ⟨ps, c, h1, k1, fun e => by rw [k3, h3.energy], fun s => ?_, ?_, ?_, ?_⟩
  · rw [k2.x, ← stors_keys]
    constructor
    · intro hs
      obtain ⟨p, hp, rfl⟩ := List.mem_map.1 hs
      obtain ⟨a, ha, hp⟩ := List.mem_flatMap.1 hp
      cases a with
      | linear d =>
        cases d <;> simp only [stors, List.mem_cons, List.not_mem_nil, or_false] at hp
        · exact ⟨_, by rw [hp], .inl ⟨_, .inl ha⟩⟩
        · exact ⟨_, by rw [hp], .inl ⟨_, .inr ha⟩⟩
      | fluxStorage b h f dom =>
        simp only [stors, List.mem_cons, List.not_mem_nil, or_false] at hp
        exact ⟨b, by rw [hp], .inr ⟨h, f, dom, .inl ha⟩⟩
      | effortStorage b h f dom =>
        simp only [stors, List.mem_cons, List.not_mem_nil, or_false] at hp
        exact ⟨b, by rw [hp], .inr ⟨h, f, dom, .inr ha⟩⟩
      | conductor => cases hp
    · rintro ⟨b, rfl, ⟨k, hb | hb⟩ | ⟨h, f, dom, hb | hb⟩⟩ <;>
        exact List.mem_map.2 ⟨_, List.mem_flatMap.2 ⟨_, hb, List.mem_cons_self⟩, rfl⟩
  · rw [k2.w, List.flatMap_map, List.map_flatMap]
    refine List.flatMap_congr fun a _ => ?_
    cases a with
    | linear d => cases d <;> rfl
    | _ => rfl
  · rw [k2.u, k2.y, List.zip_map', List.flatMap_map]
    congr 1
    refine List.flatMap_congr fun a _ => ?_
    cases a with
    | linear d => cases d <;> rfl
    | _ => rfl
  · rw [graphEdges_eq h2 h3.ratios, ← shadow_flat, List.map_flatMap, List.map_flatMap]
    refine List.flatMap_congr fun d _ => ?_
    cases d <;> rfl

/-- **C86**, equations. The method built from an accepted netlist solves the equations that its lines
describe, for all values of the symbols in the domains of the laws: Kirchhoff's laws and the documented laws of
the components. The controls are those imposed by the components, and the same whatever the options of the
method. The discrete gradient needs that the states of nonlinear storages are treated one by one. -/
theorem C86_equations {I : Sym.Interp ℝ} {ps : List NPart} {nodes : List String}
    {edges : List (Edge ℝ)} {c c2 : Core ℝ} {fuel : ℕ} (hc : Compiled I val rows ps nodes edges c fuel c2)
    (h : NetOK val rows css) (hI : ArithNl I) : ∃ ec, Controls css.flatten ec ∧
    ∀ (s : Sympy) (_ : s.OK) (o : Config) (_ : 0 < o.epsdg), ∃ m, toMethod s o c2 = some m ∧
      (∀ e, m.H e = stored css.flatten fun i => e ("x" ++ i)) ∧
      (Fits css.flatten (ruleOf o) m.g → ∀ e, InDomain css.flatten ec (ruleOf o) e →
        (m.Solved e ↔ ∃ E F, Step css.flatten ec o.fs (ruleOf o) e E F) ∧
        ∀ E F, Step css.flatten ec o.fs (ruleOf o) e E F →
          (∀ b, .linear (.fluxSource b) ∈ css.flatten → outOf m ("y" ++ b.id) e = E b.id) ∧
          (∀ b, .linear (.effortSource b) ∈ css.flatten → outOf m ("y" ++ b.id) e = F b.id)) := by
  obtain ⟨L, hf⟩ := hc.facts h hI
  obtain ⟨ec, h1, -, h2⟩ := method_facts hf hc.analysed
  refine ⟨ec, h1, fun s hs o ht => ?_⟩
  obtain ⟨m, k1, -, k2, -, -, -, k3⟩ := h2 s hs o ht
  exact ⟨m, k1, fun e => by rw [k2], k3⟩

/-- sympy finds the second derivatives that vanish. -/
def NzExact (s : Sympy) : Prop :=
  ∀ c : Core ℝ, ∀ i < c.x.length - c.xl, ∀ j < c.x.length - c.xl, i ≠ j →
    (∀ e, pdiff (pdiff c.H (c.x.getD (c.xl + i) "")) (c.x.getD (c.xl + j) "") e = 0) →
    (∀ e, pdiff (pdiff c.H (c.x.getD (c.xl + j) "")) (c.x.getD (c.xl + i) "") e = 0) →
      (s.nz c).e i j = false

/-- Without splitting, the states of an energy without coupling are treated one by one. -/
theorem nosplit_mono {s : Sympy} (hs : s.OK) (hnz : NzExact s) {o : Config}
    (hsp : o.split = false) {c : Core ℝ} (hc : WF c)
    (hcr : ∀ i ∈ c.x, ∀ j ∈ c.x, i ≠ j → ∀ e, pdiff (pdiff c.H i) j e = 0) (hnd : c.x.Nodup) {m : Meth}
    (hm : toMethod s o c = some m) : ∀ i ∈ c.x, i ∈ m.g.mono := by
  have hwf : WF (reset c) := ⟨hc.Mr, hc.Mc, hc.uy, hc.cucy, hc.wz, hc.dxH,
    Nat.zero_le _, Nat.zero_le _, hc.nodup⟩
  have hz : ZlOK (reset c) := Or.inr ⟨by simp [reset, Mat.slice], by simp [reset, Mat.slice]⟩
  obtain ⟨n1, n2, n3⟩ := hs.nz (reset c)
  obtain ⟨c', e2, -, hxl, hx⟩ := C14_monovar_multivar (reset c) hwf hz (s.nz (reset c)) n1 n2 n3
  unfold toMethod at hm
  rw [show firstSplit s o (reset c) = some (reset c) by simp [firstSplit, hsp], Option.bind_some,
    e2, Option.bind_some] at hm
  simp only [lastSplit, hsp, Bool.false_eq_true, if_false, Option.map_some, Option.some.injEq] at hm
  have x0 : (reset c).xl = 0 := rfl
  have xx : (reset c).x = c.x := rfl
  have xH : (reset c).H = c.H := rfl
  rw [x0] at hxl hx
  simp only [x0, xx, List.take_zero, List.drop_zero, List.nil_append, Nat.sub_zero] at hx hm
  set N := c.x.length with hN
  set nz := s.nz (reset c) with hnzd
  subst hm
  have hsep : ∀ k < N, Separable N nz k := by
    intro k hk j hj hjk
    refine hnz (reset c) k hk j hj hjk.symm (fun e => ?_) fun e => ?_
    · rw [x0, xx, xH, Nat.zero_add, Nat.zero_add, List.getD_eq_getElem?_getD, List.getElem?_eq_getElem hk,
        List.getD_eq_getElem?_getD, List.getElem?_eq_getElem hj]
      refine hcr _ (List.getElem_mem hk) _ (List.getElem_mem hj) (fun hh => hjk ?_) e
      exact ((List.Nodup.getElem_inj_iff hnd).1 hh).symm
    · rw [x0, xx, xH, Nat.zero_add, Nat.zero_add, List.getD_eq_getElem?_getD, List.getElem?_eq_getElem hj,
        List.getD_eq_getElem?_getD, List.getElem?_eq_getElem hk]
      refine hcr _ (List.getElem_mem hj) _ (List.getElem_mem hk) (fun hh => hjk ?_) e
      exact (List.Nodup.getElem_inj_iff hnd).1 hh
  have hcount : count N (Separable N nz) = N := by
    rw [count, List.countP_eq_length.2, List.length_range]
    intro k hk
    exact decide_eq_true (hsep k (List.mem_range.1 hk))
  have hst : stable N (Separable N nz) = List.range N := by
    unfold stable
    rw [List.filter_eq_self.2 fun k hk => decide_eq_true (hsep k (List.mem_range.1 hk)),
      List.filter_eq_nil_iff.2 fun k hk => by simpa using hsep k (List.mem_range.1 hk), List.append_nil]
  intro i hi
  show i ∈ (c'.x.drop c'.xl).take _
  rw [hxl, List.drop_zero, hx, hst, hcount]
  rw [hN, pick_range, List.take_length]
  exact hi

/-- **C86**, groups. The states of nonlinear storages are treated one by one if the method does not split and
sympy finds that the energies of two components are not coupled; nothing is needed for the other rules or when
the storages are linear. -/
theorem C86_groups {I : Sym.Interp ℝ} {ps : List NPart} {nodes : List String}
    {edges : List (Edge ℝ)} {c c2 : Core ℝ} {fuel : ℕ} (hc : Compiled I val rows ps nodes edges c fuel c2)
    (h : NetOK val rows css) (hI : ArithNl I) {s : Sympy} (hs : s.OK) {o : Config} {m : Meth}
    (hm : toMethod s o c2 = some m)
    (ho : (o.split = false ∧ NzExact s) ∨ o.kind ≠ .discret ∨
      ∀ a ∈ css.flatten, ∀ b h f dom, a ≠ .fluxStorage b h f dom ∧ a ≠ .effortStorage b h f dom) :
    Fits css.flatten (ruleOf o) m.g := by
  intro hk b hh f dom hb
  rcases ho with ⟨hsp, hnz⟩ | ho | ho
  · obtain ⟨L, hf⟩ := hc.facts h hI
    have hready := ready_of hf.ok hf.static hc.analysed
    obtain ⟨-, -, -, -, hH, -, hx, -⟩ := C63_core hf.ok hc.analysed two_ne_zero
    have hxp : c2.x.Perm ((css.flatten.map Component.shadow).flatMap devX) := by
      have := hx.trans ((ofType_perm hf.perm).map _)
      rwa [storage_labels] at this
    have hmem : "x" ++ b.id ∈ c2.x := by
      rw [hxp.mem_iff, ← stors_keys]
      rcases hb with hb | hb <;>
        exact List.mem_map.2 ⟨_, List.mem_flatMap.2 ⟨_, hb, List.mem_cons_self⟩, rfl⟩
    refine nosplit_mono hs hnz hsp hready.wf ?_ (hxp.nodup_iff.2 hf.distinct.devX) hm _ hmem
    intro i hi j _ hij e
    have := (energy_sep hf.distinct (hH.trans hf.energy) (hxp.mem_iff.1 hi)).pdiff2 j e
    rw [this, if_neg (Ne.symm hij)]
  · exact absurd hk ho
  · rcases hb with hb | hb
    · exact absurd rfl (ho _ hb b hh f dom).1
    · exact absurd rfl (ho _ hb b hh f dom).2

/-- What one update of a simulation does: the states move by their increments, the inputs `U` are read, and
the equations hold; `out` gives the outputs. -/
structure Update (cs : List Component) (ec : String → Prop) (fs : ℝ) (o : Rule) (U e e' out E F : String → ℝ) :
    Prop where
  states : ∀ c ∈ cs, ∀ b ∈ c.storing, e' ("x" ++ b.id) = e ("x" ++ b.id) + e ("dx" ++ b.id)
  inputs : ∀ b ∈ sources cs, e' ("u" ++ b.id) = U ("u" ++ b.id)
  eqs : Step cs ec fs o e' E F
  efforts : ∀ b, .linear (.fluxSource b) ∈ cs → out ("y" ++ b.id) = E b.id
  fluxes : ∀ b, .linear (.effortSource b) ∈ cs → out ("y" ++ b.id) = F b.id

theorem mem_sources {b : Branch} (hb : b ∈ sources cs) :
    .linear (.effortSource b) ∈ cs ∨ .linear (.fluxSource b) ∈ cs := by
  obtain ⟨c, hc, hb⟩ := List.mem_flatMap.1 hb
  cases c with
  | linear d =>
    cases d <;> simp only [List.mem_cons, List.not_mem_nil, or_false] at hb
    · subst hb; exact .inl hc
    · subst hb; exact .inr hc
  | _ => cases hb

theorem storing_x {c : Component} (hc : c ∈ cs) {b : Branch} (hb : b ∈ c.storing) :
    "x" ++ b.id ∈ (cs.map Component.shadow).flatMap devX := by
  refine List.mem_flatMap.2 ⟨_, List.mem_map.2 ⟨c, hc, rfl⟩, ?_⟩
  cases c with
  | linear d => cases d <;> simp_all [Component.storing, Component.shadow, devX]
  | _ => simp_all [Component.storing, Component.shadow, devX]

/-- The energy of the state of an update and the one of the next. -/
theorem update_power {ec : String → Prop} {fs : ℝ} (hfs : 0 < fs) {o : Rule} {e e' E F out : String → ℝ}
    (hst : Step cs ec fs o e E F) (hex : ExactStep cs o e)
    (hE : ∀ b, .linear (.fluxSource b) ∈ cs → out ("y" ++ b.id) = E b.id)
    (hF : ∀ b, .linear (.effortSource b) ∈ cs → out ("y" ++ b.id) = F b.id)
    (hx : ∀ c ∈ cs, ∀ b ∈ c.storing, e' ("x" ++ b.id) = e ("x" ++ b.id) + e ("dx" ++ b.id)) :
    stored cs (fun i => e' ("x" ++ i)) = stored cs (fun i => e ("x" ++ i)) -
      (dissipated cs E F + ((sources cs).map fun b => e ("u" ++ b.id) * out ("y" ++ b.id)).sum) / fs := by
  have h1 := step_power hst hex
  have h2 : stored cs (fun i => e' ("x" ++ i)) = stored cs fun i => e ("x" ++ i) + e ("dx" ++ i) := by
    unfold stored
    congr 1
    refine List.map_congr_left fun c hc => ?_
    have := hx c hc
    cases c with
    | linear d =>
      cases d with
      | fluxStorage b k => simp only [Component.energy, Device.energy]; rw [this b List.mem_cons_self]
      | effortStorage b k => simp only [Component.energy, Device.energy]; rw [this b List.mem_cons_self]
      | _ => rfl
    | fluxStorage b h f dom => simp only [Component.energy]; rw [this b List.mem_cons_self]
    | effortStorage b h f dom => simp only [Component.energy]; rw [this b List.mem_cons_self]
    | conductor => rfl
  have h3 : ((sources cs).map fun b => e ("u" ++ b.id) * out ("y" ++ b.id)) =
      (sources cs).map fun b => E b.id * F b.id := by
    refine List.map_congr_left fun b hb => ?_
    rcases mem_sources hb with hb | hb
    · rw [hF b hb, show E b.id = e ("u" ++ b.id) from hst.laws _ hb]
    · rw [hE b hb, show F b.id = e ("u" ++ b.id) from hst.laws _ hb, mul_comm]
  rw [h2, h3]
  field_simp
  linarith

/-- **C86**, simulation and energy. Each update of a simulation of an accepted netlist which solves its equations
(in the domains of the laws) moves the states by their increments, reads the inputs, and satisfies the equations
described by the netlist; the outputs are the efforts of the sources of flux and the fluxes of the sources of
effort. The dissipative components receive power. If the rule is exact for all the increments, the energy
after some steps is the one at the beginning, less what the dissipative components receive and what the sources
receive, the sum of the products of their inputs and outputs. -/
theorem C86_simulation {I : Sym.Interp ℝ} {ps : List NPart} {nodes : List String}
    {edges : List (Edge ℝ)} {c c2 : Core ℝ} {fuel : ℕ} (hc : Compiled I val rows ps nodes edges c fuel c2)
    (h : NetOK val rows css) (hI : ArithNl I) : ∃ ec, Controls css.flatten ec ∧
    ∀ (s : Sympy) (_ : s.OK) (o : Config), 0 < o.fs → 0 < o.epsdg →
    ∃ m, toMethod s o c2 = some m ∧ (Fits css.flatten (ruleOf o) m.g →
      ∀ (n : Num), n.m = m → n.p = [] → n.o = [] →
      ∀ (nt : ℕ) (U : ℕ → String → ℝ) (st : ℕ → St Nm ℝ),
        Run n nt ((List.range nt).map fun i => m.u.map (U i)) (List.replicate nt []) st →
        (∀ i < nt, m.Solved (n.E (st (i + 1))) ∧ InDomain css.flatten ec (ruleOf o) (n.E (st (i + 1)))) →
        ∃ E F : ℕ → String → ℝ,
          (∀ i < nt, Update css.flatten ec o.fs (ruleOf o) (U i) (n.E (st i)) (n.E (st (i + 1)))
            (fun l => outOf m l (n.E (st (i + 1)))) (E i) (F i)) ∧
          (∀ i < nt, 0 ≤ dissipated css.flatten (E i) (F i)) ∧
          ((∀ i < nt, ExactStep css.flatten (ruleOf o) (n.E (st (i + 1)))) → ∀ k N, k + N < nt →
            stored css.flatten (fun i => n.E (st (k + N + 1)) ("x" ++ i)) =
              stored css.flatten (fun i => n.E (st (k + 1)) ("x" ++ i)) -
              (∑ j ∈ Finset.range N, (dissipated css.flatten (E (k + j)) (F (k + j)) +
                ((sources css.flatten).map fun b => U (k + j) ("u" ++ b.id) *
                  outOf m ("y" ++ b.id) (n.E (st (k + j + 1)))).sum)) / o.fs)) := by
  obtain ⟨L, hf⟩ := hc.facts h hI
  obtain ⟨ec, h1, -, h2⟩ := method_facts hf hc.analysed
  refine ⟨ec, h1, fun s hs o hfs ht => ?_⟩
  obtain ⟨m, k1, kw, -, -, kn, -, k3⟩ := h2 s hs o ht
  refine ⟨m, k1, fun hfit n hm hp ho nt U st hr hsol => ?_⟩
  have hn := System.names_wf hm kw kn hf.distinct hp ho
  have q3 : ∀ i : ℕ, ∃ E F : String → ℝ, i < nt → Update css.flatten ec o.fs (ruleOf o) (U i) (n.E (st i))
      (n.E (st (i + 1))) (fun l => outOf m l (n.E (st (i + 1)))) E F := fun i => by
    by_cases hi : i < nt
    · obtain ⟨s1, s2⟩ := hsol i hi
      obtain ⟨a, b⟩ := k3 hfit _ s2
      obtain ⟨E, F, hst⟩ := a.1 s1
      have hgu : ((List.range nt).map fun i => m.u.map (U i)).getD i [] = m.u.map (U i) := by
        rw [List.getD_eq_getElem?_getD, List.getElem?_map, List.getElem?_range hi]; rfl
      obtain ⟨-, a1, a2, -⟩ := C24_step hn (hr.facts hn i (by omega)) (getD_len hr.lu hr.du hi)
        (getD_len hr.lp hr.dp hi) (hr.step i hi)
      rw [hgu, hm] at a2
      refine ⟨E, F, fun _ => ⟨fun c' hc' b hb => ?_, fun b hb => ?_, hst, (b E F hst).1, (b E F hst).2⟩⟩
      · rw [a1 _ (by rw [hm]; exact kn.x.mem_iff.2 (storing_x hc' hb)), dn_x]
      · refine List.map_inj_left.1 a2 _ (kn.u.mem_iff.2 (List.mem_map.2 ⟨b, List.mem_flatMap.2 ?_, rfl⟩))
        rcases mem_sources hb with hb | hb <;>
          exact ⟨_, List.mem_map.2 ⟨_, hb, rfl⟩, List.mem_cons_self⟩
    · exact ⟨fun _ => 0, fun _ => 0, fun hh => absurd hh hi⟩
  choose E F hEF using q3
  refine ⟨E, F, hEF, fun i hi => step_passive hf.physical (hEF i hi).eqs, fun hex k N => ?_⟩
  induction N with
  | zero => intro _; simp
  | succ N ih =>
    intro hk
    have u := hEF (k + N) (by omega)
    have hu := update_power hfs u.eqs (hex (k + N) (by omega))
      (out := fun l => outOf m l (n.E (st (k + N + 1)))) u.efforts u.fluxes
      (hEF (k + N + 1) (by omega)).states
    rw [← Nat.add_assoc, hu, ih (by omega), Finset.sum_range_succ, add_div]
    have hin : ((sources css.flatten).map fun b => n.E (st (k + N + 1)) ("u" ++ b.id) *
        outOf m ("y" ++ b.id) (n.E (st (k + N + 1)))) = (sources css.flatten).map fun b =>
        U (k + N) ("u" ++ b.id) * outOf m ("y" ++ b.id) (n.E (st (k + N + 1))) :=
      List.map_congr_left fun b hb => by rw [u.inputs b hb]
    rw [hin]
    ring

/-- **C86**, laws. The documented laws of the nonlinear components are physical for positive parameters: the
forces derive from the energies, Shockley's law is increasing, the resistances are positive. -/
theorem C86_laws {dict comp l : String} {ns : List String} {vs : List ℝ} {cs : List Component}
    (hm : meaning dict comp l ns vs = some cs) (hv : Sound comp vs) : ∀ c ∈ cs, c.Physical :=
  laws_physical hm hv

end Nonlin
end Pyphs
