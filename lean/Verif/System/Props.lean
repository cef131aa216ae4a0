/-
C84: a netlist is simulated as documented.
-/
import Verif.System.Equations
import Verif.System.Power
import Verif.Circuit.Linear

namespace Pyphs
namespace System
open Scheme Core Graph Params Circuit Numeric Record
open Netlist (Row)

variable {V : Type} {val : V → ℝ} {rows : List (Row V)} {ds : List Device}

/-- What pyphs builds from the lines of a netlist: components, nodes and edges of the graph (in any
order: the one of networkx is not specified), core of the graph, and core after the analysis. -/
structure Compiled (I : Sym.Interp ℝ) (val : V → ℝ) (rows : List (Row V)) (ps : List (Part ℝ))
    (nodes : List String) (edges : List (Edge ℝ)) (c : Core ℝ) (fuel : ℕ) (c2 : Core ℝ) : Prop where
  parts : buildParts val rows = .ok ps
  core : graphCore I ps = some c
  perm : edges.Perm (graphEdges I ps)
  nodup : nodes.Nodup
  ends : ∀ n, n ∈ nodes ↔ ∃ d ∈ edges, d.tail = n ∨ d.head = n
  analysed : toCore (law I ps) fuel nodes edges c = some c2

theorem parts_facts (h : NetOK val rows ds) {I : Sym.Interp ℝ} (hI : Arith I) :
    ∃ ps, buildParts val rows = .ok ps ∧ List.Forall₂ Rel ps ds ∧ Resolved I ps ds := by
  obtain ⟨ps, h1, h2, h3⟩ := buildParts_ok h.means h.works
  exact ⟨ps, h1, h2, resolved_ok hI h2 (namesOK h2 h3 h.values) (namesFree h2 h3 h.names)⟩

/-- The facts about the graph of a netlist. -/
structure Facts (lw : String → Env ℝ → ℝ) (ds : List Device) (nodes : List String)
    (edges : List (Edge ℝ)) (c : Core ℝ) : Prop where
  distinct : Distinct ds
  positive : ∀ d ∈ ds, d.Positive
  perm : edges.Perm (ds.flatMap devEdges)
  ends : ∀ d ∈ edges, d.tail ∈ nodes ∧ d.head ∈ nodes
  declares : Declares c ds
  ok : CircuitOK nodes edges c
  lin : LinearCircuit lw edges c.H (coef ds) (coef ds)
  energy : c.H = fun e => stored ds fun i => e ("x" ++ i)
  laws : LawsOf ds lw

theorem facts_of {lw : String → Env ℝ → ℝ} {nodes : List String} {edges : List (Edge ℝ)} {c : Core ℝ}
    (hd : Distinct ds) (hpos : ∀ d ∈ ds, d.Positive) (hp : edges.Perm (ds.flatMap devEdges))
    (hg : ∃ b ∈ ds.flatMap Device.branches, b.tail = ground ∨ b.head = ground) (hn : nodes.Nodup)
    (he : ∀ n, n ∈ nodes ↔ ∃ d ∈ edges, d.tail = n ∨ d.head = n) (hc : Declares c ds)
    (hH : c.H = fun e => stored ds fun i => e ("x" ++ i)) (hlw : LawsOf ds lw) : Facts lw ds nodes edges c := by
  have hends : ∀ d ∈ edges, d.tail ∈ nodes ∧ d.head ∈ nodes := fun d hd =>
    ⟨(he _).2 ⟨d, hd, .inl rfl⟩, (he _).2 ⟨d, hd, .inr rfl⟩⟩
  have hdat : datum ∈ nodes := by
    obtain ⟨b, hb, hg⟩ := hg
    obtain ⟨d, hdd, hbd⟩ := List.mem_flatMap.1 hb
    obtain ⟨q, hq, -, q2, q3⟩ := branch_edge hdd hbd
    refine (he _).2 ⟨q, hp.mem_iff.2 hq, ?_⟩
    rw [q2, q3]; exact hg
  exact ⟨hd, hpos, hp, hends, hc, circuitOK hd hpos hp hdat hn hends hc, linearCircuit hd hpos hlw hH hp, hH, hlw⟩

/-- The core of a netlist. -/
theorem core_facts (h : NetOK val rows ds) {I : Sym.Interp ℝ} (hI : Arith I) {ps : List (Part ℝ)} {c : Core ℝ}
    (hp : buildParts val rows = .ok ps) (hc : graphCore I ps = some c) :
    graphEdges I ps = ds.flatMap devEdges ∧ Declares c ds ∧
      c.H = (fun e => stored ds fun i => e ("x" ++ i)) ∧ LawsOf ds (law I ps) := by
  obtain ⟨ps', h1, h2, h3⟩ := parts_facts h hI
  rw [hp] at h1
  obtain rfl := Except.ok.inj h1
  obtain ⟨c', k1, k2, k3⟩ := graphCore_eq h2 h3.ratios
  rw [hc] at k1
  obtain rfl := Option.some.inj k1
  have hd : Distinct ds := h.ids
  exact ⟨graphEdges_eq h2 h3.ratios, k2, k3.trans h3.energy,
    fun b r hb => law_eq h3 h2 hd.resistances (mem_resistances hb)⟩

theorem Compiled.facts {I : Sym.Interp ℝ} {ps : List (Part ℝ)} {nodes : List String}
    {edges : List (Edge ℝ)} {c c2 : Core ℝ} {fuel : ℕ} (hc : Compiled I val rows ps nodes edges c fuel c2)
    (h : NetOK val rows ds) (hI : Arith I) : Facts (law I ps) ds nodes edges c := by
  obtain ⟨h1, h2, h3, h4⟩ := core_facts h hI hc.parts hc.core
  have hp := hc.perm
  rw [h1] at hp
  exact facts_of h.ids h.positive hp h.ground hc.nodup hc.ends h2 h3 h4

/-- The controls that the laws of the components impose. -/
structure Controls (ds : List Device) (ec : String → Prop) : Prop where
  fluxStorage : ∀ b k, .fluxStorage b k ∈ ds → ¬ ec b.id
  effortStorage : ∀ b k, .effortStorage b k ∈ ds → ec b.id
  effortSource : ∀ b, .effortSource b ∈ ds → ¬ ec b.id
  fluxSource : ∀ b, .fluxSource b ∈ ds → ec b.id

theorem controls (h : Distinct ds) {edges : List (Edge ℝ)} (hp : edges.Perm (ds.flatMap devEdges))
    {ec : String → Prop} (hec : CtrlOK edges ec) : Controls ds fun i => ec (labelOf ds i) where
  fluxStorage := fun b k hb => by
    rw [labelOf_eq h hb (b := b) (by simp [Device.branches])]
    exact (hec _ (mem_edges hp hb List.mem_cons_self)).2 rfl
  effortStorage := fun b k hb => by
    rw [labelOf_eq h hb (b := b) (by simp [Device.branches])]
    exact (hec _ (mem_edges hp hb List.mem_cons_self)).1 rfl
  effortSource := fun b hb => by
    rw [labelOf_eq h hb (b := b) (by simp [Device.branches])]
    exact (hec _ (mem_edges hp hb List.mem_cons_self)).2 rfl
  fluxSource := fun b hb => by
    rw [labelOf_eq h hb (b := b) (by simp [Device.branches])]
    exact (hec _ (mem_edges hp hb List.mem_cons_self)).1 rfl

theorem mem_devX {b : Branch} {k : ℝ} (h : .fluxStorage b k ∈ ds ∨ .effortStorage b k ∈ ds) :
    "x" ++ b.id ∈ ds.flatMap devX := by
  rcases h with h | h <;> exact List.mem_flatMap.2 ⟨_, h, List.mem_cons_self⟩

/-- The names of the variables of the method. -/
structure Names (ds : List Device) (m : Meth) : Prop where
  x : m.g.x.Perm (ds.flatMap devX)
  w : ∀ s ∈ m.w, ∃ i, s = "w" ++ i
  wnd : m.w.Nodup
  u : m.u.Perm ((ds.flatMap devPorts).map fun b => "u" ++ b.id)
  y : m.y.Perm ((ds.flatMap devPorts).map fun b => "y" ++ b.id)

/-- Everything about the method of a netlist. -/
theorem method_facts {lw : String → Env ℝ → ℝ} {nodes : List String} {edges : List (Edge ℝ)} {c c2 : Core ℝ}
    {fuel : ℕ} (f : Facts lw ds nodes edges c) (ha : toCore lw fuel nodes edges c = some c2) :
    ∃ ec, Controls ds ec ∧
    ∀ (s : Sympy) (_ : s.OK) (o : Config) (_ : 0 < o.epsdg), ∃ m, toMethod s o c2 = some m ∧ MethWF m ∧
      m.H = (fun e => stored ds fun i => e ("x" ++ i)) ∧ m.fs = o.fs ∧ Names ds m ∧
      (∀ e, m.Solved e ↔ ∃ E F, Step ds ec o.fs (weight o.kind o.θ) e E F) ∧
      ∀ e E F, Step ds ec o.fs (weight o.kind o.θ) e E F →
        (∀ b, .fluxSource b ∈ ds → outOf m ("y" ++ b.id) e = E b.id) ∧
        (∀ b, .effortSource b ∈ ds → outOf m ("y" ++ b.id) e = F b.id) := by
  obtain ⟨ec, hec, hall⟩ := step_facts_all f.ok f.lin.static ha
  refine ⟨_, controls f.distinct f.perm hec, fun s hs o ht => ?_⟩
  obtain ⟨m, h1, h2, h3, h4, h5, h6, ⟨M, -, -, h7, h8⟩, h9, h10⟩ := hall s hs o
  have hx : m.g.x.Perm (ds.flatMap devX) := by
    have := h5.trans ((ofType_perm f.perm).map _)
    rwa [storage_labels] at this
  have hH : m.H = c.H := h3
  have hg : ∀ e b k, .fluxStorage b k ∈ ds ∨ .effortStorage b k ∈ ds →
      gradOf m ("x" ++ b.id) e = k * (e ("x" ++ b.id) + weight o.kind o.θ * e ("dx" ++ b.id)) := by
    intro e b k hb
    have hm := mem_devX hb
    have hm' : "x" ++ b.id ∈ (ofType .storage edges).map (·.label) := h5.mem_iff.1 (hx.mem_iff.2 hm)
    have hnd : m.g.x.Nodup := h5.nodup_iff.2 f.lin.nd
    unfold gradOf
    rw [h6, hH, quad_gradient (f.lin.quad.mono fun y hy => h5.mem_iff.1 hy) hnd _ _ ht,
      getD_map_idx (hx.mem_iff.2 hm), f.lin.gradQuad_eq hm', dn_x]
    rcases hb with hb | hb
    · rw [coef_x f.distinct hb (by simp [Device.branches])]; rfl
    · rw [coef_x f.distinct hb (by simp [Device.branches])]; rfl
  have hiff : ∀ e {E F E' F' : String → ℝ}, Agree ds E E' → Agree ds F F' →
      (InputEqs lw nodes edges c m ec e E F ↔
        Step ds (fun i => ec (labelOf ds i)) o.fs (weight o.kind o.θ) e E' F') := by
    intro e E F E' F' hE hF
    rw [← h4]
    exact inputEqs_iff f.distinct f.positive f.perm f.ends f.declares f.laws hec (hg e) hE hF
  have hpp : (ofType .port edges).Perm (ofType .port (ds.flatMap devEdges)) := ofType_perm f.perm
  have hyu : (m.y.zip m.u).Perm ((ds.flatMap devPorts).map fun b => ("y" ++ b.id, "u" ++ b.id)) := by
    refine h8.trans ((hpp.map _).trans ?_)
    have e1 : (ofType .port (ds.flatMap devEdges)).map (fun d => (d.label, inputOf c d.label)) =
        ((ofType .port (ds.flatMap devEdges)).map (·.label)).map fun l => (l, inputOf c l) := by
      rw [List.map_map]; rfl
    rw [e1, port_labels, List.map_map]
    refine List.Perm.of_eq (List.map_congr_left fun b hb => ?_)
    simp only [Function.comp_apply]
    rw [input_eq f.distinct f.declares hb]
  refine ⟨m, h1, h2, hH.trans f.energy, h4, ⟨hx, fun l hl => ?_, ?_, ?_, ?_⟩, fun e => ?_, fun e E F hst => ?_⟩
  · have := h7.mem_iff.1 hl
    obtain ⟨d, hd, rfl⟩ := List.mem_map.1 this
    obtain ⟨hd1, hd2⟩ := List.mem_filter.1 hd
    obtain ⟨b, r, -, hl, -⟩ := mem_dissipative (f.perm.mem_iff.1 hd1) (by simpa using hd2)
    exact ⟨b.id, hl⟩
  · exact (List.nodup_append.1 (List.nodup_append.1 h2.nodup).1).2.1
  · have := hyu.map Prod.snd
    rwa [List.map_snd_zip (le_of_eq h2.uy), List.map_map] at this
  · have := hyu.map Prod.fst
    rwa [List.map_fst_zip (le_of_eq h2.uy.symm), List.map_map] at this
  · rw [h9]
    constructor
    · rintro ⟨E, F, hst⟩
      refine ⟨_, _, (hiff e (agree_labelOf f.distinct E) (agree_labelOf f.distinct F)).1 ?_⟩
      exact ⟨hst.net, hst.stor, hst.diss, fun d hd ht =>
        ⟨fun hh => ((hst.port d hd ht).1 hh).2.symm, fun hh => ((hst.port d hd ht).2 hh).2.symm⟩⟩
    · rintro ⟨E, F, hst⟩
      exact ⟨_, _, (h10 e).2 _ _ ((hiff e (agree_strip E) (agree_strip F)).2 hst)⟩
  · have hs := (h10 e).2 _ _ ((hiff e (agree_strip E) (agree_strip F)).2 hst)
    refine ⟨fun b hb => ?_, fun b hb => ?_⟩
    · have hm := mem_edges f.perm hb List.mem_cons_self
      have := ((hs.port _ hm rfl).1 ((hec _ hm).1 rfl)).1
      dsimp only at this
      rw [this, strip_y]
    · have hm := mem_edges f.perm hb List.mem_cons_self
      have := ((hs.port _ hm rfl).2 ((hec _ hm).2 rfl)).1
      dsimp only at this
      rw [this, strip_y]

/-! ### The theorems -/

/-- **C84**, construction. The lines of an accepted netlist are turned into a graph and a core. The graph has
the edges of the components, between the nodes of the netlist; the core has one state for each storage
component, one variable for each resistance, one input and one output for each source; its energy is the sum
of the energies of the components. -/
theorem C84_build (h : NetOK val rows ds) {I : Sym.Interp ℝ} (hI : Arith I) :
    ∃ ps c, buildParts val rows = .ok ps ∧ graphCore I ps = some c ∧
      (∀ e, c.H e = stored ds fun i => e ("x" ++ i)) ∧
      (∀ s, s ∈ c.x ↔ ∃ b k, s = "x" ++ b.id ∧ (.fluxStorage b k ∈ ds ∨ .effortStorage b k ∈ ds)) ∧
      (∀ s, s ∈ c.w ↔ ∃ b r, s = "w" ++ b.id ∧ .resistance b r ∈ ds) ∧
      c.u.zip c.y = (sources ds).map (fun b => ("u" ++ b.id, "y" ++ b.id)) ∧
      (graphEdges I ps).map (fun d => (d.tail, d.head)) =
        (ds.flatMap Device.branches).map fun b => (b.tail, b.head) := by
  obtain ⟨ps, h1, h2, h3⟩ := parts_facts h hI
  obtain ⟨c, k1, k2, k3⟩ := graphCore_eq h2 h3.ratios
  refine ⟨ps, c, h1, k1, fun e => by rw [k3, h3.energy], fun s => ?_, fun s => ?_, ?_, ?_⟩
  · rw [k2.x, List.mem_flatMap]
    constructor
    · rintro ⟨d, hd, hs⟩
      cases d <;> simp only [devX, List.mem_cons, List.not_mem_nil, or_false] at hs
      · exact ⟨_, _, hs, .inl hd⟩
      · exact ⟨_, _, hs, .inr hd⟩
    · rintro ⟨b, k, rfl, hd | hd⟩ <;> exact ⟨_, hd, List.mem_cons_self⟩
  · rw [k2.w, List.mem_flatMap]
    constructor
    · rintro ⟨d, hd, hs⟩
      cases d <;> simp only [devW, List.mem_cons, List.not_mem_nil, or_false] at hs
      exact ⟨_, _, hs, hd⟩
    · rintro ⟨b, k, rfl, hd⟩; exact ⟨_, hd, List.mem_cons_self⟩
  · rw [k2.u, k2.y, List.zip_map', show ds.flatMap devPorts = sources ds from
      List.flatMap_congr fun d _ => by cases d <;> rfl]
  · rw [graphEdges_eq h2 h3.ratios, List.map_flatMap, List.map_flatMap]
    refine List.flatMap_congr fun d _ => ?_
    cases d <;> rfl

/-- **C84**, equations. The method built from an accepted netlist solves the equations that its lines
describe: Kirchhoff's laws and the documented laws of the components. The controls are those imposed by
the components, and the same whatever the options of the method. -/
theorem C84_equations {I : Sym.Interp ℝ} {ps : List (Part ℝ)} {nodes : List String}
    {edges : List (Edge ℝ)} {c c2 : Core ℝ} {fuel : ℕ} (hc : Compiled I val rows ps nodes edges c fuel c2)
    (h : NetOK val rows ds) (hI : Arith I) : ∃ ec, Controls ds ec ∧
    ∀ (s : Sympy) (_ : s.OK) (o : Config) (_ : 0 < o.epsdg), ∃ m, toMethod s o c2 = some m ∧
      (∀ e, m.H e = stored ds fun i => e ("x" ++ i)) ∧
      (∀ e, m.Solved e ↔ ∃ E F, Step ds ec o.fs (weight o.kind o.θ) e E F) ∧
      ∀ e E F, Step ds ec o.fs (weight o.kind o.θ) e E F →
        (∀ b, .fluxSource b ∈ ds → outOf m ("y" ++ b.id) e = E b.id) ∧
        (∀ b, .effortSource b ∈ ds → outOf m ("y" ++ b.id) e = F b.id) := by
  obtain ⟨ec, h1, h2⟩ := method_facts (hc.facts h hI) hc.analysed
  refine ⟨ec, h1, fun s hs o ht => ?_⟩
  obtain ⟨m, k1, -, k2, -, -, k3, k4⟩ := h2 s hs o ht
  exact ⟨m, k1, fun e => by rw [k2], k3, k4⟩

theorem pre_ne {a b : String} {s t : Char} (hst : s ≠ t) :
    String.singleton s ++ a ≠ String.singleton t ++ b := by
  intro hh
  have := congrArg String.toList hh
  simp only [String.toList_append, String.toList_singleton, List.singleton_append, List.cons.injEq] at this
  exact hst this.1

theorem Names.nodup (hn : Names ds m) (hd : Distinct ds) :
    (m.g.x ++ m.g.x.map dn ++ m.w ++ m.u).Nodup := by
  have hx : ∀ s ∈ m.g.x, ∃ i, s = "x" ++ i := fun s hs => devX_pre (hn.x.mem_iff.1 hs)
  have hu : ∀ s ∈ m.u, ∃ i, s = "u" ++ i := fun s hs => by
    obtain ⟨b, -, rfl⟩ := List.mem_map.1 (hn.u.mem_iff.1 hs); exact ⟨b.id, rfl⟩
  have xnd : m.g.x.Nodup := hn.x.nodup_iff.2 hd.devX
  have und : m.u.Nodup := by
    refine hn.u.nodup_iff.2 ?_
    have := List.Nodup.map (f := fun i => "u" ++ i) (fun a b hab => pre_inj "u" hab) hd.ports
    rwa [List.map_map] at this
  have hdx : ∀ s ∈ m.g.x.map dn, ∃ i, s = "d" ++ i := fun s hs => by
    obtain ⟨l, -, rfl⟩ := List.mem_map.1 hs; exact ⟨l, rfl⟩
  refine List.nodup_append.2 ⟨List.nodup_append.2 ⟨List.nodup_append.2 ⟨xnd,
    xnd.map fun a b hab => pre_inj "d" hab, ?_⟩, hn.wnd, ?_⟩, und, ?_⟩
  · rintro a ha b hb rfl
    obtain ⟨i, h1⟩ := hx a ha
    obtain ⟨j, h2⟩ := hdx a hb
    exact pre_ne (s := 'x') (t := 'd') (by decide) (h1.symm.trans h2)
  · rintro a ha b hb rfl
    obtain ⟨j, h2⟩ := hn.w a hb
    rcases List.mem_append.1 ha with ha | ha
    · obtain ⟨i, h1⟩ := hx a ha
      exact pre_ne (s := 'x') (t := 'w') (by decide) (h1.symm.trans h2)
    · obtain ⟨i, h1⟩ := hdx a ha
      exact pre_ne (s := 'd') (t := 'w') (by decide) (h1.symm.trans h2)
  · rintro a ha b hb rfl
    obtain ⟨j, h2⟩ := hu a hb
    rcases List.mem_append.1 ha with ha | ha
    · rcases List.mem_append.1 ha with ha | ha
      · obtain ⟨i, h1⟩ := hx a ha
        exact pre_ne (s := 'x') (t := 'u') (by decide) (h1.symm.trans h2)
      · obtain ⟨i, h1⟩ := hdx a ha
        exact pre_ne (s := 'd') (t := 'u') (by decide) (h1.symm.trans h2)
    · obtain ⟨i, h1⟩ := hn.w a ha
      exact pre_ne (s := 'w') (t := 'u') (by decide) (h1.symm.trans h2)

/-- What one update of the simulation of the components `ds` does: the states move by their increments,
the inputs `U` are read, and the equations hold; `out` gives the outputs. -/
structure Update (ds : List Device) (ec : String → Prop) (fs ϑ : ℝ) (U : String → ℝ) (e e' : String → ℝ)
    (out : String → ℝ) : Prop where
  states : ∀ b k, .fluxStorage b k ∈ ds ∨ .effortStorage b k ∈ ds →
    e' ("x" ++ b.id) = e ("x" ++ b.id) + e ("dx" ++ b.id)
  inputs : ∀ b, .effortSource b ∈ ds ∨ .fluxSource b ∈ ds → e' ("u" ++ b.id) = U ("u" ++ b.id)
  eqs : ∃ E F, Step ds ec fs ϑ e' E F ∧ (∀ b, .fluxSource b ∈ ds → out ("y" ++ b.id) = E b.id) ∧
    (∀ b, .effortSource b ∈ ds → out ("y" ++ b.id) = F b.id)

theorem names_wf {n : Num} {m : Meth} (hm : n.m = m) (hw : MethWF m) (hn : Names ds m) (hd : Distinct ds)
    (hp : n.p = []) (ho : n.o = []) : n.WF := by
  subst hm
  refine ⟨?_, hw.uy⟩
  unfold Num.all
  rw [hp, ho, List.append_nil, List.append_nil]
  exact hn.nodup hd

/-- A simulation of components. -/
theorem sim_facts {lw : String → Env ℝ → ℝ} {nodes : List String} {edges : List (Edge ℝ)} {c c2 : Core ℝ}
    {fuel : ℕ} (f : Facts lw ds nodes edges c) (ha : toCore lw fuel nodes edges c = some c2) :
    ∃ ec, Controls ds ec ∧
    ∀ (s : Sympy) (_ : s.OK) (o : Config), 0 < o.fs → (o.kind = .theta → 0 ≤ o.θ) → 0 < o.epsdg →
    ∃ m, toMethod s o c2 = some m ∧
      ∀ (n : Num), n.m = m → n.p = [] → n.o = [] → n.obs = [] → 0 ≤ n.eps → n.eps < 1 → 1 ≤ n.maxit →
      ∀ (nt : ℕ) (U : ℕ → String → ℝ) (s0 : St Nm ℝ), s0.args.length = n.all.length →
        (∃ st, st 0 = s0 ∧ Run n nt ((List.range nt).map fun i => m.u.map (U i)) (List.replicate nt []) st) ∧
        ∀ st, Run n nt ((List.range nt).map fun i => m.u.map (U i)) (List.replicate nt []) st →
          (∀ i < nt, Converged n (st (i + 1))) ∧
          (n.eps = 0 → ∀ i < nt, Update ds ec o.fs (weight o.kind o.θ) (U i) (n.E (st i))
            (n.E (st (i + 1))) fun l => outOf m l (n.E (st (i + 1)))) := by
  obtain ⟨ec, h1, h2⟩ := method_facts f ha
  refine ⟨ec, h1, fun s hs o hfs hθ ht => ?_⟩
  obtain ⟨m, k1, kw, -, -, kn, k3, k4⟩ := h2 s hs o ht
  have hcH := f.lin
  have hj := hcH.jacSound f.ok rfl ha hs (o := o) ht
  obtain ⟨m', l1, l2⟩ := C69_linear f.ok hcH.static hcH.regular hcH.monotone hcH.linear hcH.quad ha
    s hs o hj hfs hθ ht
  obtain rfl : m = m' := Option.some.inj (k1.symm.trans l1)
  refine ⟨m, k1, fun n hm hp ho hobs he0 he1 hmax nt U s0 l0 => ?_⟩
  have hn := names_wf hm kw kn f.distinct hp ho
  have lu : ((List.range nt).map fun i => m.u.map (U i)).length = nt := by simp
  have du : ∀ r ∈ (List.range nt).map fun i => m.u.map (U i), r.length = m.u.length := fun r hr => by
    obtain ⟨i, -, rfl⟩ := List.mem_map.1 hr; simp
  obtain ⟨q1, q2⟩ := l2 n hm hn (by rw [ho, hobs]; rfl) he0 he1 hmax nt _ (List.replicate nt []) s0 lu
    (by simp) du (fun r hr => by rw [List.eq_of_mem_replicate hr, hp]; rfl) l0
  refine ⟨q1, fun st hr => ⟨(q2 st hr).1, fun hz i hi => ?_⟩⟩
  have hgu : ((List.range nt).map fun i => m.u.map (U i)).getD i [] = m.u.map (U i) := by
    rw [List.getD_eq_getElem?_getD, List.getElem?_map, List.getElem?_range hi]; rfl
  obtain ⟨-, a1, a2, -⟩ := C24_step hn (hr.facts hn i (by omega)) (getD_len hr.lu hr.du hi)
    (getD_len hr.lp hr.dp hi) (hr.step i hi)
  rw [hgu, hm] at a2
  have hsp := (C66_split_exact s hs o c2 (ready_of f.ok hcH.static ha)
    (regular_of f.ok hcH.regular ha) hj k1).2
  have hsol : m.Solved (n.E (st (i + 1))) := by
    subst hm
    exact solved_of_update hn kw hsp (hr.facts hn i (by omega)) (hr.step i hi) ((q2 st hr).2 hz i hi)
  obtain ⟨E, F, hst⟩ := (k3 _).1 hsol
  refine ⟨fun b k hb => ?_, fun b hb => ?_, ⟨E, F, hst, k4 _ E F hst⟩⟩
  · rw [a1 _ (by rw [hm]; exact kn.x.mem_iff.2 (mem_devX hb)), dn_x]
  · refine List.map_inj_left.1 a2 _ (kn.u.mem_iff.2 (List.mem_map.2 ⟨b, List.mem_flatMap.2 ?_, rfl⟩))
    rcases hb with hb | hb <;> exact ⟨_, hb, List.mem_cons_self⟩

/-- **C84**, simulation. A simulation of an accepted netlist exists for all inputs and all initial values;
each update moves the states by their increments, reads the inputs and, if the solver is asked for no
residual, solves the equations described by the netlist; the outputs are the efforts of the sources of flux
and the fluxes of the sources of effort. Without that demand, the iterations end below the tolerance. -/
theorem C84_simulation {I : Sym.Interp ℝ} {ps : List (Part ℝ)} {nodes : List String}
    {edges : List (Edge ℝ)} {c c2 : Core ℝ} {fuel : ℕ} (hc : Compiled I val rows ps nodes edges c fuel c2)
    (h : NetOK val rows ds) (hI : Arith I) : ∃ ec, Controls ds ec ∧
    ∀ (s : Sympy) (_ : s.OK) (o : Config), 0 < o.fs → (o.kind = .theta → 0 ≤ o.θ) → 0 < o.epsdg →
    ∃ m, toMethod s o c2 = some m ∧
      ∀ (n : Num), n.m = m → n.p = [] → n.o = [] → n.obs = [] → 0 ≤ n.eps → n.eps < 1 → 1 ≤ n.maxit →
      ∀ (nt : ℕ) (U : ℕ → String → ℝ) (s0 : St Nm ℝ), s0.args.length = n.all.length →
        (∃ st, st 0 = s0 ∧ Run n nt ((List.range nt).map fun i => m.u.map (U i)) (List.replicate nt []) st) ∧
        ∀ st, Run n nt ((List.range nt).map fun i => m.u.map (U i)) (List.replicate nt []) st →
          (∀ i < nt, Converged n (st (i + 1))) ∧
          (n.eps = 0 → ∀ i < nt, Update ds ec o.fs (weight o.kind o.θ) (U i) (n.E (st i))
            (n.E (st (i + 1))) fun l => outOf m l (n.E (st (i + 1)))) :=
  sim_facts (hc.facts h hI) hc.analysed

theorem mem_sources {b : Branch} (hb : b ∈ sources ds) : .effortSource b ∈ ds ∨ .fluxSource b ∈ ds := by
  obtain ⟨d, hd, hb⟩ := List.mem_flatMap.1 hb
  cases d <;> simp only [List.mem_cons, List.not_mem_nil, or_false] at hb
  · subst hb; exact .inl hd
  · subst hb; exact .inr hd

/-- The energy of the state of an update and the one of the next. -/
theorem update_power (hpos : ∀ d ∈ ds, d.Positive) {ec : String → Prop} {fs : ℝ} (hfs : 0 < fs)
    {e e' E F out : String → ℝ} (hst : Step ds ec fs (1 / 2) e E F)
    (hE : ∀ b, .fluxSource b ∈ ds → out ("y" ++ b.id) = E b.id)
    (hF : ∀ b, .effortSource b ∈ ds → out ("y" ++ b.id) = F b.id)
    (hx : ∀ b k, .fluxStorage b k ∈ ds ∨ .effortStorage b k ∈ ds →
      e' ("x" ++ b.id) = e ("x" ++ b.id) + e ("dx" ++ b.id)) :
    stored ds (fun i => e' ("x" ++ i)) = stored ds (fun i => e ("x" ++ i)) -
      (dissipated ds F + ((sources ds).map fun b => e ("u" ++ b.id) * out ("y" ++ b.id)).sum) / fs := by
  have h1 := step_power hpos hst.eqs
  have h2 : stored ds (fun i => e' ("x" ++ i)) = stored ds fun i => e ("x" ++ i) + e ("dx" ++ i) := by
    unfold stored
    congr 1
    refine List.map_congr_left fun d hd => ?_
    cases d with
    | fluxStorage b k => simp only [Device.energy]; rw [hx b k (.inl hd)]
    | effortStorage b k => simp only [Device.energy]; rw [hx b k (.inr hd)]
    | _ => rfl
  have h3 : ((sources ds).map fun b => e ("u" ++ b.id) * out ("y" ++ b.id)) =
      (sources ds).map fun b => E b.id * F b.id := by
    refine List.map_congr_left fun b hb => ?_
    rcases mem_sources hb with hb | hb
    · rw [hF b hb, show E b.id = e ("u" ++ b.id) from hst.eqs.laws _ hb]
    · rw [hE b hb, show F b.id = e ("u" ++ b.id) from hst.eqs.laws _ hb, mul_comm]
  rw [h2, h3]
  field_simp
  linarith

/-- The balance of energy of a simulation of components. -/
theorem energy_facts {lw : String → Env ℝ → ℝ} {nodes : List String} {edges : List (Edge ℝ)} {c c2 : Core ℝ}
    {fuel : ℕ} (f : Facts lw ds nodes edges c) (ha : toCore lw fuel nodes edges c = some c2) :
    ∃ ec, Controls ds ec ∧
    ∀ (s : Sympy) (_ : s.OK) (o : Config), 0 < o.fs → (o.kind = .theta → o.θ = 1 / 2) → 0 < o.epsdg →
    ∃ m, toMethod s o c2 = some m ∧
      ∀ (n : Num), n.m = m → n.p = [] → n.o = [] → n.obs = [] → n.eps = 0 → 1 ≤ n.maxit →
      ∀ (nt : ℕ) (U : ℕ → String → ℝ) (st : ℕ → St Nm ℝ),
        Run n nt ((List.range nt).map fun i => m.u.map (U i)) (List.replicate nt []) st →
        ∃ E F : ℕ → String → ℝ,
          (∀ i < nt, Step ds ec o.fs (1 / 2) (n.E (st (i + 1))) (E i) (F i)) ∧
          (∀ i, 0 ≤ dissipated ds (F i)) ∧
          ∀ k N, k + N < nt →
            stored ds (fun i => n.E (st (k + N + 1)) ("x" ++ i)) =
              stored ds (fun i => n.E (st (k + 1)) ("x" ++ i)) -
              (∑ j ∈ Finset.range N, (dissipated ds (F (k + j)) + ((sources ds).map fun b =>
                U (k + j) ("u" ++ b.id) * outOf m ("y" ++ b.id) (n.E (st (k + j + 1)))).sum)) / o.fs := by
  obtain ⟨ec, hec, h2⟩ := sim_facts f ha
  refine ⟨ec, hec, fun s hs o hfs hθ ht => ?_⟩
  obtain ⟨m, k1, k2⟩ := h2 s hs o hfs (fun e => by rw [hθ e]; norm_num) ht
  have hw : weight o.kind o.θ = 1 / 2 := by
    cases hk : o.kind
    · rfl
    · simp only [weight]; exact hθ hk
    · rfl
  refine ⟨m, k1, fun n hm hp ho hobs he hmax nt U st hr => ?_⟩
  have q := (k2 n hm hp ho hobs (le_of_eq he.symm) (by rw [he]; norm_num) hmax nt U (st 0) hr.init).2 st hr
  have q2 := q.2 he
  rw [hw] at q2
  have q3 : ∀ i : ℕ, ∃ E F : String → ℝ, i < nt → Step ds ec o.fs (1 / 2) (n.E (st (i + 1))) E F ∧
      (∀ b, .fluxSource b ∈ ds → outOf m ("y" ++ b.id) (n.E (st (i + 1))) = E b.id) ∧
      (∀ b, .effortSource b ∈ ds → outOf m ("y" ++ b.id) (n.E (st (i + 1))) = F b.id) := fun i => by
    by_cases hi : i < nt
    · obtain ⟨E, F, hh⟩ := (q2 i hi).eqs
      exact ⟨E, F, fun _ => hh⟩
    · exact ⟨fun _ => 0, fun _ => 0, fun hh => absurd hh hi⟩
  choose E F hEF using q3
  refine ⟨E, F, fun i hi => (hEF i hi).1, fun i => dissipated_nonneg f.positive _, fun k N => ?_⟩
  induction N with
  | zero => intro _; simp
  | succ N ih =>
    intro hk
    obtain ⟨s1, s2, s3⟩ := hEF (k + N) (by omega)
    have hu := update_power f.positive hfs s1 (out := fun l => outOf m l (n.E (st (k + N + 1)))) s2 s3
      (q2 (k + N + 1) (by omega)).states
    rw [← Nat.add_assoc, hu, ih (by omega), Finset.sum_range_succ, add_div]
    have hin : ((sources ds).map fun b => n.E (st (k + N + 1)) ("u" ++ b.id) *
        outOf m ("y" ++ b.id) (n.E (st (k + N + 1)))) = (sources ds).map fun b => U (k + N) ("u" ++ b.id) *
        outOf m ("y" ++ b.id) (n.E (st (k + N + 1))) :=
      List.map_congr_left fun b hb => by rw [(q2 (k + N) (by omega)).inputs b (mem_sources hb)]
    rw [hin]
    ring

/-- **C84**, energy. With a midpoint rule (the discrete gradient, the trapezoidal rule, the θ-scheme with
`θ = 1/2`), the energy stored in the components after some steps is the one at the beginning, less
what the resistances dissipate and the sources receive, which is the sum of the products of their inputs and
outputs. The dissipation is not negative, therefore the energy does not grow by more than what the
sources deliver. -/
theorem C84_energy {I : Sym.Interp ℝ} {ps : List (Part ℝ)} {nodes : List String}
    {edges : List (Edge ℝ)} {c c2 : Core ℝ} {fuel : ℕ} (hc : Compiled I val rows ps nodes edges c fuel c2)
    (h : NetOK val rows ds) (hI : Arith I) : ∃ ec, Controls ds ec ∧
    ∀ (s : Sympy) (_ : s.OK) (o : Config), 0 < o.fs → (o.kind = .theta → o.θ = 1 / 2) → 0 < o.epsdg →
    ∃ m, toMethod s o c2 = some m ∧
      ∀ (n : Num), n.m = m → n.p = [] → n.o = [] → n.obs = [] → n.eps = 0 → 1 ≤ n.maxit →
      ∀ (nt : ℕ) (U : ℕ → String → ℝ) (st : ℕ → St Nm ℝ),
        Run n nt ((List.range nt).map fun i => m.u.map (U i)) (List.replicate nt []) st →
        ∃ E F : ℕ → String → ℝ,
          (∀ i < nt, Step ds ec o.fs (1 / 2) (n.E (st (i + 1))) (E i) (F i)) ∧
          (∀ i, 0 ≤ dissipated ds (F i)) ∧
          ∀ k N, k + N < nt →
            stored ds (fun i => n.E (st (k + N + 1)) ("x" ++ i)) =
              stored ds (fun i => n.E (st (k + 1)) ("x" ++ i)) -
              (∑ j ∈ Finset.range N, (dissipated ds (F (k + j)) + ((sources ds).map fun b =>
                U (k + j) ("u" ++ b.id) * outOf m ("y" ++ b.id) (n.E (st (k + j + 1)))).sum)) / o.fs :=
  energy_facts (hc.facts h hI) hc.analysed

/-- **C84**, the resistances and the dampers: the value `None` stands for zero. -/
theorem C84_none {F : Type} (val : F → ℝ) (r r' : Row F) (key : String) (d : ℝ) (f : F) (hf : val f = 0)
    (hp : parameter (dictName r) (compName r) = some (key, d))
    (hk : (dictName r, compName r) ∈ [("electronics", "resistor"), ("mechanics", "damper"),
      ("mechanics_dual", "damper"), ("magnetics", "resistor")])
    (hn : r.args.lookup key.toList = some .none)
    (hr' : r' = { r with args := r.args.map fun p =>
      if p.1 = key.toList then (p.1, .elem (.num f)) else p }) :
    rowPart val r = rowPart val r' := by
  subst hr'
  have hl : ∀ L : List (Netlist.Str × Netlist.Lit F), L.lookup key.toList = some .none →
      (L.map fun p => if p.1 = key.toList then (p.1, .elem (.num f)) else p).lookup key.toList =
        some (.elem (.num f)) := by
    intro L
    induction L with
    | nil => intro h; cases h
    | cons p L ih =>
      intro h
      rw [List.lookup_cons] at h
      rw [List.map_cons, List.lookup_cons]
      by_cases hpk : p.1 = key.toList
      · simp [hpk]
      · have : (key.toList == p.1) = false := by simpa using fun hh => hpk hh.symm
        rw [this] at h
        rw [if_neg hpk, this]
        exact ih h
  have hcoef : ∀ dflt : Option (Obj ℝ), coefficient val r.args key dflt = .ok (.num 0) ∧
      coefficient val (r.args.map fun p => if p.1 = key.toList then (p.1, .elem (.num f)) else p) key dflt =
        .ok (.num 0) := by
    intro dflt
    unfold coefficient argument
    rw [hn, hl _ hn]
    exact ⟨rfl, by simp only [toObj, hf]⟩
  have hkeys : (∃ p ∈ r.args, p.1 ∈ ["self".toList, "label".toList, "nodes".toList]) ↔
      ∃ p ∈ r.args.map fun p => if p.1 = key.toList then (p.1, .elem (.num f)) else p,
        p.1 ∈ ["self".toList, "label".toList, "nodes".toList] := by
    simp only [List.mem_map]
    constructor
    · rintro ⟨p, h1, h2⟩
      refine ⟨_, ⟨p, h1, rfl⟩, ?_⟩
      split <;> exact h2
    · rintro ⟨_, ⟨p, h1, rfl⟩, h2⟩
      refine ⟨p, h1, ?_⟩
      split at h2 <;> exact h2
  have hcl : ∃ h t dflt inv, r.comp.map Char.toLower = h :: t ∧
      classOf (K := ℝ) (txt r.dict) (txt (h.toUpper :: t)) = some (.dissipative key dflt inv) := by
    have hcomp : ∀ {h : Char} {t : Netlist.Str}, compName r = name (h :: t) → r.comp.map Char.toLower = h :: t :=
      fun hc => String.ofList_injective hc
    simp only [List.mem_cons, List.not_mem_nil, or_false, Prod.mk.injEq] at hk
    rcases hk with ⟨hD, hC⟩ | ⟨hD, hC⟩ | ⟨hD, hC⟩ | ⟨hD, hC⟩ <;> rw [hD, hC] at hp <;>
      obtain ⟨rfl, -⟩ := Prod.mk.inj (Option.some.inj hp)
    · exact ⟨'r', "esistor".toList, _, _, hcomp hC, by
        show classOf (dictName r) _ = _
        rw [hD]; rfl⟩
    · exact ⟨'d', "amper".toList, _, _, hcomp hC, by
        show classOf (dictName r) _ = _
        rw [hD]; rfl⟩
    · exact ⟨'d', "amper".toList, _, _, hcomp hC, by
        show classOf (dictName r) _ = _
        rw [hD]; rfl⟩
    · exact ⟨'r', "esistor".toList, _, _, hcomp hC, by
        show classOf (dictName r) _ = _
        rw [hD]; rfl⟩
  obtain ⟨h, t, dflt, inv, hc1, hc2⟩ := hcl
  unfold rowPart
  dsimp only
  rw [hc1]
  dsimp only
  rw [hc2]
  dsimp only
  by_cases hb : ∃ p ∈ r.args, p.1 ∈ ["self".toList, "label".toList, "nodes".toList]
  · rw [if_pos hb, if_pos (hkeys.1 hb)]
  · rw [if_neg hb, if_neg fun h => hb (hkeys.2 h)]
    unfold Class.init
    dsimp only
    rw [(hcoef dflt).1, (hcoef dflt).2]

end System
end Pyphs
