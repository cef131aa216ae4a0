/-
The graph and the core built from the components of a netlist with nonlinear components.
-/
import Verif.Nonlin.RowsNl
import Verif.System.Assemble

namespace Pyphs
namespace Nonlin
open Core Graph Params
open _root_.Pyphs.System (Branch Device Rel ratiosOf devEdges Declares declares_part edges_part declares_add
  foldlM_some pre_inj addCores_flat dictName compName Works)
open Netlist (Row Lit Elem Str)

/-- The linear component with the same branches and the same kind of edges. -/
def Component.shadow : Component → Device
  | .linear d => d
  | .fluxStorage b _ _ _ => .fluxStorage b 1
  | .effortStorage b _ _ _ => .effortStorage b 1
  | .conductor b _ => .resistance b 1

theorem shadow_branches (c : Component) : c.shadow.branches = c.branches := by
  cases c <;> rfl

variable {F : Type} {val : F → ℝ} {rows : List (Row F)} {ps : List NPart} {css : List (List Component)}

/-- The parts of a netlist. -/
structure Parts (val : F → ℝ) (rows : List (Row F)) (css : List (List Component)) (ps : List NPart) :
    Prop where
  rel : List.Forall₂ NRel ps css
  recorded : (ps.flatMap NPart.comp).flatMap Comp.records =
    (rows.flatMap (paramsOf val)).map fun q => (q.1, Sym.Val.num q.2)
  keys : ∀ c ∈ ps.flatMap NPart.comp, (c.kwargs.map (·.1)).Nodup
  order : ∀ c ∈ ps.flatMap NPart.comp, ∀ a ∈ c.kwargs, ∀ q ∈ c.kwargs, a.1 < q.1 →
    a.2.symbol (c.label ++ "_" ++ a.1) ≠ q.1
  named : ∀ c ∈ ps.flatMap NPart.comp, ∀ a ∈ c.args, a.2.named = []
  vars : ∀ c ∈ ps.flatMap NPart.comp, ∀ v ∈ c.vars, v ∈ symbolsOf css.flatten

theorem buildParts_ok (hm : List.Forall₂ (fun r l => components val r = some l) rows css)
    (hw : ∀ r ∈ rows, parameters (dictName r) (compName r) = none → Works r)
    (hwn : ∀ r ∈ rows, ∀ ps, parameters (dictName r) (compName r) = some ps → WorksNl val r ps)
    (hph : ∀ c ∈ css.flatten, c.Physical) :
    ∃ ps, buildParts val rows = .ok ps ∧ Parts val rows css ps := by
  induction hm with
  | nil =>
    exact ⟨[], rfl, .nil, rfl, fun _ h => (nomatch h), fun _ h => (nomatch h), fun _ h => (nomatch h),
      fun _ h => (nomatch h)⟩
  | @cons r l rows css h _ ih =>
    obtain ⟨ps, h1, h2⟩ := ih (fun r hr => hw r (List.mem_cons_of_mem _ hr))
      (fun r hr => hwn r (List.mem_cons_of_mem _ hr))
      (fun c hc => hph c (by rw [List.flatten_cons]; exact List.mem_append_right _ hc))
    obtain ⟨p, k1, k2, k3⟩ := nrow_ok (hw r List.mem_cons_self) (hwn r List.mem_cons_self) h
      (fun c hc => hph c (by rw [List.flatten_cons]; exact List.mem_append_left _ hc))
    have hsym : symbolsOf (l :: css).flatten = symbolsOf l ++ symbolsOf css.flatten := by
      rw [List.flatten_cons]; unfold symbolsOf; rw [List.flatMap_append]
    refine ⟨p :: ps, ?_, .cons k2 h2.rel, ?_, ?_, ?_, ?_, ?_⟩
    · unfold buildParts at h1 ⊢
      rw [List.mapM_cons, k1, h1]; rfl
    · rw [List.flatMap_cons, List.flatMap_append, k3.recorded, h2.recorded, List.flatMap_cons, List.map_append]
    all_goals
      intro c hc
      rw [List.flatMap_cons, List.mem_append] at hc
    · exact hc.elim (k3.keys c) (h2.keys c)
    · exact hc.elim (k3.order c) (h2.order c)
    · exact hc.elim (k3.named c) (h2.named c)
    · intro v hv
      rw [hsym, List.mem_append]
      exact hc.elim (fun hc => .inl (k3.vars c hc v hv)) (fun hc => .inr (h2.vars c hc v hv))

theorem Parts.namesOK (h : Parts val rows css ps)
    (hval : ∀ p ∈ rows.flatMap (paramsOf val), ∀ q ∈ rows.flatMap (paramsOf val), p.1 = q.1 → p.2 = q.2) :
    NamesOK (ps.flatMap NPart.comp) where
  keys := h.keys
  order := h.order
  values := by
    intro p hp q hq hpq
    rw [← records_eq, h.recorded] at hp hq
    obtain ⟨p', hp', rfl⟩ := List.mem_map.1 hp
    obtain ⟨q', hq', rfl⟩ := List.mem_map.1 hq
    dsimp only at hpq ⊢
    rw [hval p' hp' q' hq' hpq]

theorem Parts.namesFree (h : Parts val rows css ps)
    (hnm : ∀ p ∈ rows.flatMap (paramsOf val), p.1 ∉ symbolsOf css.flatten) :
    NamesFree (ps.flatMap NPart.comp) := by
  have hkeys : ∀ s, s ∈ (records (ps.flatMap NPart.comp)).map (·.1) → s ∉ symbolsOf css.flatten := by
    intro s hs
    rw [← records_eq, h.recorded, List.map_map] at hs
    obtain ⟨p, hp, rfl⟩ := List.mem_map.1 hs
    exact hnm p hp
  refine ⟨?_, ?_, ?_⟩
  · intro s hs
    obtain ⟨c, hc, hs⟩ := List.mem_flatMap.1 hs
    obtain ⟨a, ha, hs⟩ := List.mem_flatMap.1 hs
    rw [h.named c hc a ha] at hs
    cases hs
  · intro c hc s hs hk
    exact hkeys s hk (h.vars c hc s hs)
  · intro p hp s hs
    rw [← records_eq, h.recorded] at hp
    obtain ⟨p', -, rfl⟩ := List.mem_map.1 hp
    simp [Sym.Val.expr, Sym.Expr.free] at hs

/-! ### Energy, laws and ratios -/

/-- The laws of the dissipative branches of some components: name, flux-controlled law, effort-controlled
law. -/
structure LawList (cs : List Component) (L : List (String × (ℝ → ℝ) × (ℝ → ℝ))) : Prop where
  ids : L.map (·.1) = (cs.flatMap Component.dissipative).map (·.id)
  conductor : ∀ b g, .conductor b g ∈ cs → ∃ gi, Function.LeftInverse gi g ∧ (b.id, gi, g) ∈ L
  resistance : ∀ b r, .linear (.resistance b r) ∈ cs → (b.id, (fun x => r * x), fun x => r⁻¹ * x) ∈ L

theorem LawList.append {cs cs' : List Component} {L L' : List (String × (ℝ → ℝ) × (ℝ → ℝ))}
    (h : LawList cs L) (h' : LawList cs' L') : LawList (cs ++ cs') (L ++ L') where
  ids := by rw [List.map_append, h.ids, h'.ids, List.flatMap_append, List.map_append]
  conductor := by
    intro b g hb
    rcases List.mem_append.1 hb with hb | hb
    · obtain ⟨gi, h1, h2⟩ := h.conductor b g hb; exact ⟨gi, h1, List.mem_append_left _ h2⟩
    · obtain ⟨gi, h1, h2⟩ := h'.conductor b g hb; exact ⟨gi, h1, List.mem_append_right _ h2⟩
  resistance := by
    intro b r hb
    rcases List.mem_append.1 hb with hb | hb
    · exact List.mem_append_left _ (h.resistance b r hb)
    · exact List.mem_append_right _ (h'.resistance b r hb)

theorem laws_edges {kw : Sym.Dict (Obj ℝ)} {es : List DEdge} {cs : List Component}
    (h : List.Forall₂ (DRel kw) es cs) : ∃ L, LawList cs L ∧ es.map (·.id) = L.map (·.1) ∧
    ∀ I, ArithNl I → ∀ e, (es.map fun d => (d.zf.eval I (atArgs I e kw), d.ze.eval I (atArgs I e kw))) =
      L.map fun q => (q.2.1 (e ("w" ++ q.1)), q.2.2 (e ("w" ++ q.1))) := by
  induction h with
  | nil => exact ⟨[], ⟨rfl, fun _ _ h => (nomatch h), fun _ _ h => (nomatch h)⟩, rfl, fun _ _ _ => rfl⟩
  | @cons d c es cs h _ ih =>
    obtain ⟨L, h1, h2, h3⟩ := ih
    cases h with
    | @conductor g gi hinv he hf =>
      refine ⟨(d.id, gi, g) :: L, ?_, by rw [List.map_cons, List.map_cons, h2], fun I hI e => ?_⟩
      · refine LawList.append (cs := [.conductor ⟨d.id, d.tail, d.head⟩ g]) (L := [(d.id, gi, g)]) ⟨rfl, ?_, ?_⟩ h1
        · intro b g' hb
          cases List.mem_singleton.1 hb
          exact ⟨gi, hinv, List.mem_cons_self⟩
        · intro b r hb; cases List.mem_singleton.1 hb
      · rw [List.map_cons, List.map_cons, h3 I hI, he I hI, hf I hI]
    | @resistance r he hf =>
      refine ⟨(d.id, (fun x => r * x), fun x => r⁻¹ * x) :: L, ?_, by rw [List.map_cons, List.map_cons, h2],
        fun I hI e => ?_⟩
      · refine LawList.append (cs := [.linear (.resistance ⟨d.id, d.tail, d.head⟩ r)])
          (L := [(d.id, (fun x => r * x), fun x => r⁻¹ * x)]) ⟨rfl, ?_, ?_⟩ h1
        · intro b g' hb; cases List.mem_singleton.1 hb
        · intro b r' hb
          cases List.mem_singleton.1 hb
          exact List.mem_cons_self
      · rw [List.map_cons, List.map_cons, h3 I hI, he I hI, hf I hI]

theorem laws_part {p : NPart} {l : List Component} (h : NRel p l) : ∃ L, LawList l L ∧
    p.dissLabels = L.map (·.1) ∧
    ∀ I, ArithNl I → ∀ e, (p.comp.flatMap fun c => c.laws I e) =
      L.map fun q => (q.2.1 (e ("w" ++ q.1)), q.2.2 (e ("w" ++ q.1))) := by
  cases h with
  | linear h =>
    cases h with
    | @resistance l t h o v inv hv =>
      refine ⟨[(l, (fun x => (if inv then v⁻¹ else v) * x), fun x => (if inv then v⁻¹ else v)⁻¹ * x)],
        ⟨rfl, ?_, ?_⟩, rfl, fun I hI e => ?_⟩
      · intro b g hb; cases List.mem_singleton.1 hb
      · intro b r hb; cases List.mem_singleton.1 hb; exact List.mem_cons_self
      · cases inv <;> simp [NPart.comp, System.Part.comp, Comp.laws, hv.value, div_eq_inv_mul]
    | _ =>
      refine ⟨[], ⟨rfl, ?_, ?_⟩, rfl, fun I hI e => rfl⟩
      · intro b g hb; cases List.mem_singleton.1 hb
      · intro b r hb; cases List.mem_singleton.1 hb
  | fluxStorage hv =>
    refine ⟨[], ⟨rfl, ?_, ?_⟩, rfl, fun I hI e => rfl⟩
    · intro b g hb; cases List.mem_singleton.1 hb
    · intro b r hb; cases List.mem_singleton.1 hb
  | effortStorage hv =>
    refine ⟨[], ⟨rfl, ?_, ?_⟩, rfl, fun I hI e => rfl⟩
    · intro b g hb; cases List.mem_singleton.1 hb
    · intro b r hb; cases List.mem_singleton.1 hb
  | dissipative hes =>
    obtain ⟨L, h1, h2, h3⟩ := laws_edges hes
    refine ⟨L, h1, h2, fun I hI e => ?_⟩
    rw [← h3 I hI]
    simp [NPart.comp, Comp.laws]

theorem laws_all (h : List.Forall₂ NRel ps css) : ∃ L, LawList css.flatten L ∧
    ps.flatMap NPart.dissLabels = L.map (·.1) ∧
    ∀ I, ArithNl I → ∀ e, ((ps.flatMap NPart.comp).flatMap fun c => c.laws I e) =
      L.map fun q => (q.2.1 (e ("w" ++ q.1)), q.2.2 (e ("w" ++ q.1))) := by
  induction h with
  | nil => exact ⟨[], ⟨rfl, fun _ _ h => (nomatch h), fun _ _ h => (nomatch h)⟩, rfl, fun _ _ _ => rfl⟩
  | cons h _ ih =>
    obtain ⟨L, h1, h2, h3⟩ := ih
    obtain ⟨L', k1, k2, k3⟩ := laws_part h
    refine ⟨L' ++ L, by rw [List.flatten_cons]; exact k1.append h1, ?_, fun I hI e => ?_⟩
    · rw [List.flatMap_cons, k2, h2, List.map_append]
    · rw [List.flatMap_cons, List.flatMap_append, k3 I hI, h3 I hI, List.map_append]

theorem energy_diss {kw : Sym.Dict (Obj ℝ)} {es : List DEdge} {cs : List Component}
    (h : List.Forall₂ (DRel kw) es cs) (x : String → ℝ) : (cs.map (Component.energy x)).sum = 0 := by
  induction h with
  | nil => rfl
  | cons h _ ih =>
    rw [List.map_cons, List.sum_cons, ih]
    cases h <;> simp [Component.energy, Device.energy]

theorem energy_part {p : NPart} {l : List Component} (h : NRel p l) {I : Sym.Interp ℝ} (hI : ArithNl I) (e : Env ℝ) :
    (p.comp.map fun c => c.energy I e).sum = (l.map (Component.energy fun i => e ("x" ++ i))).sum := by
  cases h with
  | linear h =>
    cases h with
    | fluxStorage inv hv =>
      cases inv <;> simp [NPart.comp, System.Part.comp, Comp.energy, Component.energy, Device.energy, hv.value]
    | effortStorage inv hv =>
      cases inv <;> simp [NPart.comp, System.Part.comp, Comp.energy, Component.energy, Device.energy, hv.value]
    | _ => simp [NPart.comp, System.Part.comp, Comp.energy, Component.energy, Device.energy]
  | fluxStorage hv => simp [NPart.comp, Comp.energy, Component.energy, hv I hI]
  | effortStorage hv => simp [NPart.comp, Comp.energy, Component.energy, hv I hI]
  | dissipative hes =>
    rw [energy_diss hes]
    simp [NPart.comp, Comp.energy, Sym.Expr.eval]

theorem energy_all (h : List.Forall₂ NRel ps css) {I : Sym.Interp ℝ} (hI : ArithNl I) (e : Env ℝ) :
    ((ps.flatMap NPart.comp).map fun c => c.energy I e).sum = stored css.flatten fun i => e ("x" ++ i) := by
  unfold stored
  induction h with
  | nil => rfl
  | cons h _ ih =>
    rw [List.flatMap_cons, List.map_append, List.sum_append, List.flatten_cons, List.map_append,
      List.sum_append, ih, energy_part h hI]

theorem ratiosOf_append (a b : List Device) : ratiosOf (a ++ b) = ratiosOf a ++ ratiosOf b := by
  induction a with
  | nil => rfl
  | cons d a ih => cases d <;> simp [ratiosOf, ih]

theorem ratios_diss {kw : Sym.Dict (Obj ℝ)} {es : List DEdge} {cs : List Component}
    (h : List.Forall₂ (DRel kw) es cs) : ratiosOf (cs.map Component.shadow) = [] := by
  induction h with
  | nil => rfl
  | cons h _ ih => cases h <;> simpa [ratiosOf, Component.shadow] using ih

theorem ratios_part {p : NPart} {l : List Component} (h : NRel p l) {I : Sym.Interp ℝ} (e : Env ℝ) :
    (p.comp.flatMap fun c => c.ratio I e) = ratiosOf (l.map Component.shadow) := by
  cases h with
  | linear h =>
    cases h with
    | gyrator hv => simp [NPart.comp, System.Part.comp, Comp.ratio, atArgs, hv.value, ratiosOf, Component.shadow]
    | transformer hv => simp [NPart.comp, System.Part.comp, Comp.ratio, atArgs, hv.value, ratiosOf, Component.shadow]
    | _ => simp [NPart.comp, System.Part.comp, Comp.ratio, ratiosOf, Component.shadow]
  | fluxStorage hv => rfl
  | effortStorage hv => rfl
  | dissipative hes => rw [ratios_diss hes]; rfl

theorem ratios_all (h : List.Forall₂ NRel ps css) {I : Sym.Interp ℝ} (e : Env ℝ) :
    ((ps.flatMap NPart.comp).flatMap fun c => c.ratio I e) = ratiosOf (css.flatten.map Component.shadow) := by
  induction h with
  | nil => rfl
  | cons h _ ih =>
    rw [List.flatMap_cons, List.flatMap_append, List.flatten_cons, List.map_append, ratiosOf_append, ih,
      ratios_part h]

/-- The equations of the components with the values of the parameters. -/
structure Resolved (I : Sym.Interp ℝ) (ps : List NPart) (cs : List Component)
    (L : List (String × (ℝ → ℝ) × (ℝ → ℝ))) : Prop where
  energy : energy I ps = fun e => stored cs fun i => e ("x" ++ i)
  zf : ∀ e, (resolved I ps e).getD 1 [] = L.map fun q => q.2.1 (e ("w" ++ q.1))
  ze : ∀ e, (resolved I ps e).getD 2 [] = L.map fun q => q.2.2 (e ("w" ++ q.1))
  labels : ps.flatMap NPart.dissLabels = L.map (·.1)
  ratios : ratios I ps = ratiosOf (cs.map Component.shadow)
  list : LawList cs L

theorem resolved_ok {I : Sym.Interp ℝ} (hI : ArithNl I) (h : List.Forall₂ NRel ps css)
    (hn : NamesOK (ps.flatMap NPart.comp)) (hf : NamesFree (ps.flatMap NPart.comp)) :
    ∃ L, Resolved I ps css.flatten L := by
  have hr : ∀ e, resolved I ps e = meant I e (ps.flatMap NPart.comp) := fun e =>
    (C80_resolved hI.toArith _ hn hf).1 e
  obtain ⟨L, l1, l2, l3⟩ := laws_all h
  refine ⟨L, ?_, fun e => ?_, fun e => ?_, l2, ?_, l1⟩
  · funext e
    unfold energy
    rw [hr]
    exact energy_all h hI e
  · rw [hr]
    show ((ps.flatMap NPart.comp).flatMap fun c => c.laws I e).map (·.1) = _
    rw [l3 I hI, List.map_map]; rfl
  · rw [hr]
    show ((ps.flatMap NPart.comp).flatMap fun c => c.laws I e).map (·.2) = _
    rw [l3 I hI, List.map_map]; rfl
  · unfold ratios
    rw [hr]
    exact ratios_all h _

theorem lookup_zip {α : Type} {L : List (String × α)} (hL : (L.map (·.1)).Nodup) (s : String)
    (f : String × α → ℝ) {q : String × α} (hq : q ∈ L) :
    (((L.map (·.1)).map fun l => s ++ l).zip (L.map f)).lookup (s ++ q.1) = some (f q) := by
  induction L with
  | nil => cases hq
  | cons p L ih =>
    rw [List.map_cons, List.nodup_cons] at hL
    rw [List.map_cons, List.map_cons, List.map_cons, List.zip_cons_cons, List.lookup_cons]
    rcases List.mem_cons.1 hq with rfl | hq
    · simp
    · have : s ++ q.1 ≠ s ++ p.1 := fun hh => hL.1 (pre_inj s hh ▸ List.mem_map_of_mem hq)
      rw [beq_false_of_ne this]
      exact ih hL.2 hq

theorem law_eq {I : Sym.Interp ℝ} {cs : List Component} {L : List (String × (ℝ → ℝ) × (ℝ → ℝ))}
    (hr : Resolved I ps cs L) (hn : (L.map (·.1)).Nodup) {q : String × (ℝ → ℝ) × (ℝ → ℝ)} (hq : q ∈ L) :
    law I ps ("f:w" ++ q.1) = (fun e => q.2.1 (e ("w" ++ q.1))) ∧
    law I ps ("e:w" ++ q.1) = fun e => q.2.2 (e ("w" ++ q.1)) := by
  constructor
  · funext e
    unfold law
    rw [hr.zf, hr.ze, hr.labels, List.lookup_append,
      lookup_zip hn "f:w" (fun q => q.2.1 (e ("w" ++ q.1))) hq]
    rfl
  · funext e
    unfold law
    rw [hr.zf, hr.ze, hr.labels, List.lookup_append,
      lookup_zip hn "e:w" (fun q => q.2.2 (e ("w" ++ q.1))) hq]
    have : (((L.map (·.1)).map fun l => "f:w" ++ l).zip (L.map fun q => q.2.1 (e ("w" ++ q.1)))).lookup
        ("e:w" ++ q.1) = none := by
      rw [List.lookup_eq_none_iff]
      intro p hp
      obtain ⟨l, -, hl⟩ := List.mem_map.1 (List.of_mem_zip hp).1
      rw [bne_iff_ne, ← hl]
      intro hh
      have := congrArg String.toList hh
      rw [String.toList_append, String.toList_append] at this
      simp at this
    rw [this]
    rfl

/-! ### The graph and the core -/

theorem diss_shadow {kw : Sym.Dict (Obj ℝ)} {es : List DEdge} {cs : List Component}
    (h : List.Forall₂ (DRel kw) es cs) : ∀ d ∈ cs.map Component.shadow, ∃ b r, d = .resistance b r := by
  induction h with
  | nil => intro d hd; cases hd
  | cons h _ ih =>
    intro d hd
    rcases List.mem_cons.1 hd with rfl | hd
    · cases h <;> exact ⟨_, _, rfl⟩
    · exact ih d hd

theorem diss_w {kw : Sym.Dict (Obj ℝ)} {es : List DEdge} {cs : List Component}
    (h : List.Forall₂ (DRel kw) es cs) :
    es.map (fun d => "w" ++ d.id) = (cs.map Component.shadow).flatMap System.devW ∧
    (NPart.edges 0 (.dissipative "" kw es)) = (cs.map Component.shadow).flatMap devEdges := by
  induction h with
  | nil => exact ⟨rfl, rfl⟩
  | cons h _ ih =>
    cases h <;> exact ⟨by simp [ih.1, Component.shadow, System.devW],
      congrArg (List.cons _) ih.2⟩

theorem declares_part {p : NPart} {l : List Component} (h : NRel p l) (lw : String → Env ℝ → ℝ) {a : ℝ}
    (ha : ∀ α ∈ ratiosOf (l.map Component.shadow), a = α) :
    ∃ c, p.core lw a = some c ∧ Declares c (l.map Component.shadow) := by
  cases h with
  | linear h => exact System.declares_part h lw ha
  | fluxStorage hv => exact ⟨_, rfl, ⟨rfl, rfl⟩, rfl, rfl, rfl, rfl, rfl, rfl, rfl, rfl, rfl, rfl, rfl⟩
  | effortStorage hv => exact ⟨_, rfl, ⟨rfl, rfl⟩, rfl, rfl, rfl, rfl, rfl, rfl, rfl, rfl, rfl, rfl, rfl⟩
  | @dissipative lab kw es _ hes =>
    have hs := diss_shadow hes
    have hp : (l.map Component.shadow).flatMap System.devPorts = [] := by
      rw [List.flatMap_eq_nil_iff]
      intro d hd
      obtain ⟨b, r, rfl⟩ := hs d hd
      rfl
    have hx : (l.map Component.shadow).flatMap System.devX = [] := by
      rw [List.flatMap_eq_nil_iff]
      intro d hd
      obtain ⟨b, r, rfl⟩ := hs d hd
      rfl
    have hc : (l.map Component.shadow).flatMap System.devConns = [] := by
      rw [List.flatMap_eq_nil_iff]
      intro d hd
      obtain ⟨b, r, rfl⟩ := hs d hd
      rfl
    refine ⟨_, if_pos (by simp), ⟨rfl, rfl⟩, rfl, rfl, rfl, ?_, ?_, ?_, ?_, ?_, ?_, ?_, ?_⟩
    · rw [hp]; rfl
    · rw [hp]; rfl
    · rw [hc]; rfl
    · rw [hc]; rfl
    · rw [hc]; rfl
    · rw [hx]; rfl
    · exact (diss_w hes).1
    · simp [empty]

theorem edges_part {p : NPart} {l : List Component} (h : NRel p l) {a : ℝ}
    (ha : ∀ α ∈ ratiosOf (l.map Component.shadow), a = α) :
    p.edges a = (l.map Component.shadow).flatMap devEdges := by
  cases h with
  | linear h =>
    rw [List.map_singleton, List.flatMap_singleton]
    exact System.edges_part h ha
  | fluxStorage hv => rfl
  | effortStorage hv => rfl
  | dissipative hes => exact (diss_w hes).2

theorem withRatios_cons {p : NPart} {l : List Component} (h : NRel p l) (ps : List NPart) (ds : List Device) :
    ∃ a, (∀ α ∈ ratiosOf (l.map Component.shadow), a = α) ∧
      withRatios (p :: ps) (ratiosOf (l.map Component.shadow ++ ds)) =
        (p, a) :: withRatios ps (ratiosOf ds) := by
  cases h with
  | linear h =>
    cases h with
    | gyrator hv => exact ⟨_, fun α hα => (List.mem_singleton.1 hα).symm, rfl⟩
    | transformer hv => exact ⟨_, fun α hα => (List.mem_singleton.1 hα).symm, rfl⟩
    | _ => exact ⟨0, fun α hα => (List.not_mem_nil hα).elim, rfl⟩
  | fluxStorage hv => exact ⟨0, fun α hα => (List.not_mem_nil hα).elim, rfl⟩
  | effortStorage hv => exact ⟨0, fun α hα => (List.not_mem_nil hα).elim, rfl⟩
  | dissipative hes =>
    rw [ratiosOf_append, ratios_diss hes]
    exact ⟨0, fun α hα => (List.not_mem_nil hα).elim, rfl⟩

theorem graphEdges_eq {I : Sym.Interp ℝ} (h : List.Forall₂ NRel ps css)
    (hr : ratios I ps = ratiosOf (css.flatten.map Component.shadow)) :
    graphEdges I ps = (css.flatten.map Component.shadow).flatMap devEdges := by
  unfold graphEdges
  rw [hr]
  clear hr
  induction h with
  | nil => rfl
  | @cons p l ps css h _ ih =>
    rw [List.flatten_cons, List.map_append]
    obtain ⟨a, h1, h2⟩ := withRatios_cons h ps (css.flatten.map Component.shadow)
    rw [h2, List.flatMap_cons, ih, List.flatMap_append, edges_part h h1]

theorem fold_cores (h : List.Forall₂ NRel ps css) (lw : String → Env ℝ → ℝ) (c0 : Core ℝ) (l0 : List Device)
    (h0 : Declares c0 l0) :
    ∃ c, ((withRatios ps (ratiosOf (css.flatten.map Component.shadow))).foldlM
      (fun (c : Core ℝ) (q : NPart × ℝ) => (q.1.core lw q.2).bind fun c' => addCores c c') c0) = some c ∧
      Declares c (l0 ++ css.flatten.map Component.shadow) := by
  induction h generalizing c0 l0 with
  | nil => exact ⟨c0, rfl, by rw [List.flatten_nil, List.map_nil, List.append_nil]; exact h0⟩
  | @cons p l ps css h _ ih =>
    rw [List.flatten_cons, List.map_append]
    obtain ⟨a, h1, h2⟩ := withRatios_cons h ps (css.flatten.map Component.shadow)
    obtain ⟨c1, q1, q2⟩ := declares_part h lw h1
    obtain ⟨c2, q3, q4⟩ := declares_add h0 q2
    obtain ⟨c, q5, q6⟩ := ih c2 _ q4
    refine ⟨c, ?_, by rw [List.append_assoc] at q6; exact q6⟩
    rw [h2]
    refine (foldlM_some ?_).trans q5
    dsimp only
    rw [q1, Option.bind_some, q3]

theorem graphCore_eq {I : Sym.Interp ℝ} (h : List.Forall₂ NRel ps css)
    (hr : ratios I ps = ratiosOf (css.flatten.map Component.shadow)) :
    ∃ c, graphCore I ps = some c ∧ Declares c (css.flatten.map Component.shadow) ∧ c.H = energy I ps := by
  unfold graphCore
  rw [hr]
  obtain ⟨c, h1, h2⟩ := fold_cores h (law I ps) empty [] Declares.nil
  rw [h1]
  exact ⟨_, rfl, ⟨h2.M, h2.dxH, h2.xl, h2.wl, h2.u, h2.y, h2.cu, h2.cy, h2.connectors, h2.x, h2.w, h2.z⟩, rfl⟩

end Nonlin
end Pyphs
