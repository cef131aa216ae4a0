/-
The equations of the graph of a netlist are those of the netlist.
-/
import Verif.System.Circuit

namespace Pyphs
namespace System
open Scheme Core Graph Params Circuit

variable {ds : List Device}

/-- Values given by labels of edges and by names of branches. -/
def Agree (ds : List Device) (X X' : String → ℝ) : Prop :=
  ∀ d ∈ ds, ∀ b ∈ d.branches, X (pfx d ++ b.id) = X' b.id

theorem agree_labelOf (h : Distinct ds) (X : String → ℝ) : Agree ds X fun i => X (labelOf ds i) :=
  fun d hd b hb => by dsimp only; rw [labelOf_eq h hd hb]

theorem strip_pfx (d : Device) (i : String) : strip (pfx d ++ i) = i := by
  cases d <;> simp [pfx, strip_x, strip_w, strip_y]

theorem agree_strip (X : String → ℝ) : Agree ds (fun l => X (strip l)) X :=
  fun d _ b _ => by dsimp only; rw [strip_pfx]

theorem edge_branch {q : Edge ℝ} (h : q ∈ ds.flatMap devEdges) : ∃ d ∈ ds, ∃ b ∈ d.branches,
    q.label = pfx d ++ b.id ∧ q.tail = b.tail ∧ q.head = b.head := by
  obtain ⟨d, hd, hq⟩ := List.mem_flatMap.1 h
  refine ⟨d, hd, ?_⟩
  cases d <;> simp only [devEdges, List.mem_cons, List.not_mem_nil, or_false] at hq
  case gyrator a b α =>
    rcases hq with rfl | rfl
    · exact ⟨a, by simp [Device.branches], rfl, rfl, rfl⟩
    · exact ⟨b, by simp [Device.branches], rfl, rfl, rfl⟩
  case transformer a b α =>
    rcases hq with rfl | rfl
    · exact ⟨a, by simp [Device.branches], rfl, rfl, rfl⟩
    · exact ⟨b, by simp [Device.branches], rfl, rfl, rfl⟩
  all_goals
    subst hq
    exact ⟨_, List.mem_singleton.2 rfl, rfl, rfl, rfl⟩

theorem branch_edge {d : Device} (hd : d ∈ ds) {b : Branch} (hb : b ∈ d.branches) :
    ∃ q ∈ ds.flatMap devEdges, q.label = pfx d ++ b.id ∧ q.tail = b.tail ∧ q.head = b.head := by
  have : ∃ q ∈ devEdges d, q.label = pfx d ++ b.id ∧ q.tail = b.tail ∧ q.head = b.head := by
    cases d <;> simp only [Device.branches, List.mem_cons, List.not_mem_nil, or_false] at hb
    case gyrator a b α =>
      rcases hb with rfl | rfl
      · exact ⟨_, List.mem_cons_self, rfl, rfl, rfl⟩
      · exact ⟨_, List.mem_cons_of_mem _ List.mem_cons_self, rfl, rfl, rfl⟩
    case transformer a b α =>
      rcases hb with rfl | rfl
      · exact ⟨_, List.mem_cons_self, rfl, rfl, rfl⟩
      · exact ⟨_, List.mem_cons_of_mem _ List.mem_cons_self, rfl, rfl, rfl⟩
    all_goals
      subst hb
      exact ⟨_, List.mem_cons_self, rfl, rfl, rfl⟩
  obtain ⟨q, h1, h2⟩ := this
  exact ⟨q, List.mem_flatMap.2 ⟨d, hd, h1⟩, h2⟩

theorem flux_sum {F F' : String → ℝ} (hF : Agree ds F F') (v : String) :
    ((ds.flatMap devEdges).map fun q => (sign q v : ℝ) * F q.label).sum =
      ((ds.flatMap Device.branches).map fun b =>
        (if b.tail = v then F' b.id else 0) - (if b.head = v then F' b.id else 0)).sum := by
  have one : ∀ (t h l i : String), F l = F' i →
      (((if v = t then (1 : ℤ) else 0) - (if v = h then 1 else 0) : ℤ) : ℝ) * F l =
        (if t = v then F' i else 0) - (if h = v then F' i else 0) := by
    intro t h l i hl
    rw [hl]
    by_cases h1 : v = t <;> by_cases h2 : v = h <;> simp [h1, h2, eq_comm] <;> simp_all [eq_comm]
  congr 1
  rw [List.map_flatMap, List.map_flatMap]
  refine List.flatMap_congr fun d hd => ?_
  have hb := hF d hd
  have two : ∀ {x y z t : ℝ}, x = y → z = t → [x, z] = [y, t] := fun a b => by rw [a, b]
  cases d with
  | gyrator a b α =>
    exact two (one _ _ _ a.id (hb a List.mem_cons_self))
      (one _ _ _ b.id (hb b (List.mem_cons_of_mem _ List.mem_cons_self)))
  | transformer a b α =>
    exact two (one _ _ _ a.id (hb a List.mem_cons_self))
      (one _ _ _ b.id (hb b (List.mem_cons_of_mem _ List.mem_cons_self)))
  | effortSource b => exact congrArg (fun x => [x]) (one _ _ _ b.id (hb b List.mem_cons_self))
  | fluxSource b => exact congrArg (fun x => [x]) (one _ _ _ b.id (hb b List.mem_cons_self))
  | fluxStorage b k => exact congrArg (fun x => [x]) (one _ _ _ b.id (hb b List.mem_cons_self))
  | effortStorage b k => exact congrArg (fun x => [x]) (one _ _ _ b.id (hb b List.mem_cons_self))
  | resistance b r => exact congrArg (fun x => [x]) (one _ _ _ b.id (hb b List.mem_cons_self))

theorem flux_iff {nodes : List String} {edges : List (Edge ℝ)} (hp : edges.Perm (ds.flatMap devEdges))
    (hends : ∀ d ∈ edges, d.tail ∈ nodes ∧ d.head ∈ nodes) {F F' : String → ℝ} (hF : Agree ds F F') :
    FlowBalance nodes edges F ↔ FluxBalance (ds.flatMap Device.branches) F' := by
  have hs : ∀ v, (edges.map fun d => (sign d v : ℝ) * F d.label).sum =
      ((ds.flatMap Device.branches).map fun b =>
        (if b.tail = v then F' b.id else 0) - (if b.head = v then F' b.id else 0)).sum := fun v => by
    rw [← flux_sum hF v]
    exact (hp.map _).sum_eq
  constructor
  · intro hb v hv
    by_cases hn : v ∈ nodes
    · rw [← hs]; exact hb v hn hv
    · refine List.sum_eq_zero fun t ht => ?_
      obtain ⟨b, hbm, rfl⟩ := List.mem_map.1 ht
      obtain ⟨d, hd, hbd⟩ := List.mem_flatMap.1 hbm
      obtain ⟨q, hq, -, q2, q3⟩ := branch_edge hd hbd
      obtain ⟨e1, e2⟩ := hends q (hp.mem_iff.2 hq)
      have n1 : b.tail ≠ v := fun hh => hn (by rw [← hh, ← q2]; exact e1)
      have n2 : b.head ≠ v := fun hh => hn (by rw [← hh, ← q3]; exact e2)
      rw [if_neg n1, if_neg n2, sub_zero]
  · intro hb v _ hv
    rw [hs]; exact hb v hv

theorem effort_iff {edges : List (Edge ℝ)} (hp : edges.Perm (ds.flatMap devEdges)) {E E' : String → ℝ}
    (hE : Agree ds E E') : FromPotentials edges E ↔ Potentials (ds.flatMap Device.branches) E' := by
  refine exists_congr fun p => ⟨fun h b hb => ?_, fun h q hq => ?_⟩
  · obtain ⟨d, hd, hbd⟩ := List.mem_flatMap.1 hb
    obtain ⟨q, hq, q1, q2, q3⟩ := branch_edge hd hbd
    rw [← hE d hd b hbd, ← q1, ← q2, ← q3]
    exact h q (hp.mem_iff.2 hq)
  · obtain ⟨d, hd, b, hbd, q1, q2, q3⟩ := edge_branch (hp.mem_iff.1 hq)
    rw [q1, q2, q3, hE d hd b hbd]
    exact h b (List.mem_flatMap.2 ⟨d, hd, hbd⟩)

theorem dn_x (i : String) : dn ("x" ++ i) = "dx" ++ i := by
  unfold dn
  rw [← String.append_assoc]
  rfl

theorem Distinct.ys (h : Distinct ds) : ((ds.flatMap devPorts).map fun b => "y" ++ b.id).Nodup := by
  have := List.Nodup.map (f := fun i => "y" ++ i) (fun a b hab => pre_inj "y" hab) h.ports
  rwa [List.map_map] at this

theorem mem_zip_map {α β γ : Type} {L : List α} (f : α → β) (g : α → γ) {a : α} (ha : a ∈ L) :
    (f a, g a) ∈ (L.map f).zip (L.map g) := by
  induction L with
  | nil => cases ha
  | cons b L ih =>
    rcases List.mem_cons.1 ha with rfl | ha
    · exact List.mem_cons_self
    · exact List.mem_cons_of_mem _ (ih ha)

theorem input_eq (h : Distinct ds) {c : Core ℝ} (hc : Declares c ds) {b : Branch}
    (hb : b ∈ ds.flatMap devPorts) : inputOf c ("y" ++ b.id) = "u" ++ b.id := by
  unfold inputOf
  rw [hc.y, hc.u]
  exact zip_lookup h.ys (mem_zip_map (fun b : Branch => "y" ++ b.id) (fun b => "u" ++ b.id) hb)

/-- What is known about the controls of the edges of a graph. -/
def CtrlOK (edges : List (Edge ℝ)) (ec : String → Prop) : Prop :=
  ∀ d ∈ edges, (d.ctrl = .e → ec d.label) ∧ (d.ctrl = .f → ¬ ec d.label)

theorem mem_edges {edges : List (Edge ℝ)} (hp : edges.Perm (ds.flatMap devEdges)) {d : Device}
    (hd : d ∈ ds) {q : Edge ℝ} (hq : q ∈ devEdges d) : q ∈ edges :=
  hp.mem_iff.2 (List.mem_flatMap.2 ⟨d, hd, hq⟩)

/-- The equations of the graph for given inputs are those of the netlist. -/
theorem inputEqs_iff (h : Distinct ds) (hpos : ∀ d ∈ ds, d.Positive) {nodes : List String}
    {edges : List (Edge ℝ)} (hp : edges.Perm (ds.flatMap devEdges))
    (hends : ∀ d ∈ edges, d.tail ∈ nodes ∧ d.head ∈ nodes) {c : Core ℝ} (hc : Declares c ds)
    {lw : String → Env ℝ → ℝ}
    (hlw : ∀ b r, .resistance b r ∈ ds → lw ("f:w" ++ b.id) = (fun e => r * e ("w" ++ b.id)) ∧
      lw ("e:w" ++ b.id) = fun e => r⁻¹ * e ("w" ++ b.id))
    {ec : String → Prop} (hec : CtrlOK edges ec) {m : Meth} {ϑ : ℝ} {e : Env ℝ}
    (hg : ∀ b k, .fluxStorage b k ∈ ds ∨ .effortStorage b k ∈ ds →
      gradOf m ("x" ++ b.id) e = k * (e ("x" ++ b.id) + ϑ * e ("dx" ++ b.id)))
    {E F E' F' : String → ℝ} (hE : Agree ds E E') (hF : Agree ds F F') :
    InputEqs lw nodes edges c m ec e E F ↔ Step ds (fun i => ec (labelOf ds i)) m.fs ϑ e E' F' := by
  constructor
  · intro q
    refine ⟨⟨(flux_iff hp hends hF).1 q.net.kcl, (effort_iff hp hE).1 q.net.kvl, fun d hd => ?_⟩, ?_⟩
    · have eE := fun b hb => hE d hd b hb
      have eF := fun b hb => hF d hd b hb
      have me := fun q hq => mem_edges hp hd (q := q) hq
      have ll := fun b hb => labelOf_eq h hd (b := b) hb
      cases d with
      | fluxStorage b k =>
        have s := q.stor _ (me _ List.mem_cons_self) rfl
        have ct := (hec _ (me _ List.mem_cons_self)).2 rfl
        have := s.2 ct
        dsimp only at this
        rw [hg b k (.inl hd), dn_x] at this
        have e1 := eE b (by simp [Device.branches])
        have e2 := eF b (by simp [Device.branches])
        dsimp only [pfx] at e1 e2
        rw [e1, e2] at this
        exact ⟨this.1.symm, this.2.symm⟩
      | effortStorage b k =>
        have s := q.stor _ (me _ List.mem_cons_self) rfl
        have ct := (hec _ (me _ List.mem_cons_self)).1 rfl
        have := s.1 ct
        dsimp only at this
        rw [hg b k (.inr hd), dn_x] at this
        have e1 := eE b (by simp [Device.branches])
        have e2 := eF b (by simp [Device.branches])
        dsimp only [pfx] at e1 e2
        rw [e1, e2] at this
        exact ⟨this.1.symm, this.2.symm⟩
      | resistance b r =>
        have s := q.diss _ (me _ List.mem_cons_self) rfl
        have e1 := eE b (by simp [Device.branches])
        have e2 := eF b (by simp [Device.branches])
        have hr : (0 : ℝ) < r := hpos _ hd
        dsimp only [pfx] at e1 e2 s
        rw [(hlw b r hd).1, (hlw b r hd).2, e1, e2] at s
        show E' b.id = r * F' b.id
        by_cases hh : ec ("w" ++ b.id)
        · obtain ⟨s1, s2⟩ := s.1 hh
          rw [s1, s2]
          field_simp
        · obtain ⟨s1, s2⟩ := s.2 hh
          rw [s1, s2]
      | effortSource b =>
        have s := q.port _ (me _ List.mem_cons_self) rfl
        have ct := (hec _ (me _ List.mem_cons_self)).2 rfl
        have := s.2 ct
        dsimp only at this
        rw [input_eq h hc (List.mem_flatMap.2 ⟨_, hd, List.mem_singleton.2 rfl⟩)] at this
        exact (eE b (by simp [Device.branches])).symm.trans this
      | fluxSource b =>
        have s := q.port _ (me _ List.mem_cons_self) rfl
        have ct := (hec _ (me _ List.mem_cons_self)).1 rfl
        have := s.1 ct
        dsimp only at this
        rw [input_eq h hc (List.mem_flatMap.2 ⟨_, hd, List.mem_singleton.2 rfl⟩)] at this
        exact (eF b (by simp [Device.branches])).symm.trans this
      | gyrator a b α =>
        have s := (q.net.conn _ (me _ List.mem_cons_self) _
          (me _ (List.mem_cons_of_mem _ List.mem_cons_self)) α rfl rfl rfl).1 rfl
        have e1 := eE a (by simp [Device.branches])
        have e2 := eE b (by simp [Device.branches])
        have f1 := eF a (by simp [Device.branches])
        have f2 := eF b (by simp [Device.branches])
        have l1 := ll a (by simp [Device.branches])
        dsimp only [pfx] at e1 e2 f1 f2 l1 s
        unfold GyratorLaw at s
        rw [e1, e2, f1, f2, neg_neg] at s
        show (¬ ec (labelOf ds a.id) → _) ∧ (ec (labelOf ds a.id) → _)
        rw [l1]
        exact s
      | transformer a b α =>
        have s := (q.net.conn _ (me _ List.mem_cons_self) _
          (me _ (List.mem_cons_of_mem _ List.mem_cons_self)) α rfl rfl rfl).2 rfl
        have e1 := eE a (by simp [Device.branches])
        have e2 := eE b (by simp [Device.branches])
        have f1 := eF a (by simp [Device.branches])
        have f2 := eF b (by simp [Device.branches])
        have l1 := ll a (by simp [Device.branches])
        dsimp only [pfx] at e1 e2 f1 f2 l1 s
        unfold TransformerLaw at s
        rw [e1, e2, f1, f2, neg_neg] at s
        show (ec (labelOf ds a.id) → _) ∧ (¬ ec (labelOf ds a.id) → _)
        rw [l1]
        exact s
    · intro b r hd
      have s := q.diss _ (mem_edges hp hd List.mem_cons_self) rfl
      have e1 := hE _ hd b (by simp [Device.branches])
      have e2 := hF _ hd b (by simp [Device.branches])
      have l1 := labelOf_eq h hd (b := b) (by simp [Device.branches])
      dsimp only [pfx] at e1 e2 s l1 ⊢
      rw [l1, ← e1, ← e2]
      exact ⟨fun hh => (s.1 hh).1.symm, fun hh => (s.2 hh).1.symm⟩
  · intro q
    refine ⟨⟨(flux_iff hp hends hF).2 q.eqs.flux, (effort_iff hp hE).2 q.eqs.effort, ?_⟩, ?_, ?_, ?_⟩
    · intro d1 h1 d2 h2 a t1 a1 k1
      obtain ⟨x, hx, hd⟩ := List.mem_flatMap.1 (hp.mem_iff.1 h1)
      have law := q.eqs.laws x hx
      have eE := fun b hb => hE x hx b hb
      have eF := fun b hb => hF x hx b hb
      have ll := fun b hb => labelOf_eq h hx (b := b) hb
      cases x with
      | gyrator u v α =>
        simp only [devEdges, List.mem_cons, List.not_mem_nil, or_false] at hd
        rcases hd with rfl | rfl
        · cases a1
          have k2 := Option.some.inj k1
          refine ⟨fun _ => ?_, fun hh => (by cases hh)⟩
          rw [← k2]
          have e1 := eE u (by simp [Device.branches])
          have e2 := eE v (by simp [Device.branches])
          have f1 := eF u (by simp [Device.branches])
          have f2 := eF v (by simp [Device.branches])
          have l1 := ll u (by simp [Device.branches])
          unfold Device.Law at law
          dsimp only [pfx] at e1 e2 f1 f2 l1 law ⊢
          rw [l1] at law
          unfold GyratorLaw
          rw [e1, e2, f1, f2, neg_neg]
          exact law
        · cases a1
      | transformer u v α =>
        simp only [devEdges, List.mem_cons, List.not_mem_nil, or_false] at hd
        rcases hd with rfl | rfl
        · cases a1
          have k2 := Option.some.inj k1
          refine ⟨fun hh => (by cases hh), fun _ => ?_⟩
          rw [← k2]
          have e1 := eE u (by simp [Device.branches])
          have e2 := eE v (by simp [Device.branches])
          have f1 := eF u (by simp [Device.branches])
          have f2 := eF v (by simp [Device.branches])
          have l1 := ll u (by simp [Device.branches])
          unfold Device.Law at law
          dsimp only [pfx] at e1 e2 f1 f2 l1 law ⊢
          rw [l1] at law
          unfold TransformerLaw
          rw [e1, e2, f1, f2, neg_neg]
          exact law
        · cases a1
      | _ =>
        simp only [devEdges, List.mem_cons, List.not_mem_nil, or_false] at hd
        subst hd
        cases t1
    · intro d hd ht
      obtain ⟨b, k, hl, ⟨hm, hct⟩ | ⟨hm, hct⟩⟩ := mem_storage (hp.mem_iff.1 hd) ht
      · have ct := (hec d hd).2 hct
        have e1 := hE _ hm b (by simp [Device.branches])
        have e2 := hF _ hm b (by simp [Device.branches])
        have law := q.eqs.laws _ hm
        dsimp only [pfx, Device.Law] at e1 e2 law
        refine ⟨fun hh => absurd hh ct, fun _ => ?_⟩
        rw [hl, dn_x, hg b k (.inl hm), e1, e2]
        exact ⟨law.1.symm, law.2.symm⟩
      · have ct := (hec d hd).1 hct
        have e1 := hE _ hm b (by simp [Device.branches])
        have e2 := hF _ hm b (by simp [Device.branches])
        have law := q.eqs.laws _ hm
        dsimp only [pfx, Device.Law] at e1 e2 law
        refine ⟨fun _ => ?_, fun hh => absurd ct hh⟩
        rw [hl, dn_x, hg b k (.inr hm), e1, e2]
        exact ⟨law.1.symm, law.2.symm⟩
    · intro d hd ht
      obtain ⟨b, r, hm, hl, hz1, hz2⟩ := mem_dissipative (hp.mem_iff.1 hd) ht
      have e1 := hE _ hm b (by simp [Device.branches])
      have e2 := hF _ hm b (by simp [Device.branches])
      have law := q.eqs.laws _ hm
      have l1 := labelOf_eq h hm (b := b) (by simp [Device.branches])
      have hw := q.diss b r hm
      have hr : (0 : ℝ) < r := hpos _ hm
      dsimp only [pfx, Device.Law] at e1 e2 law l1 hw
      rw [l1] at hw
      rw [hl, hz1, hz2, (hlw b r hm).1, (hlw b r hm).2, e1, e2]
      refine ⟨fun hh => ⟨(hw.1 hh).symm, ?_⟩, fun hh => ⟨(hw.2 hh).symm, ?_⟩⟩
      · dsimp only
        rw [hw.1 hh, law]
        field_simp
      · dsimp only
        rw [hw.2 hh, law]
    · intro d hd ht
      obtain ⟨b, hl, ⟨hm, hct⟩ | ⟨hm, hct⟩⟩ := mem_port (hp.mem_iff.1 hd) ht
      · have ct := (hec d hd).2 hct
        have e1 := hE _ hm b (by simp [Device.branches])
        have law := q.eqs.laws _ hm
        dsimp only [pfx, Device.Law] at e1 law
        refine ⟨fun hh => absurd hh ct, fun _ => ?_⟩
        rw [hl, input_eq h hc (List.mem_flatMap.2 ⟨_, hm, List.mem_singleton.2 rfl⟩), e1]
        exact law
      · have ct := (hec d hd).1 hct
        have e2 := hF _ hm b (by simp [Device.branches])
        have law := q.eqs.laws _ hm
        dsimp only [pfx, Device.Law] at e2 law
        refine ⟨fun _ => ?_, fun hh => absurd ct hh⟩
        rw [hl, input_eq h hc (List.mem_flatMap.2 ⟨_, hm, List.mem_singleton.2 rfl⟩), e2]
        exact law

end System
end Pyphs
