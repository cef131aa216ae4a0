/-
The equations of the graph of a netlist, whatever the laws of the storages and of the dissipative
components.
-/
import Verif.System.Props
import Verif.Nonlin.Build

namespace Pyphs
namespace Nonlin
open Scheme Core Graph Params Circuit
open _root_.Pyphs.System (Branch Device Distinct devEdges Declares Agree CtrlOK FluxBalance Potentials labelOf
  labelOf_eq mem_edges flux_iff effort_iff dn_x input_eq mem_storage mem_dissipative mem_port pfx)

variable {ds : List Device}

/-- The law of a component, for the values `G` of the gradient and `ze`, `zf` of the dissipation
functions. -/
def GLaw (ec : String → Prop) (fs : ℝ) (e G ze zf E F : String → ℝ) : Device → Prop
  | .fluxStorage b _ => F b.id = fs * e ("dx" ++ b.id) ∧ E b.id = G b.id
  | .effortStorage b _ => E b.id = fs * e ("dx" ++ b.id) ∧ F b.id = G b.id
  | .resistance b _ => (ec b.id → e ("w" ++ b.id) = E b.id ∧ F b.id = ze b.id) ∧
      (¬ ec b.id → e ("w" ++ b.id) = F b.id ∧ E b.id = zf b.id)
  | d => d.Law ec fs 0 (fun i => e ("x" ++ i)) (fun i => e ("dx" ++ i)) (fun i => e ("u" ++ i)) E F

/-- The equations of a system. -/
structure GStep (ds : List Device) (ec : String → Prop) (fs : ℝ) (e G ze zf E F : String → ℝ) : Prop where
  flux : FluxBalance (ds.flatMap Device.branches) F
  effort : Potentials (ds.flatMap Device.branches) E
  laws : ∀ d ∈ ds, GLaw ec fs e G ze zf E F d

/-- The equations of the graph for given inputs are those of the netlist. -/
theorem generic_iff (h : Distinct ds) {nodes : List String}
    {edges : List (Edge ℝ)} (hp : edges.Perm (ds.flatMap devEdges))
    (hends : ∀ d ∈ edges, d.tail ∈ nodes ∧ d.head ∈ nodes) {c : Core ℝ} (hc : Declares c ds)
    {lw : String → Env ℝ → ℝ}
    {ec : String → Prop} (hec : CtrlOK edges ec) {m : Meth} {e : Env ℝ}
    {E F E' F' : String → ℝ} (hE : Agree ds E E') (hF : Agree ds F F') :
    InputEqs lw nodes edges c m ec e E F ↔ GStep ds (fun i => ec (labelOf ds i)) m.fs e
      (fun i => gradOf m ("x" ++ i) e) (fun i => lw ("e:w" ++ i) e) (fun i => lw ("f:w" ++ i) e) E' F' := by
  constructor
  · intro q
    refine ⟨(flux_iff hp hends hF).1 q.net.kcl, (effort_iff hp hE).1 q.net.kvl, fun d hd => ?_⟩
    · have eE := fun b hb => hE d hd b hb
      have eF := fun b hb => hF d hd b hb
      have me := fun q hq => mem_edges hp hd (q := q) hq
      have ll := fun b hb => labelOf_eq h hd (b := b) hb
      cases d with
      | fluxStorage b k =>
        have s := q.stor _ (me _ List.mem_cons_self) rfl
        have ct := (hec _ (me _ List.mem_cons_self)).2 rfl
        have := s.2 ct
        dsimp only at this
        rw [dn_x] at this
        have e1 := eE b (by simp [Device.branches])
        have e2 := eF b (by simp [Device.branches])
        dsimp only [pfx] at e1 e2
        rw [e1, e2] at this
        exact ⟨this.1.symm, this.2.symm⟩
      | effortStorage b k =>
        have s := q.stor _ (me _ List.mem_cons_self) rfl
        have ct := (hec _ (me _ List.mem_cons_self)).1 rfl
        have := s.1 ct
        dsimp only at this
        rw [dn_x] at this
        have e1 := eE b (by simp [Device.branches])
        have e2 := eF b (by simp [Device.branches])
        dsimp only [pfx] at e1 e2
        rw [e1, e2] at this
        exact ⟨this.1.symm, this.2.symm⟩
      | resistance b r =>
        have s := q.diss _ (me _ List.mem_cons_self) rfl
        have e1 := eE b (by simp [Device.branches])
        have e2 := eF b (by simp [Device.branches])
        have l1 := ll b (by simp [Device.branches])
        dsimp only [pfx] at e1 e2 s l1
        show (ec (labelOf ds b.id) → _) ∧ (¬ ec (labelOf ds b.id) → _)
        rw [l1, ← e1, ← e2]
        exact ⟨fun hh => ⟨(s.1 hh).1.symm, (s.1 hh).2⟩, fun hh => ⟨(s.2 hh).1.symm, (s.2 hh).2⟩⟩
      | effortSource b =>
        have s := q.port _ (me _ List.mem_cons_self) rfl
        have ct := (hec _ (me _ List.mem_cons_self)).2 rfl
        have := s.2 ct
        dsimp only at this
        rw [input_eq h hc (List.mem_flatMap.2 ⟨_, hd, List.mem_singleton.2 rfl⟩)] at this
        exact (eE b (by simp [Device.branches])).symm.trans this
      | fluxSource b =>
        have s := q.port _ (me _ List.mem_cons_self) rfl
        have ct := (hec _ (me _ List.mem_cons_self)).1 rfl
        have := s.1 ct
        dsimp only at this
        rw [input_eq h hc (List.mem_flatMap.2 ⟨_, hd, List.mem_singleton.2 rfl⟩)] at this
        exact (eF b (by simp [Device.branches])).symm.trans this
      | gyrator a b α =>
        have s := (q.net.conn _ (me _ List.mem_cons_self) _
          (me _ (List.mem_cons_of_mem _ List.mem_cons_self)) α rfl rfl rfl).1 rfl
        have e1 := eE a (by simp [Device.branches])
        have e2 := eE b (by simp [Device.branches])
        have f1 := eF a (by simp [Device.branches])
        have f2 := eF b (by simp [Device.branches])
        have l1 := ll a (by simp [Device.branches])
        dsimp only [pfx] at e1 e2 f1 f2 l1 s
        unfold GyratorLaw at s
        rw [e1, e2, f1, f2, neg_neg] at s
        show (¬ ec (labelOf ds a.id) → _) ∧ (ec (labelOf ds a.id) → _)
        rw [l1]
        exact s
      | transformer a b α =>
        have s := (q.net.conn _ (me _ List.mem_cons_self) _
          (me _ (List.mem_cons_of_mem _ List.mem_cons_self)) α rfl rfl rfl).2 rfl
        have e1 := eE a (by simp [Device.branches])
        have e2 := eE b (by simp [Device.branches])
        have f1 := eF a (by simp [Device.branches])
        have f2 := eF b (by simp [Device.branches])
        have l1 := ll a (by simp [Device.branches])
        dsimp only [pfx] at e1 e2 f1 f2 l1 s
        unfold TransformerLaw at s
        rw [e1, e2, f1, f2, neg_neg] at s
        show (ec (labelOf ds a.id) → _) ∧ (¬ ec (labelOf ds a.id) → _)
        rw [l1]
        exact s
  · intro q
    refine ⟨⟨(flux_iff hp hends hF).2 q.flux, (effort_iff hp hE).2 q.effort, ?_⟩, ?_, ?_, ?_⟩
    · intro d1 h1 d2 h2 a t1 a1 k1
      obtain ⟨x, hx, hd⟩ := List.mem_flatMap.1 (hp.mem_iff.1 h1)
      have law := q.laws x hx
      have eE := fun b hb => hE x hx b hb
      have eF := fun b hb => hF x hx b hb
      have ll := fun b hb => labelOf_eq h hx (b := b) hb
      cases x with
      | gyrator u v α =>
        simp only [devEdges, List.mem_cons, List.not_mem_nil, or_false] at hd
        rcases hd with rfl | rfl
        · cases a1
          have k2 := Option.some.inj k1
          refine ⟨fun _ => ?_, fun hh => (by cases hh)⟩
          rw [← k2]
          have e1 := eE u (by simp [Device.branches])
          have e2 := eE v (by simp [Device.branches])
          have f1 := eF u (by simp [Device.branches])
          have f2 := eF v (by simp [Device.branches])
          have l1 := ll u (by simp [Device.branches])
          unfold GLaw Device.Law at law
          dsimp only [pfx] at e1 e2 f1 f2 l1 law ⊢
          rw [l1] at law
          unfold GyratorLaw
          rw [e1, e2, f1, f2, neg_neg]
          exact law
        · cases a1
      | transformer u v α =>
        simp only [devEdges, List.mem_cons, List.not_mem_nil, or_false] at hd
        rcases hd with rfl | rfl
        · cases a1
          have k2 := Option.some.inj k1
          refine ⟨fun hh => (by cases hh), fun _ => ?_⟩
          rw [← k2]
          have e1 := eE u (by simp [Device.branches])
          have e2 := eE v (by simp [Device.branches])
          have f1 := eF u (by simp [Device.branches])
          have f2 := eF v (by simp [Device.branches])
          have l1 := ll u (by simp [Device.branches])
          unfold GLaw Device.Law at law
          dsimp only [pfx] at e1 e2 f1 f2 l1 law ⊢
          rw [l1] at law
          unfold TransformerLaw
          rw [e1, e2, f1, f2, neg_neg]
          exact law
        · cases a1
      | _ =>
        simp only [devEdges, List.mem_cons, List.not_mem_nil, or_false] at hd
        subst hd
        cases t1
    · intro d hd ht
      obtain ⟨b, k, hl, ⟨hm, hct⟩ | ⟨hm, hct⟩⟩ := mem_storage (hp.mem_iff.1 hd) ht
      · have ct := (hec d hd).2 hct
        have e1 := hE _ hm b (by simp [Device.branches])
        have e2 := hF _ hm b (by simp [Device.branches])
        have law := q.laws _ hm
        dsimp only [pfx, GLaw, Device.Law] at e1 e2 law
        refine ⟨fun hh => absurd hh ct, fun _ => ?_⟩
        rw [hl, dn_x, e1, e2]
        exact ⟨law.1.symm, law.2.symm⟩
      · have ct := (hec d hd).1 hct
        have e1 := hE _ hm b (by simp [Device.branches])
        have e2 := hF _ hm b (by simp [Device.branches])
        have law := q.laws _ hm
        dsimp only [pfx, GLaw, Device.Law] at e1 e2 law
        refine ⟨fun _ => ?_, fun hh => absurd ct hh⟩
        rw [hl, dn_x, e1, e2]
        exact ⟨law.1.symm, law.2.symm⟩
    · intro d hd ht
      obtain ⟨b, r, hm, hl, hz1, hz2⟩ := mem_dissipative (hp.mem_iff.1 hd) ht
      have e1 := hE _ hm b (by simp [Device.branches])
      have e2 := hF _ hm b (by simp [Device.branches])
      have law := q.laws _ hm
      have l1 := labelOf_eq h hm (b := b) (by simp [Device.branches])
      dsimp only [pfx, GLaw] at e1 e2 law l1
      rw [l1] at law
      rw [hl, hz1, hz2, e1, e2]
      exact ⟨fun hh => ⟨(law.1 hh).1.symm, (law.1 hh).2⟩, fun hh => ⟨(law.2 hh).1.symm, (law.2 hh).2⟩⟩
    · intro d hd ht
      obtain ⟨b, hl, ⟨hm, hct⟩ | ⟨hm, hct⟩⟩ := mem_port (hp.mem_iff.1 hd) ht
      · have ct := (hec d hd).2 hct
        have e1 := hE _ hm b (by simp [Device.branches])
        have law := q.laws _ hm
        dsimp only [pfx, GLaw, Device.Law] at e1 law
        refine ⟨fun hh => absurd hh ct, fun _ => ?_⟩
        rw [hl, input_eq h hc (List.mem_flatMap.2 ⟨_, hm, List.mem_singleton.2 rfl⟩), e1]
        exact law
      · have ct := (hec d hd).1 hct
        have e2 := hF _ hm b (by simp [Device.branches])
        have law := q.laws _ hm
        dsimp only [pfx, GLaw, Device.Law] at e2 law
        refine ⟨fun _ => ?_, fun hh => absurd ct hh⟩
        rw [hl, input_eq h hc (List.mem_flatMap.2 ⟨_, hm, List.mem_singleton.2 rfl⟩), e2]
        exact law

end Nonlin
end Pyphs
