/-
Property C74, circuits: the equations of a simulation have exactly one solution.
-/
import Verif.Circuit.Contract
import Verif.Numeric.Exists

namespace Pyphs
namespace Circuit
open Scheme Graph Numeric Record

/-- A sequence of values of the symbols that solves the equations of a simulation exactly: at each step the
inputs and the parameters are those prescribed, the state is the one at the end of the step before
and the equations of the method hold. -/
structure ExactRun (n : Num) (nt : ℕ) (sequ seqp : List (List ℝ)) (ε : ℕ → Env ℝ) : Prop where
  state : ∀ i < nt, ∀ x ∈ n.m.g.x, ε (i + 1) x = ε i x + ε i (dn x)
  inputs : ∀ i < nt, n.m.u.map (ε (i + 1)) = sequ.getD i []
  params : ∀ i < nt, n.p.map (ε (i + 1)) = seqp.getD i []
  others : ∀ i < nt, ∀ q ∉ n.all, ε (i + 1) q = n.base q
  solved : ∀ i < nt, n.m.Solved (ε (i + 1))

/-- Values of the symbols of a step, without the unknowns. -/
def stepData (n : Num) (e : Env ℝ) (u p : List ℝ) : Env ℝ :=
  envOf (n.m.g.x ++ n.m.u ++ n.p) n.base ((n.m.g.x.map fun x => e x + e (dn x)) ++ u ++ p)

/-- The steps of a simulation have exactly one solution. -/
theorem exact_exists {n : Num} (hn : n.WF) (hw : MethWF n.m) (hs : SplitOK n.m) (d : DiagSys n.m)
    (hfs : 0 < n.m.fs) (ho : n.o = []) {nt : ℕ} {sequ seqp : List (List ℝ)} (lu : sequ.length = nt)
    (lp : seqp.length = nt) (du : ∀ r ∈ sequ, r.length = n.m.u.length)
    (dp : ∀ r ∈ seqp, r.length = n.p.length) (e0 : Env ℝ) :
    (∃ ε, ε 0 = e0 ∧ ExactRun n nt sequ seqp ε) ∧
    ∀ ε ε', ExactRun n nt sequ seqp ε → ExactRun n nt sequ seqp ε' →
      (∀ x ∈ n.m.g.x, ε 0 x + ε 0 (dn x) = ε' 0 x + ε' 0 (dn x)) →
      ∀ i, 0 < i → i ≤ nt → ε i = ε' i := by
  have hv : n.m.v .all = n.m.g.x.map dn ++ n.m.w := by simp [Meth.v, Sfx.pick]
  have hall := hn.nodup
  rw [Num.all, ho, List.append_nil] at hall
  have hdis : ∀ q ∈ n.m.v .all, q ∉ n.m.g.x ++ n.m.u ++ n.p := by
    intro q hq hh
    simp only [List.append_assoc, List.nodup_append, List.mem_append] at hall
    rw [hv, List.mem_append] at hq
    simp only [List.mem_append] at hh
    obtain ⟨-, ⟨-, ⟨-, -, a1⟩, a2⟩, a3⟩ := hall
    rcases hq with hq | hq
    · rcases hh with (hh | hh) | hh
      · exact a3 q hh q (.inl hq) rfl
      · exact a2 q hq q (.inr (.inl hh)) rfl
      · exact a2 q hq q (.inr (.inr hh)) rfl
    · rcases hh with (hh | hh) | hh
      · exact a3 q hh q (.inr (.inl hq)) rfl
      · exact a1 q hq q (.inl hh) rfl
      · exact a1 q hq q (.inr hh) rfl
  have hnd : (n.m.g.x ++ n.m.u ++ n.p).Nodup := by
    refine List.Nodup.sublist ?_ hall
    refine List.Sublist.append (List.Sublist.append ?_ (List.Sublist.refl _)) (List.Sublist.refl _)
    exact (List.sublist_append_left _ _).trans (List.sublist_append_left _ _)
  refine ⟨?_, ?_⟩
  · choose next hnext _ using fun e (u p : List ℝ) =>
      C74_step hw hs d hfs (inputs_free hn) (stepData n e u p)
    let ε : ℕ → Env ℝ := fun i => Nat.rec e0 (fun i e => next e (sequ.getD i []) (seqp.getD i [])) i
    have hε : ∀ i, ε (i + 1) = next (ε i) (sequ.getD i []) (seqp.getD i []) := fun i => rfl
    have hdat : ∀ i < nt, (n.m.g.x ++ n.m.u ++ n.p).map (ε (i + 1)) =
        (n.m.g.x.map fun x => ε i x + ε i (dn x)) ++ sequ.getD i [] ++ seqp.getD i [] := by
      intro i hi
      have hl : ((n.m.g.x.map fun x => ε i x + ε i (dn x)) ++ sequ.getD i [] ++ seqp.getD i []).length =
          (n.m.g.x ++ n.m.u ++ n.p).length := by
        simp only [List.length_append, List.length_map, getD_len lu du hi, getD_len lp dp hi]
      refine Eq.trans (List.map_congr_left fun q hq => ?_) (args_eq hnd hl (base := n.base)).symm
      rw [hε]
      exact (hnext _ _ _).1 q fun hh => hdis q hh hq
    have hsp : ∀ i < nt, (n.m.g.x.map (ε (i + 1)) = n.m.g.x.map fun x => ε i x + ε i (dn x)) ∧
        n.m.u.map (ε (i + 1)) = sequ.getD i [] ∧ n.p.map (ε (i + 1)) = seqp.getD i [] := by
      intro i hi
      have := hdat i hi
      simp only [List.map_append] at this
      obtain ⟨q1, q2⟩ := List.append_inj this (by
        simp only [List.length_append, List.length_map, getD_len lu du hi])
      obtain ⟨q3, q4⟩ := List.append_inj q1 (by simp)
      exact ⟨q3, q4, q2⟩
    refine ⟨ε, rfl, fun i hi x hx => ?_, fun i hi => (hsp i hi).2.1, fun i hi => (hsp i hi).2.2,
      fun i hi q hq => ?_, fun i hi => ?_⟩
    · exact List.map_inj_left.1 (hsp i hi).1 x hx
    · rw [hε, (hnext _ _ _).1 q fun hh => hq ?_]
      · refine envOf_not_mem fun hh => hq ?_
        simp only [Num.all, List.mem_append] at hh ⊢
        tauto
      · rw [hv] at hh
        simp only [Num.all, List.mem_append] at hh ⊢
        tauto
    · rw [hε]; exact (hnext _ _ _).2
  · intro ε ε' h h' h0
    have hone : ∀ i < nt, (∀ x ∈ n.m.g.x, ε i x + ε i (dn x) = ε' i x + ε' i (dn x)) →
        ε (i + 1) = ε' (i + 1) := by
      intro i hi hx
      refine C68_unique hw d hfs (inputs_free hn) (fun q hq => ?_) (h.solved i hi) (h'.solved i hi)
      by_cases hqa : q ∈ n.all
      · simp only [Num.all, List.mem_append, ho, List.not_mem_nil, or_false] at hqa
        rw [hv, List.mem_append, not_or] at hq
        rcases hqa with (((hh | hh) | hh) | hh) | hh
        · rw [h.state i hi q hh, h'.state i hi q hh, hx q hh]
        · exact absurd hh hq.1
        · exact absurd hh hq.2
        · exact List.map_inj_left.1 ((h.inputs i hi).trans (h'.inputs i hi).symm) q hh
        · exact List.map_inj_left.1 ((h.params i hi).trans (h'.params i hi).symm) q hh
      · rw [h.others i hi q hqa, h'.others i hi q hqa]
    intro i
    induction i with
    | zero => intro h; omega
    | succ i ih =>
      intro _ hi
      refine hone i (by omega) ?_
      rcases Nat.eq_zero_or_pos i with rfl | hp
      · exact h0
      · rw [ih hp (by omega)]; exact fun _ _ => rfl

/-- Efforts and flows of storages, dissipative components and ports are determined by the values of the
symbols. -/
theorem stepEqs_unique {law : String → Env ℝ → ℝ} {nodes : List String} {edges : List (Edge ℝ)}
    {c : Core ℝ} {m : Meth} {ec : String → Prop} {e : Env ℝ} {E F E' F' : String → ℝ}
    (h : StepEqs law nodes edges c m ec e E F) (h' : StepEqs law nodes edges c m ec e E' F') :
    ∀ d ∈ edges, d.type ≠ .connector → E d.label = E' d.label ∧ F d.label = F' d.label := by
  classical
  have side : ∀ {p : Prop} {a b a' b' y u : ℝ}, Side p a b y u → Side p a' b' y u → a = a' ∧ b = b' := by
    intro p a b a' b' y u q q'
    by_cases hp : p
    · obtain ⟨q1, q2⟩ := q.1 hp
      obtain ⟨r1, r2⟩ := q'.1 hp
      exact ⟨by rw [← q1, ← r1], by rw [← q2, ← r2]⟩
    · obtain ⟨q1, q2⟩ := q.2 hp
      obtain ⟨r1, r2⟩ := q'.2 hp
      exact ⟨by rw [← q2, ← r2], by rw [← q1, ← r1]⟩
  intro d hd ht
  cases hty : d.type with
  | storage => exact side (h.stor d hd hty) (h'.stor d hd hty)
  | dissipative =>
    by_cases hp : ec d.label
    · obtain ⟨q1, q2⟩ := (h.diss d hd hty).1 hp
      obtain ⟨r1, r2⟩ := (h'.diss d hd hty).1 hp
      exact ⟨by rw [q1, r1], by rw [q2, r2]⟩
    · obtain ⟨q1, q2⟩ := (h.diss d hd hty).2 hp
      obtain ⟨r1, r2⟩ := (h'.diss d hd hty).2 hp
      exact ⟨by rw [q2, r2], by rw [q1, r1]⟩
  | port => exact side (h.port d hd hty) (h'.port d hd hty)
  | connector => exact absurd hty ht

/-- **C74**, circuits. The equations of a step of a circuit of monotone components always have exactly one
solution: whatever the states, the inputs, the values of the other symbols, the sample rate and the
splitting, there is exactly one choice of the increments of the states and of the variables of
the dissipative components for which the equations of the circuit hold, and then the efforts and flows of
all storages, dissipative components and ports are determined. -/
theorem C74_circuit {law : String → Env ℝ → ℝ} {fuel : ℕ} {nodes : List String}
    {edges : List (Edge ℝ)} {c c2 : Core ℝ} (h : CircuitOK nodes edges c)
    (hstat : StaticLaws law edges) (hreg : RegularCircuit law edges c.H)
    (hmon : MonotoneCircuit law edges c.H)
    (hin : ∀ d ∈ edges, d.type = .port → ∀ r ∈ edges,
      (r.type = .storage → inputOf c d.label ≠ dn r.label) ∧
      (r.type = .dissipative → inputOf c d.label ≠ r.label))
    (hc : toCore law fuel nodes edges c = some c2)
    (s : Sympy) (hs : s.OK) (o : Config) (hj : JacSound s o c2) (hfs : 0 < o.fs)
    (hθ : o.kind = .theta → 0 ≤ o.θ)
    (hk : o.kind ≠ .discret ∨
      (QuadEnergy c.H ((ofType .storage edges).map (·.label)) ∧ 0 < o.epsdg)) :
    ∃ m ec, toMethod s o c2 = some m ∧
      (∀ d ∈ edges, (d.ctrl = .e → ec d.label) ∧ (d.ctrl = .f → ¬ ec d.label)) ∧
      ∀ e : Env ℝ, ∃! e' : Env ℝ,
        (∀ q, (∀ d ∈ edges, (d.type = .storage → q ≠ dn d.label) ∧ (d.type = .dissipative → q ≠ d.label)) →
          e' q = e q) ∧
        ∃ E F, StepEqs law nodes edges c m ec e' E F ∧
          ∀ E' F', StepEqs law nodes edges c m ec e' E' F' →
            ∀ d ∈ edges, d.type ≠ .connector → E d.label = E' d.label ∧ F d.label = F' d.label := by
  obtain ⟨m, h1, hmw, hsp, hmf, hdiag⟩ := diag_of h hstat hreg hmon hc s hs o hj hθ hk
  obtain ⟨m', ec, h1', h2, h3, h4, h5, h6, ⟨M, h7, h8, h9, h9'⟩, hct, h10, -⟩ := step_facts h hstat hc s hs o
  obtain rfl : m = m' := Option.some.inj (h1.symm.trans h1')
  have hfs' : 0 < m.fs := by rw [hmf]; exact hfs
  have hv : m.v .all = m.g.x.map dn ++ m.w := by simp [Meth.v, Sfx.pick]
  have hoff : ∀ q, q ∉ m.v .all ↔ ∀ d ∈ edges, (d.type = .storage → q ≠ dn d.label) ∧
      (d.type = .dissipative → q ≠ d.label) := by
    intro q
    rw [hv, List.mem_append, not_or]
    constructor
    · rintro ⟨a, b⟩ d hd
      refine ⟨fun ht hq => a ?_, fun ht hq => b ?_⟩
      · rw [hq]
        exact List.mem_map_of_mem (h5.mem_iff.2
          (List.mem_map_of_mem (f := fun d : Edge ℝ => d.label) (mem_ofType.2 ⟨hd, ht⟩)))
      · rw [hq]
        exact h9.mem_iff.2 (List.mem_map_of_mem (f := fun d : Edge ℝ => d.label) (mem_ofType.2 ⟨hd, ht⟩))
    · intro a
      refine ⟨fun hq => ?_, fun hq => ?_⟩
      · obtain ⟨x, hx, rfl⟩ := List.mem_map.1 hq
        obtain ⟨d, q1, q2, q3⟩ := mem_labels_of (h5.mem_iff.1 hx)
        exact (a d q1).1 q2 (by rw [q3])
      · obtain ⟨d, q1, q2, q3⟩ := mem_labels_of (h9.mem_iff.1 hq)
        exact (a d q1).2 q2 q3.symm
  have hinp : ∀ q ∈ m.v .all, q ∉ m.u := by
    intro q hq hu
    refine (hoff q).2 ?_ hq
    obtain ⟨i, hi, rfl⟩ := List.mem_iff_getElem.1 hu
    have hz : (m.y[i]'(by rw [← hmw.uy]; exact hi), m.u[i]) ∈ m.y.zip m.u := by
      rw [List.mem_iff_getElem]
      exact ⟨i, by simp [← hmw.uy, hi], by simp⟩
    obtain ⟨d, q1, q2⟩ := List.mem_map.1 (h9'.mem_iff.1 hz)
    obtain ⟨r1, r2⟩ := mem_ofType.1 q1
    rw [Prod.mk.injEq] at q2
    rw [← q2.2]
    exact hin d r1 r2
  refine ⟨m, ec, h1, hct, fun e => ?_⟩
  obtain ⟨e', ⟨a1, a2⟩, a3⟩ := C74_step hmw hsp hdiag hfs' hinp e
  obtain ⟨E, F, hEF⟩ := (h10 e').1 a2
  refine ⟨e', ⟨fun q hq => a1 q ((hoff q).2 hq), E, F, hEF, fun E' F' h' => stepEqs_unique hEF h'⟩, ?_⟩
  rintro e'' ⟨b1, E', F', b2, -⟩
  exact a3 e'' ⟨fun q hq => b1 q ((hoff q).1 hq), (h10 e'').2 ⟨E', F', b2⟩⟩

/-- **C74**, simulations. From any state, for any inputs and parameters, the equations of all the steps
of a simulation of a circuit of monotone components have one solution, and only one. -/
theorem C74_run {law : String → Env ℝ → ℝ} {fuel : ℕ} {nodes : List String}
    {edges : List (Edge ℝ)} {c c2 : Core ℝ} (h : CircuitOK nodes edges c)
    (hstat : StaticLaws law edges) (hreg : RegularCircuit law edges c.H)
    (hmon : MonotoneCircuit law edges c.H)
    (hc : toCore law fuel nodes edges c = some c2)
    (s : Sympy) (hs : s.OK) (o : Config) (hj : JacSound s o c2) (hfs : 0 < o.fs)
    (hθ : o.kind = .theta → 0 ≤ o.θ)
    (hk : o.kind ≠ .discret ∨
      (QuadEnergy c.H ((ofType .storage edges).map (·.label)) ∧ 0 < o.epsdg)) :
    ∃ m, toMethod s o c2 = some m ∧
      ∀ (n : Num), n.m = m → n.WF → n.o = [] →
      ∀ (nt : ℕ) (sequ seqp : List (List ℝ)), sequ.length = nt → seqp.length = nt →
        (∀ r ∈ sequ, r.length = m.u.length) → (∀ r ∈ seqp, r.length = n.p.length) →
        (∀ e0, ∃ ε, ε 0 = e0 ∧ ExactRun n nt sequ seqp ε) ∧
        ∀ ε ε', ExactRun n nt sequ seqp ε → ExactRun n nt sequ seqp ε' →
          (∀ x ∈ (ofType .storage edges).map (·.label), ε 0 x + ε 0 (dn x) = ε' 0 x + ε' 0 (dn x)) →
          ∀ i, 0 < i → i ≤ nt → ε i = ε' i := by
  obtain ⟨m, h1, hmw, hsp, hmf, hdiag⟩ := diag_of h hstat hreg hmon hc s hs o hj hθ hk
  obtain ⟨m', ec, h1', -, -, -, h5, -⟩ := step_facts h hstat hc s hs o
  obtain rfl : m = m' := Option.some.inj (h1.symm.trans h1')
  refine ⟨m, h1, fun n hm hn ho nt sequ seqp lu lp du dp => ?_⟩
  subst hm
  have key := exact_exists hn hmw hsp hdiag (by rw [hmf]; exact hfs) ho lu lp du dp
  exact ⟨fun e0 => (key e0).1, fun ε ε' a b h0 => (key fun _ => 0).2 ε ε' a b fun x hx =>
    h0 x (h5.mem_iff.1 hx)⟩

end Circuit
end Pyphs
