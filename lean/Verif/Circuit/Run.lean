/-
Property C66, from the circuit to the data file of its simulation.
-/
import Verif.Circuit.ClassifyProps
import Verif.Circuit.Passive
import Verif.Record.Power

namespace Pyphs
namespace Circuit
open Scheme Core Graph Finset Numeric Record H5

/-- What is asked from the components of a circuit: distinct names; an energy that is a function of
the states, twice differentiable; laws `Z` of dissipative components that do not depend on the increments
and are differentiable. -/
structure RegularFor (Z : Edge ℝ → Sc → Prop) (edges : List (Edge ℝ)) (H : Sc) : Prop where
  nodup : ((ofType .storage edges).map (·.label) ++ ((ofType .storage edges).map (·.label)).map dn ++
    (ofType .dissipative edges).map (·.label)).Nodup
  Hx : (∀ d ∈ edges, d.type = .storage → Indep H (dn d.label)) ∧
    ∀ d ∈ edges, d.type = .dissipative → Indep H d.label
  H2 : ∀ d ∈ edges, d.type = .storage → ∀ r ∈ edges, r.type = .storage →
    CDiff (pdiff H d.label) r.label
  laws : ∀ d ∈ edges, d.type = .dissipative → ∀ f, Z d f →
    (∀ r ∈ edges, r.type = .storage → Indep f (dn r.label)) ∧
    ∀ r ∈ edges, r.type = .dissipative → CDiff f r.label

/-- The same, for both laws of each dissipative component. -/
abbrev RegularCircuit (law : String → Env ℝ → ℝ) (edges : List (Edge ℝ)) (H : Sc) : Prop :=
  RegularFor (fun d f => f = law d.ze ∨ f = law d.zf) edges H

theorem mem_labels_of {t : EType} {edges : List (Edge ℝ)} {l : String}
    (h : l ∈ (ofType t edges).map (·.label)) : ∃ d ∈ edges, d.type = t ∧ d.label = l := by
  obtain ⟨d, hd, rfl⟩ := List.mem_map.1 h
  obtain ⟨h1, h2⟩ := mem_ofType.1 hd
  exact ⟨d, h1, h2, rfl⟩

theorem mem_zip_of_mem {a : List String} {b : List Sc} (h : a.length = b.length) {f : Sc}
    (hf : f ∈ b) : ∃ w, (w, f) ∈ a.zip b := by
  obtain ⟨i, hi, rfl⟩ := List.mem_iff_getElem.1 hf
  refine ⟨a[i]'(by omega), ?_⟩
  rw [List.mem_iff_getElem]
  exact ⟨i, by simp [h, hi], by simp⟩

/-- The laws of a core are laws of the components. -/
theorem chosen_of {law : String → Env ℝ → ℝ} {fuel : ℕ} {nodes : List String}
    {edges : List (Edge ℝ)} {c c2 : Core ℝ} (h : CircuitOK nodes edges c)
    (hc : toCore law fuel nodes edges c = some c2) : ∀ p ∈ c2.w.zip c2.z,
    ∃ d ∈ edges, d.type = .dissipative ∧ d.label = p.1 ∧ (p.2 = law d.ze ∨ p.2 = law d.zf) := by
  classical
  obtain ⟨ec, -, -, -, -, -, -, hw, -⟩ := C63_core h hc two_ne_zero
  intro p hp
  obtain ⟨d, hd, rfl⟩ := List.mem_map.1 (hw.mem_iff.1 hp)
  obtain ⟨h1, h2⟩ := mem_ofType.1 hd
  refine ⟨d, h1, h2, rfl, ?_⟩
  dsimp only
  split_ifs
  · exact .inl rfl
  · exact .inr rfl

/-- The core of a circuit is regular if the components are regular, for the laws of the core. -/
theorem regular_for {law : String → Env ℝ → ℝ} {Z : Edge ℝ → Sc → Prop} {fuel : ℕ} {nodes : List String}
    {edges : List (Edge ℝ)} {c c2 : Core ℝ} (h : CircuitOK nodes edges c)
    (hr : RegularFor Z edges c.H) (hc : toCore law fuel nodes edges c = some c2)
    (hz : ∀ p ∈ c2.w.zip c2.z, ∃ d ∈ edges, d.type = .dissipative ∧ d.label = p.1 ∧ Z d p.2) :
    Regular c2 := by
  classical
  obtain ⟨ec, -, hwf, -, hH, -, hx, hw, -⟩ := C63_core h hc two_ne_zero
  have hwp : c2.w.Perm ((ofType .dissipative edges).map (·.label)) := by
    have := hw.map Prod.fst
    rw [List.map_fst_zip (by rw [hwf.wz]), List.map_map] at this
    exact this
  have hlaw : ∀ f ∈ c2.z, ∃ d ∈ edges, d.type = .dissipative ∧ Z d f := by
    intro f hf
    obtain ⟨w, hw'⟩ := mem_zip_of_mem hwf.wz hf
    obtain ⟨d, h1, h2, -, h3⟩ := hz _ hw'
    exact ⟨d, h1, h2, h3⟩
  refine ⟨?_, ?_, ?_, ?_, ?_⟩
  · exact (List.Perm.nodup_iff ((hx.append (hx.map dn)).append hwp)).2 hr.nodup
  · intro v hv
    rw [hH]
    rcases List.mem_append.1 hv with hv | hv
    · obtain ⟨x, hxm, rfl⟩ := List.mem_map.1 hv
      obtain ⟨d, h1, h2, rfl⟩ := mem_labels_of (hx.mem_iff.1 hxm)
      exact hr.Hx.1 d h1 h2
    · obtain ⟨d, h1, h2, rfl⟩ := mem_labels_of (hwp.mem_iff.1 hv)
      exact hr.Hx.2 d h1 h2
  · intro x hxm r hrm
    obtain ⟨d, h1, h2, rfl⟩ := mem_labels_of (hx.mem_iff.1 hxm)
    obtain ⟨d', h1', h2', rfl⟩ := mem_labels_of (hx.mem_iff.1 hrm)
    rw [hH]
    exact hr.H2 d h1 h2 d' h1' h2'
  · intro f hf x hxm
    obtain ⟨d, h1, h2, h3⟩ := hlaw f hf
    obtain ⟨d', h1', h2', rfl⟩ := mem_labels_of (hx.mem_iff.1 hxm)
    exact (hr.laws d h1 h2 f h3).1 d' h1' h2'
  · intro f hf w hwm
    obtain ⟨d, h1, h2, h3⟩ := hlaw f hf
    obtain ⟨d', h1', h2', rfl⟩ := mem_labels_of (hwp.mem_iff.1 hwm)
    exact (hr.laws d h1 h2 f h3).2 d' h1' h2'

/-- The core of a circuit of regular components is regular. -/
theorem regular_of {law : String → Env ℝ → ℝ} {fuel : ℕ} {nodes : List String}
    {edges : List (Edge ℝ)} {c c2 : Core ℝ} (h : CircuitOK nodes edges c)
    (hr : RegularCircuit law edges c.H) (hc : toCore law fuel nodes edges c = some c2) :
    Regular c2 :=
  regular_for h hr hc (chosen_of h hc)

/-- **C66**, one update of the simulation of a circuit. The values of the symbols stored when the update
returns satisfy the equations of the circuit exactly if there is nothing to iterate, or if the stored
residual vanishes. -/
theorem C66_update {law : String → Env ℝ → ℝ} {fuel : ℕ} {nodes : List String}
    {edges : List (Edge ℝ)} {c c2 : Core ℝ} (h : CircuitOK nodes edges c)
    (hstat : StaticLaws law edges) (hreg : RegularCircuit law edges c.H)
    (hc : toCore law fuel nodes edges c = some c2)
    (s : Sympy) (hs : s.OK) (o : Config) (hj : JacSound s o c2) :
    ∃ m ec, toMethod s o c2 = some m ∧
      (∀ d ∈ edges, (d.ctrl = .e → ec d.label) ∧ (d.ctrl = .f → ¬ ec d.label)) ∧
      ∀ (n : Num) (u p : Option (List ℝ)) (st st' : St Nm ℝ), n.m = m → n.WF →
        st.args.length = n.all.length → n.update u p st = some st' →
        (n.nl = 0 ∨ st'.vals .res_Fnl = some (.s 0)) →
        ∃ E F, StepEqs law nodes edges c m ec (n.E st') E F := by
  obtain ⟨m, ec, h1, h2, -, -, -, -, -, h7, h8, -⟩ := step_facts h hstat hc s hs o
  have hsp := (C66_split_exact s hs o c2 (ready_of h hstat hc) (regular_of h hreg hc) hj h1).2
  refine ⟨m, ec, h1, h7, fun n u p st st' hm hn hl hu hcv => (h8 _).1 ?_⟩
  subst hm
  obtain ⟨a1, a2, -⟩ := C59_consistent hn h2 hsp hl hu
  intro i hi
  rcases Numeric.rows h2 (n.E st') hi with ⟨j, hj, e⟩ | ⟨j, hj, e⟩
  · rw [e]; exact a1 j hj
  · have h0 : 0 < n.nl := lt_of_le_of_lt (Nat.zero_le _) hj
    obtain ⟨f, k, -, -, hf, hr, -⟩ := a2 h0
    rw [e, hf j hj]
    rcases hcv with hcv | hcv
    · omega
    · rw [hr] at hcv
      simp only [Option.some.injEq, NV.s.injEq] at hcv
      have := abs_le_norm n f j
      rw [hcv] at this
      exact abs_eq_zero.1 (le_antisymm this (abs_nonneg _))

/-- The laws of a method built on a core. -/
theorem method_laws {s : Sympy} (hs : s.OK) {o : Config} {c : Core ℝ} (hc : Ready c) {m : Meth}
    (hm : toMethod s o c = some m) : (m.w.zip m.z).Perm (c.w.zip c.z) := by
  obtain ⟨n, c', e, k, -⟩ := toMethod_spec s hs o c hc
  rw [e] at hm
  obtain rfl := Option.some.inj hm
  exact k.same.laws

theorem ldot_zip {ws : List String} {zs : List Sc} {e : Env ℝ} :
    Core.ldot (ws.map e) (evs zs e) = ((ws.zip zs).map fun p => e p.1 * p.2 e).sum := by
  induction ws generalizing zs with
  | nil => simp [Core.ldot]
  | cons w ws ih =>
    cases zs with
    | nil => simp [Core.ldot, evs]
    | cons z zs =>
      have := @ih zs
      simp only [Core.ldot, evs, List.map_cons, List.zipWith_cons_cons, List.sum_cons,
        List.zip_cons_cons] at this ⊢
      rw [this]

theorem skew_passive {A : Mat ℝ} (h : A.IsSkew) : A.Passive :=
  ⟨h.1, fun a => le_of_eq ((Mat.isSkew_iff_quad two_ne_zero A h.1).1 h a)⟩

/-- **C66**, from the circuit to the data file. The circuit is passive and its energy is quadratic in each
state; the method is built with any options (the midpoint if a theta scheme), the simulation is run and
recorded. In the energies and the powers of the ports read in the file, the energy at a sample is at most
the energy at an earlier sample plus the energy received by the ports in between, up to the tolerance of
the solver (zero if there is nothing to iterate). -/
theorem C66_passive {law : String → Env ℝ → ℝ} {fuel : ℕ} {nodes : List String}
    {edges : List (Edge ℝ)} {c c2 : Core ℝ} (h : CircuitOK nodes edges c)
    (hstat : StaticLaws law edges) (hreg : RegularCircuit law edges c.H)
    (hpas : PassiveLaws law edges)
    (hquad : QuadEnergy c.H ((ofType .storage edges).map (·.label)))
    (hc : toCore law fuel nodes edges c = some c2)
    (s : Sympy) (hs : s.OK) (o : Config) (hj : JacSound s o c2) (hfs : 0 < o.fs)
    (hθ : o.kind = .theta → o.θ = 1 / 2) :
    ∃ m, toMethod s o c2 = some m ∧
      ∀ (n : Num), n.m = m → n.WF → n.o = [] → 0 ≤ n.eps → EnergyReads n →
      ∀ (nt : ℕ) (sequ seqp : List (List ℝ)) (st : ℕ → St Nm ℝ), Run n nt sequ seqp st →
      (∀ i, i + 1 < nt → seqp.getD (i + 1) [] = seqp.getD i []) →
      (∀ i < nt, Converged n (st (i + 1))) →
      ∀ (w : Window), w.stop = nt → 1 ≤ w.step → ∀ (ev : Eval ℝ), Evaluates n ev c.H →
      ∃ ds dn, initFile (layout n) nt sequ seqp = .ok ds ∧
        process (layout n) w (machine n) nt (st 0) ds = .ok (st nt, dn) ∧
        ∀ (w' : Window) (t : TSel) (a b : ℕ), Selects w' t nt a b 1 → a < b →
        ∃ En S : ℕ → ℝ, readExpr (layout n) w' dn (.vector [] []) ev t =
            .ok (.rows ((samples a b 1).map fun i => [En i])) ∧
          readPs (layout n) w' dn t = .ok ((samples a b 1).map S) ∧
          ∀ k N, a ≤ k → k + N < b →
            En (k + N) ≤ En k + (∑ i ∈ range N,
              (slack n (n.E (st (k + i + 1))) - S (k + i))) / o.fs := by
  classical
  obtain ⟨m, ec, h1, h2, h3, h4, h5, h6, ⟨M, h7, h8, -⟩, -⟩ := step_facts h hstat hc s hs o
  obtain ⟨ec', -, -, -, -, -, -, hw, -⟩ := C63_core h hc two_ne_zero
  have hrd := ready_of h hstat hc
  have hsp := (C66_split_exact s hs o c2 hrd (regular_of h hreg hc) hj h1).2
  have hlaws := (method_laws hs hrd h1).trans hw
  refine ⟨m, h1, fun n hm hn ho heps hE nt sequ seqp st hrun hp hcv w hst hw1 ev he => ?_⟩
  subst hm
  rw [← h3] at he
  rw [← h4]
  refine C65_passive hn h2 hsp ho heps hE (by rw [h4]; exact hfs) hrun hp hst hw1 he hcv ?_ ?_ ?_
  · intro i _
    unfold ExactStep
    have hnd := (List.nodup_append.1 (List.nodup_append.1 h2.nodup).1).1
    rw [h6]
    refine quad_gradient_exact ?_ hnd _ _ _ hθ _
    rw [h3]
    exact hquad.mono fun y hy => h5.mem_iff.1 hy
  · intro i _
    rw [h8]
    exact skew_passive h7
  · intro i _
    rw [ldot_zip, (hlaws.map _).sum_eq, List.map_map]
    refine List.sum_nonneg fun v hv => ?_
    obtain ⟨d, hd, rfl⟩ := List.mem_map.1 hv
    obtain ⟨q1, q2⟩ := mem_ofType.1 hd
    have := hpas d q1 q2 (n.E (st (i + 1)))
    simp only [Function.comp]
    split_ifs
    · exact this.1
    · exact this.2

end Circuit
end Pyphs
