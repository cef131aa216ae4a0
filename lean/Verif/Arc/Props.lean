/-
C85: netlists with storages in parallel.
-/
import Verif.Arc.Lift
import Verif.Arc.Merged
import Verif.Arc.Idle

namespace Pyphs
namespace Arc
open Graph System Core Params Circuit Scheme Numeric Record
open Netlist (Row)
open Verif.Split (LoopFree NoHang Free leaves Shape IsComp spAssemble_shape)

/-- What is done before the analysis. -/
theorem prepare_merged {sy : Sympy} (hsy : sy.Lawful) {V : Views} (hV : V.Lawful) {fuel : ℕ}
    {edges : List (Edge ℝ)} {ds : List Device} {s : Shared} (hg : Good ds) (hp : edges.Perm (ds.flatMap devEdges))
    (hs : Holds ds s.core) (hloop : ∀ d ∈ edges, d.tail ≠ d.head) (hhang : NoHang (edges.map wrap))
    (hf : edges.length < fuel) :
    (prepare sy V fuel edges s = .error .unmodelled ∧ 2 ≤ efforts ds) ∨
    ∃ edges' s' Bs, prepare sy V fuel edges s = .ok (edges', s') ∧ InAll Bs ds ∧ Holds (mergeAll Bs ds) s'.core ∧
      s'.law = s.law ∧ edges'.Perm ((mergeAll Bs ds).flatMap devEdges) := by
  have hcomp : ∀ e ∈ edges.map wrap, IsComp e := fun e he => by
    obtain ⟨d, -, rfl⟩ := List.mem_map.1 he
    exact isComp_wrap d
  have hl : LoopFree (edges.map wrap) := by
    intro e he
    obtain ⟨d, hd, rfl⟩ := List.mem_map.1 he
    intro hc
    exact hloop d hd (String.toList_injective hc)
  obtain ⟨st, h1, h2, h3, -⟩ := Verif.Split.C62_split hV.vp hV.vs (edges.map wrap) hcomp hl hhang 0 0 fuel
    (by simpa using hf)
  have hw : Wraps (leaves st.edges) := fun x hx => by
    obtain ⟨d, -, rfl⟩ := List.mem_map.1 (h2.subset hx)
    exact ⟨d, rfl⟩
  have hsplit := leaves_split st.edges
  have hperm : (datas (leaves (st.edges.filter (·.isGraph))) ++
      datas (leaves (st.edges.filter (!·.isGraph)))).Perm (ds.flatMap devEdges) := by
    rw [← datas_append]
    refine (datas_perm (hsplit.symm.trans h2)).trans ?_
    rw [datas_wrap]
    exact hp
  have hw1 : Wraps (leaves (st.edges.filter (·.isGraph))) := fun x hx =>
    hw x (hsplit.symm.subset (List.mem_append_left _ hx))
  have hw2 : Wraps (leaves (st.edges.filter (!·.isGraph))) := fun x hx =>
    hw x (hsplit.symm.subset (List.mem_append_right _ hx))
  rcases done_list st.edges (fun e he => done hsy hV.vm (h3 e he)) s ds _ hg hs hperm hw1 with
    ⟨k1, k2⟩ | ⟨es', s', Bs, k1, k2, k3, k4, k5, k6, k7, k8⟩
  · left
    refine ⟨?_, k2⟩
    unfold prepare
    rw [h1]
    simp only [bind, Except.bind]
    rw [k1]
  · right
    have hsplit' := leaves_split es'
    rw [k8] at hsplit'
    have hw' : Wraps (leaves es') := fun x hx => by
      rcases List.mem_append.1 (hsplit'.subset hx) with h | h
      · exact k6 x h
      · exact hw2 x h
    have hd' : (datas (leaves es')).Perm ((mergeAll Bs ds).flatMap devEdges) := by
      refine (datas_perm hsplit').trans ?_
      rw [datas_append]
      exact k5
    have hfree : ∀ x ∈ leaves es', Free x.label := fun x hx => by
      obtain ⟨d, rfl⟩ := hw' x hx
      refine free_label (hg.mergeAll k2) (hd'.subset ?_)
      exact List.mem_filterMap.2 ⟨_, hx, rfl⟩
    obtain ⟨g', h4, h5⟩ := spAssemble_shape hV.va k7 hfree
    refine ⟨datas g', s', Bs, ?_, k2, k3, k4, (datas_perm h5).trans hd'⟩
    unfold prepare
    rw [h1]
    simp only [bind, Except.bind]
    rw [k1]
    simp only [h4]

variable {W : Type} {val : W → ℝ} {rows : List (Row W)} {ds : List Device}

/-- What pyphs builds from the lines of a netlist: components, nodes and edges of the graph (in any order), core
of the graph; edges and core once anti-realizable components have been merged; core after the analysis. -/
structure Built (sy : Sympy) (V : Views) (I : Sym.Interp ℝ) (val : W → ℝ) (rows : List (Row W))
    (ps : List (System.Part ℝ)) (nodes : List String) (edges : List (Edge ℝ)) (c : Core ℝ) (fuel' : ℕ)
    (edges' : List (Edge ℝ)) (s' : Shared) (fuel : ℕ) (c2 : Core ℝ) : Prop where
  parts : buildParts val rows = .ok ps
  core : graphCore I ps = some c
  perm : edges.Perm (graphEdges I ps)
  nodup : nodes.Nodup
  ends : ∀ n, n ∈ nodes ↔ ∃ d ∈ edges, d.tail = n ∨ d.head = n
  prepared : prepare sy V fuel' edges ⟨c, law I ps⟩ = .ok (edges', s')
  analysed : toCore s'.law fuel nodes edges' s'.core = some c2

/-- The hypotheses: the names of the components can be put one after the other, `sympy` solves linear equations,
`networkx` enumerates all the edges; no component has its two ends at the same node, no part of the graph
hangs from a single node. -/
structure Suits (sy : Sympy) (V : Views) (I : Sym.Interp ℝ) (ds : List Device) (edges : List (Edge ℝ))
    (fuel : ℕ) : Prop where
  sympy : sy.Lawful
  views : V.Lawful
  arith : Arith I
  names : Names (idsOf ds)
  loop : ∀ d ∈ edges, d.tail ≠ d.head
  hang : NoHang (edges.map wrap)
  fuel : edges.length < fuel

theorem Built.facts {sy : Sympy} {V : Views} {I : Sym.Interp ℝ} {ps : List (System.Part ℝ)} {nodes : List String}
    {edges edges' : List (Edge ℝ)} {c c2 : Core ℝ} {fuel' fuel : ℕ} {s' : Shared}
    (hb : Built sy V I val rows ps nodes edges c fuel' edges' s' fuel c2) (h : NetOK val rows ds)
    (hs : Suits sy V I ds edges fuel') :
    Good ds ∧ ∃ Bs, InAll Bs ds ∧ Facts s'.law (mergeAll Bs ds) nodes edges' s'.core := by
  obtain ⟨h1, h2, h3, h4⟩ := core_facts h hs.arith hb.parts hb.core
  have hg : Good ds := ⟨h.ids, h.positive, hs.names⟩
  have hp := hb.perm
  rw [h1] at hp
  refine ⟨hg, ?_⟩
  rcases prepare_merged hs.sympy hs.views hg hp (s := ⟨c, law I ps⟩) ⟨h2, h3⟩ hs.loop hs.hang hs.fuel with
    ⟨k1, -⟩ | ⟨e1, s1, Bs, k1, k2, k3, k4, k5⟩
  · rw [hb.prepared] at k1
    cases k1
  · rw [hb.prepared] at k1
    injection k1 with k1
    injection k1 with k1 k1'
    subst k1 k1'
    have hg' := hg.mergeAll k2
    have hends : ∀ {es : List (Edge ℝ)} {l : List Device}, es.Perm (l.flatMap devEdges) → ∀ n,
        (∃ d ∈ es, d.tail = n ∨ d.head = n) ↔ ∃ b ∈ l.flatMap Device.branches, b.tail = n ∨ b.head = n := by
      intro es l hp n
      constructor
      · rintro ⟨d, hd, hn⟩
        obtain ⟨q, hq, hd⟩ := List.mem_flatMap.1 (hp.subset hd)
        cases q <;> simp only [devEdges, List.mem_cons, List.not_mem_nil, or_false] at hd
        case gyrator a b α =>
          rcases hd with rfl | rfl
          · exact ⟨a, List.mem_flatMap.2 ⟨_, hq, by simp [Device.branches]⟩, hn⟩
          · exact ⟨b, List.mem_flatMap.2 ⟨_, hq, by simp [Device.branches]⟩, hn⟩
        case transformer a b α =>
          rcases hd with rfl | rfl
          · exact ⟨a, List.mem_flatMap.2 ⟨_, hq, by simp [Device.branches]⟩, hn⟩
          · exact ⟨b, List.mem_flatMap.2 ⟨_, hq, by simp [Device.branches]⟩, hn⟩
        all_goals
          subst hd
          exact ⟨_, List.mem_flatMap.2 ⟨_, hq, List.mem_cons_self⟩, hn⟩
      · rintro ⟨b, hb, hn⟩
        obtain ⟨d, hdd, hbd⟩ := List.mem_flatMap.1 hb
        obtain ⟨q, hq, -, q2, q3⟩ := branch_edge hdd hbd
        exact ⟨q, hp.symm.subset hq, by rw [q2, q3]; exact hn⟩
    refine ⟨Bs, k2, facts_of hg'.ids hg'.positive k5 ?_ hb.nodup (fun n => ?_) k3.declares k3.energy ?_⟩
    · exact (ends_mergeAll hg k2 ground).2 h.ground
    · rw [hb.ends, hends hp, hends k5, ends_mergeAll hg k2]
    · intro b r hbr
      rw [k4]
      exact h4 b r (unkeep hbr trivial)

/-- **C85**, equations. The method built from a netlist with storages in parallel solves the equations that its
lines describe, once the states of the storages that have been merged are those which share the state of the
equivalent storage; its energy is theirs. -/
theorem C85_equations {sy : Sympy} {V : Views} {I : Sym.Interp ℝ} {ps : List (System.Part ℝ)} {nodes : List String}
    {edges edges' : List (Edge ℝ)} {c c2 : Core ℝ} {fuel' fuel : ℕ} {s' : Shared}
    (hb : Built sy V I val rows ps nodes edges c fuel' edges' s' fuel c2) (h : NetOK val rows ds)
    (hs : Suits sy V I ds edges fuel') : ∃ Bs ec, InAll Bs ds ∧ Controls ds ec ∧
    ∀ (s : Circuit.Sympy) (_ : s.OK) (o : Config) (_ : 0 < o.epsdg), ∃ m, toMethod s o c2 = some m ∧
      (∀ e, m.H e = stored ds fun i => lift Bs e ("x" ++ i)) ∧
      (∀ e, m.Solved e ↔ ∃ E F, Step ds ec o.fs (weight o.kind o.θ) (lift Bs e) E F) ∧
      ∀ e E F, Step ds ec o.fs (weight o.kind o.θ) (lift Bs e) E F →
        (∀ b, .fluxSource b ∈ ds → outOf m ("y" ++ b.id) e = E b.id) ∧
        (∀ b, .effortSource b ∈ ds → outOf m ("y" ++ b.id) e = F b.id) := by
  obtain ⟨hg, Bs, hB, f⟩ := hb.facts h hs
  obtain ⟨ec, h1, h2⟩ := method_facts f hb.analysed
  refine ⟨Bs, ctrl ds ec, hB, controls_all hg h1, fun s hs o ht => ?_⟩
  obtain ⟨m, k1, -, k2, -, -, k3, k4⟩ := h2 s hs o ht
  refine ⟨m, k1, fun e => ?_, fun e => ?_, fun e E F hst => ?_⟩
  · rw [k2, stored_lift hg hB]
  · rw [k3]
    constructor
    · rintro ⟨E, F, hst⟩; exact ⟨_, _, step_lift hg hB hst⟩
    · rintro ⟨E, F, hst⟩; exact ⟨_, _, step_unlift hg hB hst⟩
  · obtain ⟨q1, q2⟩ := k4 e _ _ (step_unlift hg hB hst)
    refine ⟨fun b hb => ?_, fun b hb => ?_⟩
    · rw [q1 b (keep hb trivial), (other_all hg hB hb trivial b (by simp [Device.branches]) E).2.2.2]
    · rw [q2 b (keep hb trivial), (other_all hg hB hb trivial b (by simp [Device.branches]) F).2.2.1]

/-- **C85**, simulation. A simulation of a netlist with storages in parallel exists for all inputs and all
initial values; each update moves the states by their increments, reads the inputs and, if the solver is
asked for no residual, solves the equations described by the netlist. -/
theorem C85_simulation {sy : Sympy} {V : Views} {I : Sym.Interp ℝ} {ps : List (System.Part ℝ)}
    {nodes : List String} {edges edges' : List (Edge ℝ)} {c c2 : Core ℝ} {fuel' fuel : ℕ} {s' : Shared}
    (hb : Built sy V I val rows ps nodes edges c fuel' edges' s' fuel c2) (h : NetOK val rows ds)
    (hs : Suits sy V I ds edges fuel') : ∃ Bs ec, InAll Bs ds ∧ Controls ds ec ∧
    ∀ (s : Circuit.Sympy) (_ : s.OK) (o : Config), 0 < o.fs → (o.kind = .theta → 0 ≤ o.θ) → 0 < o.epsdg →
    ∃ m, toMethod s o c2 = some m ∧
      ∀ (n : Num), n.m = m → n.p = [] → n.o = [] → n.obs = [] → 0 ≤ n.eps → n.eps < 1 → 1 ≤ n.maxit →
      ∀ (nt : ℕ) (U : ℕ → String → ℝ) (s0 : St Nm ℝ), s0.args.length = n.all.length →
        (∃ st, st 0 = s0 ∧ Run n nt ((List.range nt).map fun i => m.u.map (U i)) (List.replicate nt []) st) ∧
        ∀ st, Run n nt ((List.range nt).map fun i => m.u.map (U i)) (List.replicate nt []) st →
          (∀ i < nt, Converged n (st (i + 1))) ∧
          (n.eps = 0 → ∀ i < nt, Update ds ec o.fs (weight o.kind o.θ) (U i) (lift Bs (n.E (st i)))
            (lift Bs (n.E (st (i + 1)))) fun l => outOf m l (n.E (st (i + 1)))) := by
  obtain ⟨hg, Bs, hB, f⟩ := hb.facts h hs
  obtain ⟨ec, h1, h2⟩ := sim_facts f hb.analysed
  refine ⟨Bs, ctrl ds ec, hB, controls_all hg h1, fun s hs o hfs hθ ht => ?_⟩
  obtain ⟨m, k1, k2⟩ := h2 s hs o hfs hθ ht
  refine ⟨m, k1, fun n a1 a2 a3 a4 a5 a6 a7 nt U s0 hl => ?_⟩
  obtain ⟨q1, q2⟩ := k2 n a1 a2 a3 a4 a5 a6 a7 nt U s0 hl
  exact ⟨q1, fun st hr => ⟨(q2 st hr).1, fun hz i hi => update_lift hg hB ((q2 st hr).2 hz i hi)⟩⟩

theorem sources_mergeAll (Bs : List Bank) : ∀ ds, sources (mergeAll Bs ds) = sources ds := by
  induction Bs with
  | nil => intro ds; rfl
  | cons B Bs ih =>
    intro ds
    refine (ih (B.merge ds)).trans ?_
    unfold sources Bank.merge
    rw [List.flatMap_append]
    simp only [Bank.device, List.flatMap_cons, List.flatMap_nil, List.append_nil]
    exact flatMap_filter fun d hd => by cases d <;> simp_all [Bank.has]

theorem dissipated_mergeAll (Bs : List Bank) (F : String → ℝ) : ∀ ds,
    dissipated (mergeAll Bs ds) F = dissipated ds F := by
  induction Bs with
  | nil => intro ds; rfl
  | cons B Bs ih =>
    intro ds
    refine (ih (B.merge ds)).trans ?_
    unfold dissipated Bank.merge
    rw [List.map_append, List.sum_append]
    simp only [Bank.device, List.map_cons, List.map_nil, List.sum_cons, List.sum_nil, add_zero]
    induction ds with
    | nil => rfl
    | cons d ds ihd =>
      rw [List.filter_cons]
      split
      · rw [List.map_cons, List.map_cons, List.sum_cons, List.sum_cons, ihd]
      · rename_i hh
        rw [List.map_cons, List.sum_cons, ← ihd]
        cases d <;> simp_all [Bank.has]

theorem dissipated_share {Bs : List Bank} (hg : Good ds) (hB : InAll Bs ds) (F : String → ℝ) :
    dissipated ds (shareAll Bs F) = dissipated ds F := by
  unfold dissipated
  congr 1
  refine List.map_congr_left fun d hd => ?_
  cases d with
  | resistance b r =>
    simp only
    rw [(other_all hg hB hd trivial b (by simp [Device.branches]) F).1]
  | _ => rfl

/-- **C85**, energy. With a midpoint rule, the energy stored in all the components, including those that have
been merged, is the one at the beginning, less what the resistances dissipate and the sources receive. -/
theorem C85_energy {sy : Sympy} {V : Views} {I : Sym.Interp ℝ} {ps : List (System.Part ℝ)}
    {nodes : List String} {edges edges' : List (Edge ℝ)} {c c2 : Core ℝ} {fuel' fuel : ℕ} {s' : Shared}
    (hb : Built sy V I val rows ps nodes edges c fuel' edges' s' fuel c2) (h : NetOK val rows ds)
    (hs : Suits sy V I ds edges fuel') : ∃ Bs ec, InAll Bs ds ∧ Controls ds ec ∧
    ∀ (s : Circuit.Sympy) (_ : s.OK) (o : Config), 0 < o.fs → (o.kind = .theta → o.θ = 1 / 2) → 0 < o.epsdg →
    ∃ m, toMethod s o c2 = some m ∧
      ∀ (n : Num), n.m = m → n.p = [] → n.o = [] → n.obs = [] → n.eps = 0 → 1 ≤ n.maxit →
      ∀ (nt : ℕ) (U : ℕ → String → ℝ) (st : ℕ → St Nm ℝ),
        Run n nt ((List.range nt).map fun i => m.u.map (U i)) (List.replicate nt []) st →
        ∃ E F : ℕ → String → ℝ,
          (∀ i < nt, Step ds ec o.fs (1 / 2) (lift Bs (n.E (st (i + 1)))) (E i) (F i)) ∧
          (∀ i, 0 ≤ dissipated ds (F i)) ∧
          ∀ k N, k + N < nt →
            stored ds (fun i => lift Bs (n.E (st (k + N + 1))) ("x" ++ i)) =
              stored ds (fun i => lift Bs (n.E (st (k + 1))) ("x" ++ i)) -
              (∑ j ∈ Finset.range N, (dissipated ds (F (k + j)) + ((sources ds).map fun b =>
                U (k + j) ("u" ++ b.id) * outOf m ("y" ++ b.id) (n.E (st (k + j + 1)))).sum)) / o.fs := by
  obtain ⟨hg, Bs, hB, f⟩ := hb.facts h hs
  obtain ⟨ec, h1, h2⟩ := energy_facts f hb.analysed
  refine ⟨Bs, ctrl ds ec, hB, controls_all hg h1, fun s hs o hfs hθ ht => ?_⟩
  obtain ⟨m, k1, k2⟩ := h2 s hs o hfs hθ ht
  refine ⟨m, k1, fun n a1 a2 a3 a4 a5 a6 nt U st hr => ?_⟩
  obtain ⟨E, F, q1, q2, q3⟩ := k2 n a1 a2 a3 a4 a5 a6 nt U st hr
  refine ⟨fun i => copyAll Bs (E i), fun i => shareAll Bs (F i), fun i hi => step_lift hg hB (q1 i hi),
    fun i => ?_, fun k N hk => ?_⟩
  · rw [dissipated_share hg hB]
    have := q2 i
    rwa [dissipated_mergeAll] at this
  · have := q3 k N hk
    simp only [stored_lift hg hB, dissipated_share hg hB]
    simpa only [dissipated_mergeAll, sources_mergeAll] using this

end Arc
end Pyphs
