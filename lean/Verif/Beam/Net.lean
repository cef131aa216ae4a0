/-
A list of components inside a graph: hypotheses and consequences of the analysis.
-/
import Verif.Beam.Model
import Verif.Frac.Core

namespace Pyphs
namespace Beam
open Graph Finset Frac

variable {K : Type} [Field K]

/-- The components are in the graph with other edges, which do not touch the inner nodes. -/
structure Inside (nodes : List String) (edges : List (Edge K)) (c : Core K) (ps : List (Frac.Part K))
    (int : List String) : Prop where
  rest : ∃ rest, edges.Perm (edgesOf ps ++ rest) ∧
    ∀ v ∈ int, ∀ d ∈ rest, d.tail ≠ v ∧ d.head ≠ v
  known : ∀ v ∈ int, v ∈ nodes ∧ v ≠ datum
  conns : ∀ label a1 a2 b1 b2 alpha, Frac.Part.trans label a1 a2 b1 b2 alpha ∈ ps →
    ∃ i k, IsConnector edges c (edgeA label a1 a2 alpha) (edgeB label b1 b2) alpha i k

variable {nodes : List String} {edges : List (Edge K)} {c c' : Core K} {ps : List (Frac.Part K)}
  {int : List String} {law : String → Env K → K} {fuel : ℕ} {st : St K}

theorem mem_edges {p : Frac.Part K} (hp : p ∈ ps) {d : Edge K} (hd : d ∈ p.edges) : d ∈ edgesOf ps :=
  List.mem_flatMap.2 ⟨p, hp, hd⟩

theorem Inside.mem (h : Inside nodes edges c ps int) {d : Edge K} (hd : d ∈ edgesOf ps) :
    d ∈ edges := by
  obtain ⟨rest, hp, -⟩ := h.rest
  exact hp.mem_iff.2 (List.mem_append_left _ hd)

/-- No flow accumulates at an inner node. -/
theorem Inside.balance (h : Inside nodes edges c ps int) {F : String → K}
    (hf : FlowBalance nodes edges F) {v : String} (hv : v ∈ int) :
    leaving (edgesOf ps) F v = 0 := by
  obtain ⟨rest, hp, hr⟩ := h.rest
  have h1 := hf v (h.known v hv).1 (h.known v hv).2
  have h2 : leaving (edgesOf ps ++ rest) F v = 0 := by
    rw [← h1]
    exact ((hp.map fun d => (sign d v : K) * F d.label).sum_eq).symm
  rw [leaving_append, leaving_zero (hr v hv), add_zero] at h2
  exact h2

theorem Inside.pot_diss (h : Inside nodes edges c ps int) {E p : String → K}
    (hpot : Potential edges E p) {l a b : String} {k : K} {i : Bool}
    (hm : Frac.Part.diss l a b k i ∈ ps) : E ("w" ++ l) = p a - p b :=
  hpot _ (h.mem (mem_edges hm (d := edgeD l a b) (List.mem_singleton_self _)))

theorem Inside.pot_stor (h : Inside nodes edges c ps int) {E p : String → K}
    (hpot : Potential edges E p) {l a b : String} {k : K} {i : Ctrl}
    (hm : Frac.Part.stor l a b k i ∈ ps) : E ("x" ++ l) = p a - p b :=
  hpot _ (h.mem (mem_edges hm (d := edgeS l a b i) (List.mem_singleton_self _)))

theorem Inside.pot_transA (h : Inside nodes edges c ps int) {E p : String → K}
    (hpot : Potential edges E p) {l a1 a2 b1 b2 : String} {k : K}
    (hm : Frac.Part.trans l a1 a2 b1 b2 k ∈ ps) : E ("y" ++ l ++ "1") = p a1 - p a2 :=
  hpot _ (h.mem (mem_edges hm (d := edgeA l a1 a2 k) List.mem_cons_self))

theorem Inside.pot_transB (h : Inside nodes edges c ps int) {E p : String → K}
    (hpot : Potential edges E p) {l a1 a2 b1 b2 : String} {k : K}
    (hm : Frac.Part.trans l a1 a2 b1 b2 k ∈ ps) : E ("y" ++ l ++ "2") = p b1 - p b2 :=
  hpot _ (h.mem (mem_edges hm (d := edgeB l b1 b2) (List.mem_cons_of_mem _ List.mem_cons_self)))

variable [DecidableEq K]

/-- Two edges from the reference to a node are not both flux-controlled. -/
theorem not_both_in (h : Assembled law nodes edges fuel st c c') {v : String} {d1 d2 : Edge K}
    (h1 : d1 ∈ edges) (h2 : d2 ∈ edges) (hne : d1.label ≠ d2.label)
    (t1 : d1.head = v) (t2 : d2.head = v) (g1 : d1.tail = Graph.datum) (g2 : d2.tail = Graph.datum)
    (f1 : d1.label ∈ st.fc.map (lab st)) : d2.label ∉ st.fc.map (lab st) := by
  intro f2
  obtain ⟨hp, hic, hord⟩ := C39_analysis h.datum h.labels h.analysed
  obtain ⟨J, hJ, -⟩ := buildCore_some h.built
  obtain ⟨iG, hinv, hr, hc, -⟩ := structureMatrix_some hp hic hJ
  have hcard : st.fc.length = nodes.length - 1 := by
    rw [← hc, ← hinv.1, hr, hp.sameNodes.length_eq]
  obtain ⟨φ, m1, m2, m3⟩ := C40_matching h.datum h.labels h.analysed
  have hnn : st.nodes.Nodup := hp.sameNodes.nodup_iff.2 h.nodup
  have key : ∀ d ∈ edges, d.head = v → d.tail = Graph.datum → d.label ∈ st.fc.map (lab st) →
      ∃ n, 0 < n ∧ n < nodes.length ∧ st.nodes[n]? = some v ∧ lab st (φ n) = d.label := by
    intro d hd ht hh hf
    obtain ⟨e, he, hel⟩ := List.mem_map.1 hf
    obtain ⟨n, n0, n1, rfl⟩ := m3 hcard e he
    refine ⟨n, n0, n1, ?_, hel⟩
    obtain ⟨-, x, w, hx, hw, hxw⟩ := m1 n n0 n1
    have hxd := h.edge_of_label hd hx hel
    have e1 : x.tail = d.tail := (congrArg Edge.tail hxd :)
    have e2 : x.head = d.head := (congrArg Edge.head hxd :)
    rw [e1, e2, ht, hh] at hxw
    rcases hxw with rfl | rfl
    · exfalso
      have := (List.getElem?_inj (by rw [hp.sameNodes.length_eq]; exact n1) hnn).1 (hw.trans hp.ref.symm)
      omega
    · exact hw
  obtain ⟨n, n0, n1, nv, nl⟩ := key d1 h1 t1 g1 f1
  obtain ⟨m, m0, mm, mv, ml⟩ := key d2 h2 t2 g2 f2
  have : n = m := (List.getElem?_inj (by rw [hp.sameNodes.length_eq]; exact n1) hnn).1 (nv.trans mv.symm)
  exact hne (nl ▸ ml ▸ congrArg _ (congrArg φ this))

end Beam
end Pyphs
