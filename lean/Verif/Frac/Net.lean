/-
A component of fraccalc inside a graph: hypotheses and consequences of the analysis.
-/
import Verif.Frac.Lemmas

namespace Pyphs
namespace Frac
open Graph Finset
open Core (ConnRel)

variable {K : Type} [Field K] [DecidableEq K]

/-- A graph that `to_core` turns into a core. -/
structure Assembled (law : String → Env K → K) (nodes : List String) (edges : List (Edge K))
    (fuel : ℕ) (st : St K) (c c' : Core K) : Prop where
  datum : datum ∈ nodes
  nodup : nodes.Nodup
  ends : ∀ d ∈ edges, d.tail ∈ nodes ∧ d.head ∈ nodes
  labels : (edges.map (·.label)).Nodup
  links : LinksUnique edges
  free : ∀ d ∈ edges, d.type = .connector → d.ctrl = .unknown
  analysed : analyse fuel nodes edges = .ok st
  built : buildCore law st c = some c'

/-- The constitutive law of a component with variable `X` and derivative `dX`
(`z` and `H` of edges/dissipatives.py and edges/storages.py). The law of a transformer is that of
the connector of the core. -/
def Part.Law (E F X dX : String → K) : Part K → Prop
  | .diss label _ _ coeff inv =>
    if inv then F ("w" ++ label) = coeff * E ("w" ++ label)
    else E ("w" ++ label) = coeff * F ("w" ++ label)
  | .stor label _ _ value ctrl =>
    if ctrl = .f then
      dX ("x" ++ label) = F ("x" ++ label) ∧ E ("x" ++ label) = value * X ("x" ++ label)
    else dX ("x" ++ label) = E ("x" ++ label) ∧ F ("x" ++ label) = value * X ("x" ++ label)
  | .trans .. => True

/-- The parts are in the graph with other edges, which do not touch the internal nodes. -/
structure Placed (nodes : List String) (edges : List (Edge K)) (c : Core K) (ps : List (Part K))
    (N1 N2 : String) (int : List String) : Prop where
  rest : ∃ rest, edges.Perm (edgesOf ps ++ rest) ∧
    ∀ v ∈ int, ∀ d ∈ rest, d.tail ≠ v ∧ d.head ≠ v
  known : ∀ v ∈ int, v ∈ nodes
  priv : ∀ v ∈ int, v ≠ datum ∧ v ≠ N1 ∧ v ≠ N2
  terminals : N1 ≠ N2
  conns : ∀ label a1 a2 b1 b2 alpha, Part.trans label a1 a2 b1 b2 alpha ∈ ps →
    ∃ i k, IsConnector edges c (edgeA label a1 a2 alpha) (edgeB label b1 b2) alpha i k

/-- Values of all variables that satisfy the equations of the core and the laws of the parts. -/
structure Solution (st : St K) (c' : Core K) (ps : List (Part K)) (E F X dX : String → K) : Prop where
  core : ∃ β α : Env K, Sides st E F β α ∧ Core.StructEq c'.labels c'.M β α ∧
    ∀ k ∈ c'.connectors, ConnRel k β α
  laws : ∀ p ∈ ps, p.Law E F X dX

/-- `p` is a potential of the efforts `E`. -/
def Potential (edges : List (Edge K)) (E : String → K) (p : String → K) : Prop :=
  ∀ d ∈ edges, E d.label = p d.tail - p d.head

variable {law : String → Env K → K} {nodes : List String} {edges : List (Edge K)} {fuel : ℕ}
  {st : St K} {c c' : Core K}

theorem Assembled.kirchhoff (h : Assembled law nodes edges fuel st c c') {ps : List (Part K)}
    {E F X dX : String → K} (hs : Solution st c' ps E F X dX) :
    FlowBalance nodes edges F ∧ FromPotentials edges E := by
  obtain ⟨β, α, h1, h2, -⟩ := hs.core
  exact (C42_kirchhoff h.datum h.nodup h.ends h.labels h.analysed h.built E F β α h1.ec h1.fc).1 h2

/-- The position of an edge after the analysis. -/
theorem Assembled.pos (h : Assembled law nodes edges fuel st c c') {d : Edge K} (hm : d ∈ edges) :
    ∃ i x, st.edges[i]? = some x ∧ noAlpha x = noAlpha d ∧ lab st i = d.label ∧
      (i ∈ st.ec ∨ i ∈ st.fc) := by
  obtain ⟨hp, hic, hord⟩ := C39_analysis h.datum h.labels h.analysed
  have : noAlpha d ∈ st.edges.map noAlpha := hp.sameEdges.mem_iff.2 (List.mem_map_of_mem hm)
  obtain ⟨x, hx, he⟩ := List.mem_map.1 this
  obtain ⟨i, hi, hix⟩ := List.getElem_of_mem hx
  have hlabel : x.label = d.label := (congrArg Edge.label he :)
  refine ⟨i, x, by rw [List.getElem?_eq_getElem hi, hix], he,
    by simp [lab, List.getElem?_eq_getElem hi, hix, hlabel], ?_⟩
  have : i ∈ st.ec ++ st.fc := by
    rw [hord, List.mem_range]
    have := hp.sameEdges.length_eq
    simp at this; omega
  exact List.mem_append.1 this

/-- An edge of the state with the label of an edge of the graph is this edge. -/
theorem Assembled.edge_of_label (h : Assembled law nodes edges fuel st c c') {d x : Edge K} {i : ℕ}
    (hm : d ∈ edges) (hx : st.edges[i]? = some x) (hl : lab st i = d.label) :
    noAlpha x = noAlpha d := by
  obtain ⟨hp, -, -⟩ := C39_analysis h.datum h.labels h.analysed
  obtain ⟨j, y, hj, hy, hjl, -⟩ := h.pos hm
  have e1 : x.label = d.label := by rw [← hl]; simp [lab, hx]
  have e2 : y.label = d.label := (congrArg Edge.label hy :)
  have hn := hp.nodup h.labels
  have := List.inj_on_of_nodup_map hn (List.mem_of_getElem? hx) (List.mem_of_getElem? hj)
    (e1.trans e2.symm)
  rw [this, hy]

theorem Assembled.disj (h : Assembled law nodes edges fuel st c c') {l : String}
    (h1 : l ∈ st.ec.map (lab st)) : l ∉ st.fc.map (lab st) := by
  obtain ⟨hp, hic, hord⟩ := C39_analysis h.datum h.labels h.analysed
  have hn := hp.nodup h.labels
  have hlen : st.edges.length = edges.length := by simpa using hp.sameEdges.length_eq
  have h2 : ((st.ec ++ st.fc).map (lab st)).Nodup := by
    refine lab_nodup hn (by rw [hord]; exact List.nodup_range) ?_
    intro x hx
    rw [hord, ← hlen] at hx
    exact List.mem_range.1 hx
  rw [List.map_append] at h2
  intro hm
  exact (List.nodup_append.1 h2).2.2 _ h1 _ hm rfl

theorem Assembled.split (h : Assembled law nodes edges fuel st c c') {d : Edge K} (hm : d ∈ edges) :
    d.label ∈ st.ec.map (lab st) ∨ d.label ∈ st.fc.map (lab st) := by
  obtain ⟨i, x, -, -, hl, hi | hi⟩ := h.pos hm
  · exact .inl (hl ▸ List.mem_map_of_mem hi)
  · exact .inr (hl ▸ List.mem_map_of_mem hi)

/-- The two sides of a transformer and its law. -/
theorem Assembled.trans (h : Assembled law nodes edges fuel st c c') {ps : List (Part K)}
    {E F X dX : String → K} (hs : Solution st c' ps E F X dX) {d1 d2 : Edge K} {a : K} {i : ℕ}
    {k : Conn K} (hk : IsConnector edges c d1 d2 a i k) (hg : d1.ctype = .transformer) (h0 : a ≠ 0) :
    (d1.label ∈ st.ec.map (lab st) ∧ d2.label ∈ st.fc.map (lab st) ∧
      TransformerLaw a (E d1.label) (F d1.label) (E d2.label) (F d2.label)) ∨
    (d1.label ∈ st.fc.map (lab st) ∧ d2.label ∈ st.ec.map (lab st) ∧
      TransformerLaw (-a⁻¹) (E d1.label) (F d1.label) (E d2.label) (F d2.label)) := by
  obtain ⟨β, α, hsd, -, hcr⟩ := hs.core
  obtain ⟨k', hk', -, hlaw⟩ := C51_transformer h.datum h.labels h.links h.analysed h.built hk hg h0
  have hrel := hcr k' (List.mem_of_getElem? hk')
  obtain ⟨i1, x1, e1, n1, l1, -⟩ := h.pos hk.mem1
  obtain ⟨i2, x2, e2, n2, l2, -⟩ := h.pos hk.mem2
  have hc := (C51_controls h.datum h.labels h.links h.analysed e1 e2
    ((congrArg Edge.type n1 :).trans hk.type1)
    ((congrArg Edge.link n2 :).trans (hk.link2.trans
      (congrArg some (congrArg Edge.label n1 :).symm)))).2 ((congrArg Edge.ctype n1 :).trans hg)
  have hc' : (d1.label ∈ st.ec.map (lab st) ∧ d2.label ∈ st.fc.map (lab st)) ∨
      (d1.label ∈ st.fc.map (lab st) ∧ d2.label ∈ st.ec.map (lab st)) := by
    rcases hc with ⟨a, b⟩ | ⟨a, b⟩
    · exact .inl ⟨l1 ▸ List.mem_map_of_mem a, l2 ▸ List.mem_map_of_mem b⟩
    · exact .inr ⟨l1 ▸ List.mem_map_of_mem a, l2 ▸ List.mem_map_of_mem b⟩
  rcases hlaw with ⟨hl, hm⟩ | ⟨hl, hm⟩
  · rcases hc' with ⟨a, b⟩ | ⟨a, b⟩
    · exact .inl ⟨a, b, (hl E F β α hsd).1 hrel⟩
    · exact absurd a (h.disj hm)
  · rcases hc' with ⟨a, b⟩ | ⟨a, b⟩
    · exact absurd hm (h.disj a)
    · exact .inr ⟨a, b, (hl E F β α hsd).1 hrel⟩

/-- Each node has a flux-controlled edge. -/
theorem Assembled.fc_at (h : Assembled law nodes edges fuel st c c') {v : String} (hv : v ∈ nodes)
    (hv0 : v ≠ Graph.datum) :
    ∃ d ∈ edges, d.label ∈ st.fc.map (lab st) ∧ (v = d.tail ∨ v = d.head) := by
  obtain ⟨hp, hic, hord⟩ := C39_analysis h.datum h.labels h.analysed
  obtain ⟨φ, h1, -, -⟩ := C40_matching h.datum h.labels h.analysed
  obtain ⟨n, hn, hnv⟩ := List.getElem_of_mem (hp.sameNodes.mem_iff.2 hv)
  have hpos : 0 < n := by
    rcases Nat.eq_zero_or_pos n with rfl | h
    · have := hp.ref
      rw [List.getElem?_eq_getElem hn, hnv] at this
      exact absurd (Option.some.inj this) hv0
    · exact h
  obtain ⟨hf, d, w, hd, hw, hdw⟩ := h1 n hpos (by rw [← hp.sameNodes.length_eq]; exact hn)
  have hwv : w = v := by
    rw [List.getElem?_eq_getElem hn, hnv] at hw
    exact (Option.some.inj hw).symm
  have : noAlpha d ∈ edges.map noAlpha :=
    hp.sameEdges.mem_iff.1 (List.mem_map_of_mem (List.mem_of_getElem? hd))
  obtain ⟨x, hx, hxd⟩ := List.mem_map.1 this
  refine ⟨x, hx, ?_, ?_⟩
  · have e : lab st (φ n) = x.label := by
      have : x.label = d.label := (congrArg Edge.label hxd :)
      simp [lab, hd, this]
    exact e ▸ List.mem_map_of_mem hf
  · have e1 : x.tail = d.tail := (congrArg Edge.tail hxd :)
    have e2 : x.head = d.head := (congrArg Edge.head hxd :)
    rw [e1, e2, ← hwv]; exact hdw

/-- Two edges between a node and the reference are not both flux-controlled. -/
theorem Assembled.not_both (h : Assembled law nodes edges fuel st c c') {v : String} {d1 d2 : Edge K}
    (h1 : d1 ∈ edges) (h2 : d2 ∈ edges) (hne : d1.label ≠ d2.label)
    (t1 : d1.tail = v) (t2 : d2.tail = v) (g1 : d1.head = Graph.datum) (g2 : d2.head = Graph.datum)
    (f1 : d1.label ∈ st.fc.map (lab st)) : d2.label ∉ st.fc.map (lab st) := by
  intro f2
  obtain ⟨hp, hic, hord⟩ := C39_analysis h.datum h.labels h.analysed
  obtain ⟨J, hJ, -⟩ := buildCore_some h.built
  obtain ⟨iG, hinv, hr, hc, -⟩ := structureMatrix_some hp hic hJ
  have hcard : st.fc.length = nodes.length - 1 := by
    rw [← hc, ← hinv.1, hr, hp.sameNodes.length_eq]
  obtain ⟨φ, m1, m2, m3⟩ := C40_matching h.datum h.labels h.analysed
  have hnn : st.nodes.Nodup := hp.sameNodes.nodup_iff.2 h.nodup
  have key : ∀ d ∈ edges, d.tail = v → d.head = Graph.datum → d.label ∈ st.fc.map (lab st) →
      ∃ n, 0 < n ∧ n < nodes.length ∧ st.nodes[n]? = some v ∧ lab st (φ n) = d.label := by
    intro d hd ht hh hf
    obtain ⟨e, he, hel⟩ := List.mem_map.1 hf
    obtain ⟨n, n0, n1, rfl⟩ := m3 hcard e he
    refine ⟨n, n0, n1, ?_, hel⟩
    obtain ⟨-, x, w, hx, hw, hxw⟩ := m1 n n0 n1
    have hxd := h.edge_of_label hd hx hel
    have e1 : x.tail = d.tail := (congrArg Edge.tail hxd :)
    have e2 : x.head = d.head := (congrArg Edge.head hxd :)
    rw [e1, e2, ht, hh] at hxw
    rcases hxw with rfl | rfl
    · exact hw
    · exfalso
      have := (List.getElem?_inj (by rw [hp.sameNodes.length_eq]; exact n1) hnn).1 (hw.trans hp.ref.symm)
      omega
  obtain ⟨n, n0, n1, nv, nl⟩ := key d1 h1 t1 g1 f1
  obtain ⟨m, m0, mm, mv, ml⟩ := key d2 h2 t2 g2 f2
  have : n = m := (List.getElem?_inj (by rw [hp.sameNodes.length_eq]; exact n1) hnn).1 (nv.trans mv.symm)
  exact hne (nl ▸ ml ▸ congrArg _ (congrArg φ this))

end Frac
end Pyphs
