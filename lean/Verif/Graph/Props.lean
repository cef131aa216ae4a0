/-
C39, C40 and C41: the realizability analysis.
-/
import Verif.Graph.Unlock
import Mathlib.Algebra.Field.Rat

namespace Pyphs
namespace Graph

variable {K : Type} [Inv K]

/-! ### C39 -/

/-- Sign of node `v` in the edge: `+1` at the tail, `-1` at the head, `0` elsewhere. -/
def sign (d : Edge K) (v : String) : ℤ :=
  (if v = d.tail then 1 else 0) - (if v = d.head then 1 else 0)

/-- The edge without the ratio of a connector. -/
def noAlpha (d : Edge K) : Edge K := { d with alpha := none }

/-- The state of the analysis of a graph is an ordered partition of its edges, with aligned data. -/
structure Partitioned (nodes : List String) (edges : List (Edge K)) (st : St K) : Prop where
  /-- positions: effort-controlled first, indeterminate next, flux-controlled last -/
  order : st.ec ++ st.ic ++ st.fc = List.range edges.length
  /-- the edges are those of the graph -/
  sameEdges : (st.edges.map noAlpha).Perm (edges.map noAlpha)
  /-- the nodes are those of the graph, the reference first -/
  sameNodes : st.nodes.Perm nodes
  ref : st.nodes[0]? = some datum
  /-- column `e` of the incidence matrix is that of edge `e` -/
  incidence : st.G = st.edges.map fun d => st.nodes.map (sign d)
  /-- the matrix of possible controls has a column for each edge -/
  columns : st.L.length = edges.length
  /-- an edge can impose a node only if it touches it -/
  touches : ∀ e n, (st.L.getD e []).getD n 0 ≠ 0 → (st.G.getD e []).getD n 0 ≠ 0

omit [Inv K] in
theorem incidence_sign (nodes : List String) (d : Edge K) :
    Graph.incidence nodes d = nodes.map (sign d) := by
  unfold Graph.incidence sign
  apply List.map_congr_left
  intro v _
  by_cases h : d.tail = d.head
  · simp [h]
  · by_cases h1 : v = d.tail
    · subst h1; simp [h]
    · simp [h, h1]; split <;> rfl

theorem noAlpha_ecEdge (d : Edge K) : noAlpha (ecEdge d) = noAlpha d := by
  unfold ecEdge; split <;> rfl

theorem partitioned_of {nodes : List String} {edges : List (Edge K)} {free : ℕ → Prop}
    {st : St K} {s : Seg K} (hd : datum ∈ nodes) (h : RepS (refFirst nodes) st s)
    (hi : Invar (refFirst nodes) edges free s) : Partitioned nodes edges st := by
  obtain ⟨A0, hA, hperm⟩ := hi.edgesOf
  have hlen : s.A.length + s.B.length + s.C.length = edges.length := by
    have h1 := hperm.length_eq
    have h2 := congrArg List.length hA
    simp at h1 h2
    omega
  have hG : st.G = st.edges.map fun d => st.nodes.map (sign d) := by
    rw [h.1.G, h.1.edges, h.2.2, List.map_map]
    apply List.map_congr_left
    intro c hc
    rw [hi.aligned c hc, incidence_sign]; rfl
  refine ⟨?_, ?_, ?_, ?_, hG, ?_, ?_⟩
  · rw [h.1.ec, h.1.ic, h.1.fc, ← hlen, List.range_eq_range', List.range_eq_range']
    have e1 : List.range' 0 s.A.length ++ List.range' s.A.length s.B.length =
        List.range' 0 (s.A.length + s.B.length) := by
      have := List.range'_append (s := 0) (m := s.A.length) (n := s.B.length) (step := 1)
      simpa using this
    have e2 := List.range'_append (s := 0) (m := s.A.length + s.B.length) (n := s.C.length) (step := 1)
    rw [e1]
    simpa using e2
  · rw [h.1.edges, List.append_assoc, List.map_append, hA, List.map_append, List.map_map]
    have e1 : A0.map (noAlpha ∘ ecEdge) = A0.map noAlpha :=
      List.map_congr_left fun d _ => noAlpha_ecEdge d
    rw [e1, ← List.map_append]
    exact hperm.map _
  · rw [h.2.2, refFirst]
    exact (List.perm_cons_erase hd).symm
  · rw [h.2.2]; rfl
  · rw [h.1.L, ← hlen]; simp; omega
  · intro e n hne
    by_cases he : e < s.all.length
    · have hc : (s.A ++ s.B ++ s.C)[e]? = some s.all[e] := List.getElem?_eq_getElem he
      have hm : s.all[e] ∈ s.all := List.getElem_mem he
      rw [h.1.getD hc] at hne
      have h1 : s.all[e].at n = 1 := by
        have := hi.good.bin _ hm n
        have : s.all[e].at n ≠ 0 := hne
        omega
      have := hi.good.inc _ hm n h1
      have e1 : st.G.getD e [] = s.all[e].g := by
        rw [h.1.G, List.getD_eq_getElem?_getD, List.getElem?_map, hc]
        rfl
      rw [e1]
      exact this
    · exfalso
      apply hne
      have : (s.A ++ s.B ++ s.C)[e]? = none := List.getElem?_eq_none (by simpa [Seg.all] using he)
      have e1 : st.L.getD e [] = [] := by
        rw [h.1.L, List.getD_eq_getElem?_getD, List.getElem?_map, this]
        rfl
      rw [e1]
      rfl

/-- The operations by which the analysis changes its state. -/
inductive Call : St K → St K → Prop
  | ec {st st' e} : e ∈ st.ic → setEdge (st.edges.length + 1) true st e = .ok st' → Call st st'
  | fc {st st' e} : e ∈ st.ic → setEdge (st.edges.length + 1) false st e = .ok st' → Call st st'
  | node {st st' n} : stepNode st n = .ok st' → Call st st'
  | flux {st st' e} : e ∈ st.fc → stepFc st e = .ok st' → Call st st'
  | unlock {st st'} : unlock st = .ok st' → Call st st'

theorem Call.rep {nodes : List String} {st st' : St K} {s : Seg K} (h : RepS nodes st s)
    (hn : s.labels.Nodup) (hc : Call st st') : ∃ t, ReachAny s t ∧ RepS nodes st' t := by
  have key : ∀ {Q : Seg K → Prop} {r : Except Err (St K)}, Out nodes s Q r → r = .ok st' →
      ∃ t, ReachAny s t ∧ RepS nodes st' t := by
    intro Q r ho hr
    subst hr
    obtain ⟨t, h1, h2, -⟩ := ho
    exact ⟨t, h1.any, h2⟩
  cases hc with
  | ec he hr => exact key (setEdge_out h hn he (by rw [length_eq h.1]; omega)) hr
  | fc he hr => exact key (setEdge_out h hn he (by rw [length_eq h.1]; omega)) hr
  | node hr => exact key (stepNode_out h hn) hr
  | flux he hr =>
    refine key (stepFc_out h ?_) hr
    rw [h.1.fc, List.mem_range'_1] at he
    simpa [Seg.all, Nat.add_assoc] using he
  | unlock hr =>
    have := unlock_out h
    rw [hr] at this
    obtain ⟨t, h1, h2⟩ := this
    exact ⟨t, .single (.unlock h1), h2⟩

theorem calls_rep {nodes : List String} {edges : List (Edge K)} {st0 st : St K}
    (hd : datum ∈ nodes) (hl : (edges.map (·.label)).Nodup)
    (h0 : start nodes edges = .ok st0) (h : Relation.ReflTransGen Call st0 st) :
    ∃ s, RepS (refFirst nodes) st s ∧ Invar (refFirst nodes) edges (Free nodes) s := by
  obtain ⟨st1, I, e1, hI, hr⟩ := start_rep nodes edges hd
  rw [h0] at e1
  cases e1
  induction h with
  | refl => exact ⟨_, hr, start_invar hl hI hd⟩
  | tail _ hc ih =>
    obtain ⟨s, h1, h2⟩ := ih
    obtain ⟨t, h3, h4⟩ := hc.rep h1 h2.labels
    exact ⟨t, h4, h2.reach h3⟩

/-- C39. For every graph with a reference and distinct labels, in every state reached from the
initial one by any sequence of the operations of the analysis (in any order, with any arguments
on which they do not raise), the edges are an ordered partition, the data are aligned and the
edges are those of the graph. -/
theorem C39_every_interleaving {nodes : List String} {edges : List (Edge K)} {st0 st : St K}
    (hd : datum ∈ nodes) (hl : (edges.map (·.label)).Nodup)
    (h0 : start nodes edges = .ok st0) (h : Relation.ReflTransGen Call st0 st) :
    Partitioned nodes edges st := by
  obtain ⟨s, h1, h2⟩ := calls_rep hd hl h0 h
  exact partitioned_of hd h1 h2

/-- C39. The construction of the analysis always succeeds for such a graph. -/
theorem C39_start {nodes : List String} (edges : List (Edge K)) (hd : datum ∈ nodes) :
    ∃ st, start nodes edges = .ok st ∧ st.ic = List.range edges.length ∧
      st.icn.Perm (List.range' 1 (nodes.length - 1)) := by
  obtain ⟨st, I, e1, hI, hr⟩ := start_rep nodes edges hd
  refine ⟨st, e1, ?_, ?_⟩
  · rw [hr.1.ic]; simp [List.range_eq_range']
  · rw [hr.2.1]; exact hI

/-- Undecided edges and nodes and entries of the matrix of possible controls. -/
def St.weight (st : St K) : ℕ := st.ic.length + st.icn.length + (st.L.map List.sum).sum

omit [Inv K] in
theorem RepS.weight {nodes : List String} {st : St K} {s : Seg K} (h : RepS nodes st s) :
    st.weight = s.weight := by
  unfold St.weight Seg.weight ones
  rw [h.todo, h.1.L, List.map_map]; rfl

/-- A number of turns after which nothing new happens. -/
def bound (nodes : List String) (edges : List (Edge K)) : ℕ :=
  match init (edges.length + 1) nodes edges with
  | .ok st => edges.length + 1 + st.weight + 3
  | .error _ => edges.length + 1

/-- Outcome of the analysis with enough turns. -/
theorem analyse_out {nodes : List String} {edges : List (Edge K)} (hd : datum ∈ nodes)
    (hl : (edges.map (·.label)).Nodup) : ∀ fuel, bound nodes edges ≤ fuel →
    (∃ st s, analyse fuel nodes edges = .ok st ∧ RepS (refFirst nodes) st s ∧
      Invar (refFirst nodes) edges (Free nodes) s ∧ s.todo = 0) ∨
    (∃ x, analyse fuel nodes edges = .error x ∧ x ≠ .fuel) ∨
    ∃ st s, RepS (refFirst nodes) st s ∧ Invar (refFirst nodes) edges (Free nodes) s ∧ Stuck st ∧
      (∃ st1 t, init (edges.length + 1) nodes edges = .ok st1 ∧ RepS (refFirst nodes) st1 t ∧
        ReachAny t s) ∧
      ∀ k, analyse k nodes edges = .error .fuel := by
  obtain ⟨st0, I, e0, hI, hr⟩ := start_rep nodes edges hd
  have hinv := start_invar (K := K) hl hI hd
  have hinit : ∀ k, init k nodes edges = initLoop k 0 st0 := by
    intro k
    unfold init
    rw [e0]; rfl
  have ho := initLoop_out (edges.length + 1) 0 st0 _ hr hinv (by simp)
  unfold bound
  rw [hinit]
  cases hres : initLoop (edges.length + 1) 0 st0 with
  | error x =>
    rw [hres] at ho
    have hx : x ≠ .fuel := by rcases ho with rfl | rfl | rfl <;> simp
    refine fun fuel hf => Or.inr (Or.inl ⟨x, ?_, hx⟩)
    simp only at hf
    obtain ⟨j, rfl⟩ := Nat.exists_eq_add_of_le hf
    unfold analyse
    rw [hinit]
    rcases initLoop_mono (edges.length + 1) j 0 st0 with e | e
    · rw [hres] at e; exact absurd (Except.error.inj e) hx
    · rw [e, hres]; rfl
  | ok st1 =>
    rw [hres] at ho
    obtain ⟨t, ht1, ht2, -⟩ := ho
    have hinv1 := hinv.reach ht1.any
    intro fuel hf
    simp only [ht2.weight] at hf
    have hstep : ∀ k, initLoop k 0 st0 = .error .fuel ∨ initLoop k 0 st0 = .ok st1 := by
      intro k
      rcases Nat.le_total k (edges.length + 1) with h | h
      · obtain ⟨j, hj⟩ := Nat.exists_eq_add_of_le h
        rcases initLoop_mono k j 0 st0 with e | e
        · exact Or.inl e
        · right; rw [← e, ← hj, hres]
      · obtain ⟨j, rfl⟩ := Nat.exists_eq_add_of_le h
        rcases initLoop_mono (edges.length + 1) j 0 st0 with e | e
        · rw [hres] at e; exact absurd e (by simp)
        · right; rw [e, hres]
    have hfuel : initLoop fuel 0 st0 = .ok st1 := by
      obtain ⟨j, rfl⟩ := Nat.exists_eq_add_of_le (show edges.length + 1 ≤ fuel by omega)
      rcases initLoop_mono (edges.length + 1) j 0 st0 with e | e
      · rw [hres] at e; exact absurd e (by simp)
      · rw [e, hres]
    have han : analyse fuel nodes edges = performLoop fuel st1 := by
      unfold analyse
      rw [hinit, hfuel]; rfl
    rw [han]
    rcases performLoop_out t.weight fuel st1 t le_rfl ht2 hinv1.labels (by omega) with
      ⟨st, u, h1, h2, h3, h4⟩ | h | ⟨st, u, h1, h2, h3, h4⟩
    · exact Or.inl ⟨st, u, h1, h3, hinv1.reach h2, h4⟩
    · exact Or.inr (Or.inl h)
    · refine Or.inr (Or.inr ⟨st, u, h2, hinv1.reach h1, h3, ⟨st1, t, ?_, ht2, h1⟩, ?_⟩)
      · rfl
      · intro k
        unfold analyse
        rw [hinit]
        rcases hstep k with e | e
        · rw [e]; rfl
        · rw [e]; exact h4 k

theorem analyse_mono {nodes : List String} {edges : List (Edge K)} (k j : ℕ) :
    analyse k nodes edges = .error .fuel ∨ analyse (k + j) nodes edges = analyse k nodes edges := by
  unfold analyse init
  cases start nodes edges with
  | error x => right; rfl
  | ok st0 =>
    simp only [bind, Except.bind]
    rcases initLoop_mono k j 0 st0 with e | e
    · left; rw [e]
    · rw [e]
      cases initLoop k 0 st0 with
      | error x => right; rfl
      | ok st1 => exact performLoop_mono k j st1

/-- The result of the analysis, in segments. -/
theorem analyse_rep {nodes : List String} {edges : List (Edge K)} {st : St K} {fuel : ℕ}
    (hd : datum ∈ nodes) (hl : (edges.map (·.label)).Nodup)
    (h : analyse fuel nodes edges = .ok st) :
    ∃ s, RepS (refFirst nodes) st s ∧ Invar (refFirst nodes) edges (Free nodes) s ∧ s.todo = 0 := by
  have hN := analyse_out hd hl
  have h' : analyse (fuel + bound nodes edges) nodes edges = .ok st := by
    rcases analyse_mono (nodes := nodes) (edges := edges) fuel (bound nodes edges) with e | e
    · rw [h] at e; exact absurd e (by simp)
    · rw [e, h]
  rcases hN (fuel + bound nodes edges) (by omega) with ⟨st', s, e, h1, h2, h3⟩ | ⟨x, e, -⟩ | ⟨_, _, _, _, _, _, e⟩
  · rw [h'] at e
    cases e
    exact ⟨s, h1, h2, h3⟩
  · rw [h'] at e; exact absurd e (by simp)
  · rw [e] at h; exact absurd h (by simp)

/-- C39. The same for the result of the analysis; nothing is indeterminate any more. -/
theorem C39_analysis {nodes : List String} {edges : List (Edge K)} {st : St K} {fuel : ℕ}
    (hd : datum ∈ nodes) (hl : (edges.map (·.label)).Nodup)
    (h : analyse fuel nodes edges = .ok st) :
    Partitioned nodes edges st ∧ st.ic = [] ∧ st.ec ++ st.fc = List.range edges.length := by
  obtain ⟨s, h1, h2, h3⟩ := analyse_rep hd hl h
  have hp := partitioned_of hd h1 h2
  have hic : st.ic = [] := by
    have := h1.todo
    rw [h3] at this
    exact List.length_eq_zero_iff.1 (by omega)
  refine ⟨hp, hic, ?_⟩
  have := hp.order
  rwa [hic, List.append_nil] at this

/-- A source, a resistor and a capacitor in series, the control of the resistor unknown. -/
def rcNodes : List String := ["A", "#", "B"]
def rcEdges : List (Edge ℚ) :=
  [⟨"A", "B", "R", .dissipative, .unknown, none, .gyrator, none, "w/R", "R*w"⟩,
   ⟨"#", "A", "u", .port, .e, none, .gyrator, none, "", ""⟩,
   ⟨"B", "#", "q", .storage, .f, none, .gyrator, none, "", ""⟩]

/-- The hypotheses of the theorems on a graph whose analysis succeeds. -/
example : datum ∈ rcNodes ∧ (rcEdges.map (·.label)).Nodup := by decide

/-- Summary of a successful analysis. -/
def summary : Except Err (St ℚ) → Option (List String × List ℕ × List ℕ)
  | .ok st => some (st.edges.map (·.label), st.ec, st.fc)
  | .error _ => none

example : summary (analyse 30 rcNodes rcEdges) = some (["u", "q", "R"], [0], [1, 2]) := by
  decide +kernel

/-! ### C40 -/

/-- C40. When the analysis succeeds, each node other than the reference (position `n > 0`) is
imposed by exactly one edge; this edge is flux-controlled, touches the node, and imposes no other
node. -/
theorem C40_one_edge_per_node {nodes : List String} {edges : List (Edge K)} {st : St K} {fuel : ℕ}
    (hd : datum ∈ nodes) (hl : (edges.map (·.label)).Nodup)
    (h : analyse fuel nodes edges = .ok st) {n : ℕ} (h0 : 0 < n) (hn : n < nodes.length) :
    ∃ e ∈ st.fc, (∀ m, (st.L.getD e []).getD m 0 = if m = n then 1 else 0) ∧
      (st.G.getD e []).getD n 0 ≠ 0 ∧
      ∀ e', e' ≠ e → (st.L.getD e' []).getD n 0 = 0 := by
  obtain ⟨s, h1, h2, h3⟩ := analyse_rep hd hl h
  have hp := partitioned_of hd h1 h2
  have hI : n ∉ s.I := by
    have : s.I.length = 0 := by unfold Seg.todo at h3; omega
    rw [List.length_eq_zero_iff.1 this]; simp
  obtain ⟨P, c, Q, e1, e2, e3⟩ := h2.good.det n ⟨h0, hn⟩ hI
  have hcol : (s.A ++ s.B ++ s.C)[s.A.length + s.B.length + P.length]? = some c := by
    have e4 : s.A ++ s.B ++ s.C = (s.A ++ s.B ++ P) ++ c :: Q := by rw [e1]; simp
    have e5 : s.A.length + s.B.length + P.length = (s.A ++ s.B ++ P).length := by simp [Nat.add_assoc]
    rw [e4, e5, List.getElem?_append_right (le_refl _)]; simp
  have hat := h1.1.getD hcol
  have hΛ : ∀ m, (st.L.getD (s.A.length + s.B.length + P.length) []).getD m 0 =
      if m = n then 1 else 0 := by
    intro m; rw [hat]; exact e2 m
  refine ⟨s.A.length + s.B.length + P.length, ?_, hΛ, ?_, ?_⟩
  · rw [h1.1.fc, List.mem_range'_1, e1]; simp
  · apply hp.touches
    rw [hΛ n]; simp
  · intro e' he'
    by_cases hlt : e' < s.all.length
    · have hc' : (s.A ++ s.B ++ s.C)[e']? = some s.all[e'] := List.getElem?_eq_getElem hlt
      rw [h1.1.getD hc']
      refine e3 s.all[e'] ?_
      simp only [Seg.all, e1] at hlt ⊢
      have : s.A ++ s.B ++ (P ++ c :: Q) = (s.A ++ s.B ++ P) ++ c :: Q := by simp
      rcases Nat.lt_trichotomy e' (s.A ++ s.B ++ P).length with hk | hk | hk
      · simp only [this, List.getElem_append_left hk]
        exact List.mem_append_left _ (List.getElem_mem _)
      · exfalso; apply he'; rw [hk]; simp [Nat.add_assoc]
      · obtain ⟨j, hj⟩ : ∃ j, e' = (s.A ++ s.B ++ P).length + (j + 1) :=
          ⟨e' - (s.A ++ s.B ++ P).length - 1, by omega⟩
        subst hj
        simp only [this]
        rw [List.getElem_append_right (by omega)]
        simp only [Nat.add_sub_cancel_left, List.getElem_cons_succ]
        exact List.mem_append_right _ (List.getElem_mem _)
    · have : (s.A ++ s.B ++ s.C)[e']? = none := List.getElem?_eq_none (by simpa [Seg.all] using hlt)
      have e4 : st.L.getD e' [] = [] := by
        rw [h1.1.L, List.getD_eq_getElem?_getD, List.getElem?_map, this]
        rfl
      rw [e4]; rfl

/-- C40. Hence the nodes other than the reference are matched with distinct flux-controlled edges
that touch them; if there are as many flux-controlled edges as such nodes (otherwise the matrix of
the flux-controlled edges is not square and the analysis raises), every flux-controlled edge
imposes exactly one node. -/
theorem C40_matching {nodes : List String} {edges : List (Edge K)} {st : St K} {fuel : ℕ}
    (hd : datum ∈ nodes) (hl : (edges.map (·.label)).Nodup)
    (h : analyse fuel nodes edges = .ok st) :
    ∃ φ : ℕ → ℕ, (∀ n, 0 < n → n < nodes.length → φ n ∈ st.fc ∧
        ∃ d v, st.edges[φ n]? = some d ∧ st.nodes[n]? = some v ∧ (v = d.tail ∨ v = d.head)) ∧
      (∀ n m, 0 < n → n < nodes.length → 0 < m → m < nodes.length → φ n = φ m → n = m) ∧
      (st.fc.length = nodes.length - 1 → ∀ e ∈ st.fc, ∃ n, 0 < n ∧ n < nodes.length ∧ φ n = e) := by
  have hone := fun n (h0 : 0 < n) (hn : n < nodes.length) => C40_one_edge_per_node hd hl h h0 hn
  have hp := (C39_analysis hd hl h).1
  have hlen : st.nodes.length = nodes.length := hp.sameNodes.length_eq
  choose! φ hφ hone' hg hother using hone
  refine ⟨φ, ?_, ?_, ?_⟩
  · intro n h0 hn
    refine ⟨hφ n h0 hn, ?_⟩
    have hne := hg n h0 hn
    rw [hp.incidence] at hne
    have hlt : n < st.nodes.length := by omega
    cases hd' : st.edges[φ n]? with
    | none =>
      exfalso; apply hne
      have : (st.edges.map fun d => st.nodes.map (sign d)).getD (φ n) [] = [] := by
        rw [List.getD_eq_getElem?_getD, List.getElem?_map, hd']; rfl
      rw [this]; rfl
    | some d =>
      refine ⟨d, st.nodes[n], rfl, List.getElem?_eq_getElem hlt, ?_⟩
      have e1 : (st.edges.map fun d => st.nodes.map (sign d)).getD (φ n) [] =
          st.nodes.map (sign d) := by
        rw [List.getD_eq_getElem?_getD, List.getElem?_map, hd']; rfl
      rw [e1, List.getD_eq_getElem?_getD, List.getElem?_map, List.getElem?_eq_getElem hlt] at hne
      simp only [Option.map_some, Option.getD_some, sign] at hne
      by_contra hcon
      rw [not_or] at hcon
      simp [hcon.1, hcon.2] at hne
  · intro n m h0 hn h0' hm he
    have h1 := hone' n h0 hn m
    have h2 := hone' m h0' hm m
    rw [he, h2] at h1
    by_contra hnm
    simp [Ne.symm hnm] at h1
  · intro hcard e he
    -- an injection between sets of the same size
    have hsub : (List.range' 1 (nodes.length - 1)).map φ ⊆ st.fc := by
      intro x hx
      obtain ⟨n, hn, rfl⟩ := List.mem_map.1 hx
      rw [List.mem_range'_1] at hn
      exact hφ n (by omega) (by omega)
    have hnd : ((List.range' 1 (nodes.length - 1)).map φ).Nodup := by
      refine List.Nodup.map_on ?_ List.nodup_range'
      intro n hn m hm hnm
      rw [List.mem_range'_1] at hn hm
      have h1 := hone' n (by omega) (by omega) m
      have h2 := hone' m (by omega) (by omega) m
      rw [hnm, h2] at h1
      by_contra hne
      simp [Ne.symm hne] at h1
    have hperm := (List.subperm_of_subset hnd hsub).perm_of_length_le (by simp [hcard])
    have := hperm.symm.subset he
    obtain ⟨n, hn, rfl⟩ := List.mem_map.1 this
    rw [List.mem_range'_1] at hn
    exact ⟨n, by omega, by omega, rfl⟩

/-! ### C41 -/

/-- C41. The construction of the analysis ends within as many turns as there are edges. -/
theorem C41_init_ends {nodes : List String} {edges : List (Edge K)} (hd : datum ∈ nodes)
    (hl : (edges.map (·.label)).Nodup) :
    init (edges.length + 1) nodes edges ≠ .error .fuel := by
  obtain ⟨st0, I, e0, hI, hr⟩ := start_rep nodes edges hd
  have ho := initLoop_out (edges.length + 1) 0 st0 _ hr (start_invar (K := K) hl hI hd) (by simp)
  unfold init
  rw [e0]
  show initLoop (edges.length + 1) 0 st0 ≠ .error .fuel
  intro h
  rw [h] at ho
  rcases ho with h | h | h <;> exact absurd h (by simp)

/-- C41. From every state reached by the operations of the analysis, `iteration` ends. -/
theorem C41_iteration_ends {nodes : List String} {edges : List (Edge K)} {st0 st : St K}
    (hd : datum ∈ nodes) (hl : (edges.map (·.label)).Nodup)
    (h0 : start nodes edges = .ok st0) (h : Relation.ReflTransGen Call st0 st) :
    iteration (st.ic.length + st.icn.length + 2) st ≠ .error .fuel := by
  obtain ⟨s, h1, h2⟩ := calls_rep hd hl h0 h
  have ho := iteration_out (k := st.ic.length + st.icn.length + 2) h1 h2.labels
    (by rw [h1.todo])
  intro e
  rw [e] at ho
  rcases ho with h | h | h <;> exact absurd h (by simp)

/-- C41. The analysis ends within an explicit number of turns, or never. It never ends only if it
reaches a state in which something is undecided, the iteration changes nothing and `unlock`
changes nothing. -/
theorem C41_ends_or_stuck {nodes : List String} {edges : List (Edge K)} (hd : datum ∈ nodes)
    (hl : (edges.map (·.label)).Nodup) :
    analyse (bound nodes edges) nodes edges ≠ .error .fuel ∨
      ((∃ st : St K, Partitioned nodes edges st ∧ Stuck st) ∧
        ∀ k, analyse k nodes edges = .error .fuel) := by
  rcases analyse_out hd hl _ le_rfl with ⟨st, s, e, -⟩ | ⟨x, e, hx⟩ | ⟨st, s, h1, h2, h3, -, h4⟩
  · left; rw [e]; simp
  · left; rw [e]; intro h; exact hx (Except.error.inj h)
  · exact Or.inr ⟨⟨st, partitioned_of hd h1 h2, h3⟩, h4⟩

/-- The first loop leaves no indeterminate edge if all controls are given. -/
theorem initLoop_given {nodes : List String} {nodes0 : List String} {edges : List (Edge K)}
    {free : ℕ → Prop} (hc : ∀ d ∈ edges, d.ctrl ≠ .unknown) : ∀ (k : ℕ) (st st' : St K) (s : Seg K),
    RepS nodes st s → Invar nodes0 edges free s → initLoop k 0 st = .ok st' → st'.ic = [] := by
  intro k
  induction k with
  | zero => intro st st' s h hn hr; simp [initLoop] at hr
  | succ k ih =>
    intro st st' s h hn hr
    unfold initLoop at hr
    cases hi : st.ic[0]? with
    | none =>
      rw [hi] at hr
      simp only [Except.ok.injEq] at hr
      subst hr
      exact List.eq_nil_of_length_eq_zero (by simpa using hi)
    | some e =>
      obtain ⟨hlt, he⟩ := List.getElem?_eq_some_iff.1 hi
      have hmem : e ∈ st.ic := he ▸ List.getElem_mem hlt
      have hrange : s.A.length ≤ e ∧ e < s.A.length + s.B.length := by
        rw [h.1.ic, List.mem_range'_1] at hmem; exact hmem
      have hall : e < s.all.length := by simp [Seg.all]; omega
      have hedge : st.edges[e]? = some s.all[e].edge := by
        rw [h.1.edges, List.getElem?_map]
        have : (s.A ++ s.B ++ s.C)[e]? = some s.all[e] := List.getElem?_eq_getElem hall
        rw [this]; rfl
      have hB : s.all[e] ∈ s.B := by
        simp only [Seg.all, List.append_assoc]
        rw [List.getElem_append_right hrange.1, List.getElem_append_left (by omega)]
        exact List.getElem_mem _
      have hcol := h.col hall
      rw [hi] at hr
      simp only [hedge] at hr
      have cont : ∀ {Q : Seg K → Prop} {r : Except Err (St K)}, Out nodes s Q r →
          (r >>= fun st => initLoop k 0 st) = .ok st' → st'.ic = [] := by
        intro Q r ho hr
        cases r with
        | error x => exact absurd hr (by simp [bind, Except.bind])
        | ok st1 =>
          obtain ⟨t, h1, h2, -⟩ := ho
          exact ih st1 st' t h2 (hn.reach h1.any) hr
      split at hr
      · exact cont (setEdge_out h hn.labels hmem (by rw [length_eq h.1]; omega)) hr
      · unfold colSum at hr
        rw [hcol] at hr
        split at hr
        · rename_i h1
          have hm := one_mem_of_sum _ h1
          have hg := getD_idxOf hm
          have hI : s.all[e].l.idxOf 1 ∈ s.I := hn.good.indet hB hg
          simp only [h.2.1, hI, if_true] at hr
          exact cont (setNodeDc_ic h hn.labels hI (List.getElem?_eq_getElem hall) hrange.1 (by omega)
            hg) hr
        · exact cont (setEdge_out h hn.labels hmem (by rw [length_eq h.1]; omega)) hr
      · rename_i hu
        exfalso
        obtain ⟨A0, -, hperm⟩ := hn.edgesOf
        refine hc s.all[e].edge (hperm.subset ?_) hu
        simp only [List.map_append, List.mem_append]
        exact Or.inr (Or.inl (List.mem_map_of_mem hB))

theorem Any.B_le {s t : Seg K} (h : Any s t) : t.B.length ≤ s.B.length := by
  rcases h with h | h
  · cases h <;> simp
  · cases h <;> simp

theorem ReachAny.B_le {s t : Seg K} (h : ReachAny s t) : t.B.length ≤ s.B.length := by
  induction h with
  | refl => exact le_rfl
  | tail _ h ih => exact h.B_le.trans ih

/-- `unlock` raises if there is no indeterminate edge. -/
theorem unlock_nil {st : St K} (h : st.ic = []) : unlock st = .error .index := by
  have h1 : ∀ ns, unlockIc.go st st.ec.length ns = .ok none := by
    intro ns
    induction ns with
    | nil => rfl
    | cons n ns ih => unfold unlockIc.go; simp [h, ih]
  unfold unlock unlockIc unlockFc
  simp only [h1, h]
  rfl

/-- C41. The analysis ends for every graph in which the control of each edge is given. -/
theorem C41_ends_if_controls_given {nodes : List String} {edges : List (Edge K)} (hd : datum ∈ nodes)
    (hl : (edges.map (·.label)).Nodup) (hc : ∀ d ∈ edges, d.ctrl ≠ .unknown) :
    analyse (bound nodes edges) nodes edges ≠ .error .fuel := by
  rcases analyse_out hd hl _ le_rfl with ⟨st, s, e, -⟩ | ⟨x, e, hx⟩ |
    ⟨st, s, h1, h2, h3, ⟨st1, t, h4, h5, h6⟩, -⟩
  · rw [e]; simp
  · rw [e]; intro h; exact hx (Except.error.inj h)
  · exfalso
    obtain ⟨st0, I, e0, hI, hr⟩ := start_rep nodes edges hd
    unfold init at h4
    rw [e0] at h4
    have hic := initLoop_given hc _ st0 st1 _ hr (start_invar (K := K) hl hI hd) h4
    have hB : t.B.length = 0 := by
      have := congrArg List.length hic
      rw [h5.1.ic] at this
      simpa using this
    have hB' := h6.B_le
    have hst : st.ic = [] := by
      rw [h1.1.ic]
      have : s.B.length = 0 := by omega
      rw [this]; rfl
    have := h3.2.2
    rw [unlock_nil hst] at this
    exact absurd this (by simp)

/-- A dissipative edge with indeterminate control. -/
def resistor (a b label : String) : Edge ℚ :=
  ⟨a, b, label, .dissipative, .unknown, none, .gyrator, none, "", ""⟩

/-- Four resistors in a ring, one node of which is the reference; the order of nodes and edges is
that of networkx when the edges are added in this order. -/
def ringNodes : List String := ["A", "C", "#", "B"]
def ringEdges : List (Edge ℚ) :=
  [resistor "A" "C" "R1", resistor "A" "#" "R2", resistor "C" "B" "R3", resistor "#" "B" "R4"]

/-- The result is that of a loop that has not ended. -/
def outOfFuel {α : Type} : Except Err α → Bool
  | .error .fuel => true
  | _ => false

theorem eq_of_outOfFuel {α : Type} {r : Except Err α} (h : outOfFuel r = true) :
    r = .error .fuel := by
  unfold outOfFuel at h
  split at h
  · rfl
  · simp at h

/-- C41. The claim fails for the code: on a ring of four resistors the analysis never ends. -/
theorem C41_ring_never_ends : ∀ k, analyse k ringNodes ringEdges = .error .fuel := by
  have h : analyse (bound ringNodes ringEdges) ringNodes ringEdges = .error .fuel :=
    eq_of_outOfFuel (by decide +kernel)
  rcases C41_ends_or_stuck (nodes := ringNodes) (edges := ringEdges) (by decide) (by decide) with h' | h'
  · exact absurd h h'
  · exact h'.2

end Graph
end Pyphs
