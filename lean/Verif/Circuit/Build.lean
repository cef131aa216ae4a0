/-
From a graph to the connected core.
-/
import Verif.Circuit.Model
import Verif.Circuit.Spec

namespace Pyphs
namespace Circuit
open Core Graph

variable {K : Type} [Field K] [DecidableEq K]

/-- The edges of the analysis are those of the graph, up to the ratio of the connectors. -/
theorem mem_edges {nodes : List String} {edges : List (Edge K)} {st : St K}
    (hp : Partitioned nodes edges st) {k : ℕ} {d : Edge K} (h : st.edges[k]? = some d) :
    ∃ d' ∈ edges, d'.label = d.label ∧ d'.type = d.type ∧ d'.ze = d.ze ∧ d'.zf = d.zf := by
  have : noAlpha d ∈ edges.map noAlpha :=
    hp.sameEdges.mem_iff.1 (List.mem_map_of_mem (List.mem_of_getElem? h))
  obtain ⟨d', hd', e⟩ := List.mem_map.1 this
  have e1 := congrArg Edge.label e
  have e2 := congrArg Edge.type e
  have e3 := congrArg Edge.ze e
  have e4 := congrArg Edge.zf e
  exact ⟨d', hd', e1, e2, e3, e4⟩

theorem edges_mem {nodes : List String} {edges : List (Edge K)} {st : St K}
    (hp : Partitioned nodes edges st) {d : Edge K} (h : d ∈ edges) :
    ∃ (k : ℕ) (d' : Edge K), st.edges[k]? = some d' ∧ d'.label = d.label ∧ d'.type = d.type ∧ d'.ze = d.ze ∧
      d'.zf = d.zf := by
  have : noAlpha d ∈ st.edges.map noAlpha := hp.sameEdges.mem_iff.2 (List.mem_map_of_mem h)
  obtain ⟨d', hd', e⟩ := List.mem_map.1 this
  obtain ⟨k, hk, rfl⟩ := List.getElem_of_mem hd'
  have e1 := congrArg Edge.label e
  have e2 := congrArg Edge.type e
  have e3 := congrArg Edge.ze e
  have e4 := congrArg Edge.zf e
  exact ⟨k, _, List.getElem?_eq_getElem hk, e1, e2, e3, e4⟩

omit [Field K] [DecidableEq K] in
theorem label_inj {edges : List (Edge K)} (hl : (edges.map (·.label)).Nodup) {d d' : Edge K}
    (h : d ∈ edges) (h' : d' ∈ edges) (e : d.label = d'.label) : d = d' :=
  List.inj_on_of_nodup_map hl h h' e

theorem lab_eq {st : St K} {k : ℕ} {d : Edge K} (h : st.edges[k]? = some d) : lab st k = d.label := by
  simp [lab, h]

/-- The labels of the edges of a type are the same before and after the analysis. -/
theorem positions_labels {nodes : List String} {edges : List (Edge K)} {st : St K}
    (hp : Partitioned nodes edges st) (hl : (edges.map (·.label)).Nodup) (t : EType) :
    ((positions st t).map (lab st)).Perm ((ofType t edges).map (·.label)) := by
  refine (List.perm_ext_iff_of_nodup ?_ ?_).2 ?_
  · exact lab_nodup (hp.nodup hl) (List.nodup_range.filter _) fun _ => positions_lt
  · exact hl.sublist (List.filter_sublist.map _)
  · intro l
    simp only [List.mem_map, mem_positions, ofType, List.mem_filter, decide_eq_true_eq]
    constructor
    · rintro ⟨k, ⟨d, hd, rfl⟩, rfl⟩
      obtain ⟨d', h1, h2, h3, -⟩ := mem_edges hp hd
      exact ⟨d', ⟨h1, h3⟩, by rw [h2, lab_eq hd]⟩
    · rintro ⟨d, ⟨hd, rfl⟩, rfl⟩
      obtain ⟨k, d', h1, h2, h3, -⟩ := edges_mem hp hd
      exact ⟨k, ⟨d', h1, h3⟩, by rw [lab_eq h1, h2]⟩

/-- The control found by the analysis. -/
def EC (st : St K) (l : String) : Prop := l ∈ st.ec.map (lab st)

theorem ec_iff {nodes : List String} {edges : List (Edge K)} {st : St K}
    (hp : Partitioned nodes edges st) (hl : (edges.map (·.label)).Nodup) {e : ℕ}
    (he : e < st.edges.length) : EC st (lab st e) ↔ e ∈ st.ec := by
  have hlen : st.edges.length = edges.length := by simpa using hp.sameEdges.length_eq
  have hn := hp.nodup hl
  constructor
  · intro h
    obtain ⟨e', h1, h2⟩ := List.mem_map.1 h
    have h3 : e' < st.edges.length := by
      have : e' ∈ List.range edges.length := by
        rw [← hp.order]; simp [h1]
      rw [hlen]; exact List.mem_range.1 this
    have : e' = e := by
      unfold lab at h2
      rw [List.getElem?_eq_getElem h3, List.getElem?_eq_getElem he] at h2
      have := (List.nodup_iff_injective_get.1 hn) (a₁ := ⟨e', by simpa⟩) (a₂ := ⟨e, by simpa⟩)
        (by simpa using h2)
      simpa using this
    exact this ▸ h1
  · intro h; exact List.mem_map_of_mem h

theorem ec_or_fc {nodes : List String} {edges : List (Edge K)} {st : St K}
    (hp : Partitioned nodes edges st) (hic : st.ic = []) {e : ℕ}
    (he : e < st.edges.length) : e ∈ st.ec ∨ e ∈ st.fc := by
  have hlen : st.edges.length = edges.length := by simpa using hp.sameEdges.length_eq
  have h := hp.order
  rw [hic, List.append_nil] at h
  have : e ∈ st.ec ++ st.fc := by rw [h]; exact List.mem_range.2 (by omega)
  simpa using this

theorem zip_map {α : Type} {l : List String} {v : List α} (hlen : v.length = l.length)
    (f : String → α) (h : ∀ i (hi : i < l.length), v[i]? = some (f l[i])) :
    l.zip v = l.map fun s => (s, f s) := by
  apply List.ext_getElem
  · simp [hlen]
  · intro i h1 h2
    simp only [List.length_map] at h2
    have := h i h2
    rw [List.getElem?_eq_getElem (by omega)] at this
    simp [Option.some.inj this]

/-- The core built from a circuit, before the connection. -/
theorem build_spec {law : String → Env K → K} {nodes : List String} {edges : List (Edge K)}
    {st : St K} {fuel : ℕ} {c c' : Core K} (h : CircuitOK nodes edges c)
    (ha : analyse fuel nodes edges = .ok st) (hb : buildCore law st c = some c') :
    WF c' ∧ ConnOK c' := by
  obtain ⟨hp, hic, -⟩ := C39_analysis h.datum h.labels ha
  obtain ⟨hf, hperm, -⟩ := C43_order h.datum h.labels ha hb
  obtain ⟨hr, hs1, -⟩ := C42_skew h.datum h.labels ha hb
  obtain ⟨-, r2, r3, r4, -, -⟩ := hf.rest
  have htot : c'.tot = edges.length := by
    have := hperm.length_eq
    rw [List.length_map] at this
    rw [← this]; simp [tot, labels, Nat.add_assoc]
  have hnd : c'.labels.Nodup := hperm.nodup_iff.2 h.labels
  have hwf : WF c' :=
    { Mr := by rw [hr, htot]
      Mc := by rw [← hs1, hr, htot]
      uy := hf.lens.1
      cucy := hf.lens.2
      wz := hf.z.1.symm
      dxH := by rw [r2, h.dxH]; simp
      xl := by rw [r3, h.xl]; exact Nat.zero_le _
      wl := by rw [r4, h.wl]; exact Nat.zero_le _
      nodup := hnd }
  refine ⟨hwf, ?_⟩
  have hpairs : connPairs c'.connectors = connPairs c.connectors := by
    have hbare := (setAlphas_spec hf.conns).1
    have e : ∀ ks : List (Conn K), connPairs ks = connPairs (ks.map Conn.bare) := by
      intro ks; simp [connPairs, List.flatMap_map, Conn.bare]
    rw [e, hbare, ← e]
  unfold ConnOK
  rw [hpairs]
  refine h.conn.trans ?_
  have hcy : c'.cy.Perm c.cy := by
    rw [hf.cy]; exact (positions_labels hp h.labels _).trans h.cy.symm
  have hnc : c.cy.Nodup := by
    refine h.cy.nodup_iff.2 (h.labels.sublist (List.filter_sublist.map _))
  have f1 : c.cy.zip c.cu = c.cy.map fun s => (s, c.cu.getD (c.cy.idxOf s) "") := by
    refine zip_map h.cu _ fun i hi => ?_
    rw [hnc.idxOf_getElem i hi, List.getD_eq_getElem?_getD, List.getElem?_eq_getElem (by rw [h.cu]; exact hi)]
    rfl
  have f2 : c'.cy.zip c'.cu = c'.cy.map fun s => (s, c.cu.getD (c.cy.idxOf s) "") := by
    refine zip_map hf.lens.2 _ fun i hi => ?_
    have hi' : i < (positions st .connector).length := by
      have := congrArg List.length hf.cy; simp at this; omega
    have e1 := hf.cu i _ (List.getElem?_eq_getElem hi')
    have e2 : c'.cy[i] = lab st (positions st .connector)[i] := by
      simp [hf.cy]
    rw [e1, e2, List.getD_eq_getElem?_getD]
    have hm : lab st (positions st .connector)[i] ∈ c.cy := by
      rw [← e2]; exact hcy.mem_iff.1 (List.getElem_mem _)
    rw [List.getElem?_eq_getElem (by rw [h.cu]; exact List.idxOf_lt_length_iff.2 hm)]
    rfl
  rw [f1, f2]
  exact (hcy.map _).symm

theorem fc_not_ec {nodes : List String} {edges : List (Edge K)} {st : St K}
    (hp : Partitioned nodes edges st) (hl : (edges.map (·.label)).Nodup) {e : ℕ}
    (he : e ∈ st.fc) : ¬ EC st (lab st e) := by
  have hlen : st.edges.length = edges.length := by simpa using hp.sameEdges.length_eq
  have hlt : e < st.edges.length := by
    have : e ∈ List.range edges.length := by rw [← hp.order]; simp [he]
    rw [hlen]; exact List.mem_range.1 this
  rw [ec_iff hp hl hlt]
  intro h
  have hnd : (st.ec ++ st.ic ++ st.fc).Nodup := by rw [hp.order]; exact List.nodup_range
  rw [List.nodup_append] at hnd
  exact hnd.2.2 e (by simp [h]) e he rfl

/-- The two sides given by the efforts and the flows, for the controls found by the analysis. -/
theorem sides_of {nodes : List String} {edges : List (Edge K)} {st : St K}
    (hp : Partitioned nodes edges st) (hl : (edges.map (·.label)).Nodup) {E F : String → K}
    {β α : Env K} (h : ∀ l, Side (EC st l) (E l) (F l) (β l) (α l)) : Sides st E F β α where
  ec := fun e he => (h _).1 (List.mem_map_of_mem he)
  fc := fun e he => (h _).2 (fc_not_ec hp hl he)

/-- The connector of the two edges of a gyrator or transformer. -/
theorem conn_of {nodes : List String} {edges : List (Edge K)} {c : Core K}
    (h : CircuitOK nodes edges c) {d1 d2 : Edge K} {a : K} (h1 : d1 ∈ edges) (h2 : d2 ∈ edges)
    (ht : d1.type = .connector) (ha : d1.alpha = some a) (hl : d1.link = some d2.label) :
    a ≠ 0 ∧ ∃ (i : ℕ) (k : Conn K), IsConnector edges c d1 d2 a i k := by
  have hm : d1.label ∈ c.cy := by
    refine h.cy.mem_iff.2 (List.mem_map_of_mem (f := fun d : Edge K => d.label) ?_)
    simp [ofType, h1, ht]
  have hm2 : d1.label ∈ (c.cy.zip c.cu).map Prod.fst := by
    rw [List.map_fst_zip (by rw [h.cu])]; exact hm
  have hm3 : d1.label ∈ (connPairs c.connectors).map Prod.fst := (h.conn.map _).mem_iff.2 hm2
  rw [← connY_eq] at hm3
  unfold connY at hm3
  obtain ⟨k, hk, hk'⟩ := List.mem_flatMap.1 hm3
  obtain ⟨i, hi, rfl⟩ := List.getElem_of_mem hk
  obtain ⟨e1, e2, a', ha', hc⟩ := h.kind i _ (List.getElem?_eq_getElem hi)
  have hk2 : d1.label = e1.label ∨ d1.label = e2.label := by
    rw [← hc.y0, ← hc.y1]; simpa using hk'
  rcases hk2 with hk2 | hk2
  · obtain rfl := label_inj h.labels h1 hc.mem1 hk2
    have := hc.alpha1
    rw [ha] at this
    obtain rfl := Option.some.inj this
    have := hc.link1
    rw [hl] at this
    obtain rfl := label_inj h.labels h2 hc.mem2 (Option.some.inj this)
    exact ⟨ha', i, _, hc⟩
  · obtain rfl := label_inj h.labels h1 hc.mem2 hk2
    have := hc.alpha2
    rw [ha] at this; cases this

/-- The relation of a connector of the built core is the law of its two edges. -/
theorem conn_law {law : String → Env K → K} {nodes : List String} {edges : List (Edge K)}
    {st : St K} {fuel : ℕ} {c c' : Core K} (h : CircuitOK nodes edges c)
    (ha : analyse fuel nodes edges = .ok st) (hb : buildCore law st c = some c')
    {E F : String → K} {β α : Env K} (hs : Sides st E F β α) :
    (∀ k ∈ c'.connectors, ConnRel k β α) ↔ ConnLaws edges (EC st) E F := by
  obtain ⟨hp, hic, -⟩ := C39_analysis h.datum h.labels ha
  obtain ⟨hf, -, -⟩ := C43_order h.datum h.labels ha hb
  have hlen : c'.connectors.length = c.connectors.length := by
    simpa using congrArg List.length (setAlphas_spec hf.conns).1
  have nf : ∀ {l}, l ∈ st.fc.map (lab st) → ¬ EC st l := by
    intro l hl
    obtain ⟨e, he, rfl⟩ := List.mem_map.1 hl
    exact fc_not_ec hp h.labels he
  have key : ∀ {d1 d2 : Edge K} {a : K} {i : ℕ} {k : Conn K}, a ≠ 0 →
      IsConnector edges c d1 d2 a i k → ∃ k', c'.connectors[i]? = some k' ∧
      (ConnRel k' β α ↔ (d1.ctype = .gyrator →
        (¬ EC st d1.label → GyratorLaw a (E d1.label) (F d1.label) (E d2.label) (F d2.label)) ∧
        (EC st d1.label → GyratorLaw (-a) (E d1.label) (F d1.label) (E d2.label) (F d2.label))) ∧
      (d1.ctype = .transformer →
        (EC st d1.label → TransformerLaw a (E d1.label) (F d1.label) (E d2.label) (F d2.label)) ∧
        (¬ EC st d1.label →
          TransformerLaw (-a⁻¹) (E d1.label) (F d1.label) (E d2.label) (F d2.label)))) := by
    intro d1 d2 a i k h0 hk
    cases ht : d1.ctype with
    | gyrator =>
      obtain ⟨k', hk', -, hc⟩ := C51_gyrator h.datum h.labels h.links ha hb hk ht h0
      refine ⟨k', hk', ?_⟩
      rcases hc with ⟨hc, hm⟩ | ⟨hc, hm⟩
      · have := nf hm
        simp [hc E F β α hs, this]
      · have : EC st d1.label := hm
        simp [hc E F β α hs, this]
    | transformer =>
      obtain ⟨k', hk', -, hc⟩ := C51_transformer h.datum h.labels h.links ha hb hk ht h0
      refine ⟨k', hk', ?_⟩
      rcases hc with ⟨hc, hm⟩ | ⟨hc, hm⟩
      · have : EC st d1.label := hm
        simp [hc E F β α hs, this]
      · have := nf hm
        simp [hc E F β α hs, this]
  constructor
  · intro hr d1 h1 d2 h2 a ht hal hlk
    obtain ⟨h0, i, k, hk⟩ := conn_of h h1 h2 ht hal hlk
    obtain ⟨k', hk', hiff⟩ := key h0 hk
    exact hiff.1 (hr k' (List.mem_of_getElem? hk'))
  · intro hr k hk
    obtain ⟨i, hi, rfl⟩ := List.getElem_of_mem hk
    obtain ⟨d1, d2, a, h0, hc⟩ := h.kind i _ (List.getElem?_eq_getElem (by omega))
    obtain ⟨k', hk', hiff⟩ := key h0 hc
    rw [List.getElem?_eq_getElem hi] at hk'
    obtain rfl := Option.some.inj hk'
    exact hiff.2 (hr d1 hc.mem1 d2 hc.mem2 a hc.type1 hc.alpha1 hc.link1)

theorem toCore_some {law : String → Env K → K} {fuel : ℕ} {nodes : List String}
    {edges : List (Edge K)} {c c2 : Core K} (h : toCore law fuel nodes edges c = some c2) :
    ∃ st c1, analyse fuel nodes edges = .ok st ∧ buildCore law st c = some c1 ∧
      c1.connect = some c2 := by
  unfold toCore at h
  split at h
  · cases h
  · rename_i st hst
    obtain ⟨c1, h1, h2⟩ := Option.bind_eq_some_iff.1 h
    exact ⟨st, c1, hst, h1, h2⟩

omit [Field K] [DecidableEq K] in
theorem mem_ofType {t : EType} {edges : List (Edge K)} {d : Edge K} :
    d ∈ ofType t edges ↔ d ∈ edges ∧ d.type = t := by
  simp [ofType]

open Classical in
/-- C63. What `to_core` gives for a circuit: every storage, dissipation and port is a variable of the
core; a dissipative edge has the law of its control; a port has its input; the structure is
conservative; and the structure equations hold for some values of the variables exactly when
there are efforts and flows of all edges, which satisfy the laws of Kirchhoff and those of the
connectors, of which they are the values. -/
theorem C63_core {law : String → Env K → K} {fuel : ℕ} {nodes : List String}
    {edges : List (Edge K)} {c c2 : Core K} (h : CircuitOK nodes edges c)
    (hc : toCore law fuel nodes edges c = some c2) (two : (2 : K) ≠ 0) :
    ∃ ec : String → Prop,
      (∀ d ∈ edges, (d.ctrl = .e → ec d.label) ∧ (d.ctrl = .f → ¬ ec d.label)) ∧
      WF c2 ∧ c2.cy = [] ∧ c2.H = c.H ∧ c2.M.IsSkew ∧
      c2.x.Perm ((ofType .storage edges).map (·.label)) ∧
      (c2.w.zip c2.z).Perm ((ofType .dissipative edges).map fun d =>
        (d.label, law (if ec d.label then d.ze else d.zf))) ∧
      (c2.y.zip c2.u).Perm ((ofType .port edges).map fun d => (d.label, inputOf c d.label)) ∧
      ∀ β α : Env K, StructEq c2.labels c2.M β α ↔ ∃ E F, Network nodes edges ec E F ∧
        ∀ d ∈ edges, d.type ≠ .connector →
          Side (ec d.label) (E d.label) (F d.label) (β d.label) (α d.label) := by
  obtain ⟨st, c1, ha, hb, hconn⟩ := toCore_some hc
  obtain ⟨hp, hic, -⟩ := C39_analysis h.datum h.labels ha
  obtain ⟨hf, hperm, -⟩ := C43_order h.datum h.labels ha hb
  obtain ⟨hwf, hok⟩ := build_spec h ha hb
  obtain ⟨w2, qx, qw, qy, qu, qz, qH, qcy, -, -, qeq⟩ := C08_connect c1 c2 hwf hok hconn
  have hlab2 : ∀ l, l ∈ c2.labels ↔ ∃ d ∈ edges, d.type ≠ .connector ∧ d.label = l := by
    intro l
    have e : c2.labels = (positions st .storage).map (lab st) ++
        (positions st .dissipative).map (lab st) ++ (positions st .port).map (lab st) := by
      simp [labels, qx, qw, qy, qcy, hf.x, hf.w, hf.y]
    rw [e]
    simp only [List.mem_append, (positions_labels hp h.labels _).mem_iff, List.mem_map, mem_ofType]
    constructor
    · rintro ((⟨d, ⟨h1, h2⟩, h3⟩ | ⟨d, ⟨h1, h2⟩, h3⟩) | ⟨d, ⟨h1, h2⟩, h3⟩) <;>
        exact ⟨d, h1, by rw [h2]; decide, h3⟩
    · rintro ⟨d, h1, h2, h3⟩
      cases ht : d.type
      · exact .inl (.inl ⟨d, ⟨h1, ht⟩, h3⟩)
      · exact .inl (.inr ⟨d, ⟨h1, ht⟩, h3⟩)
      · exact .inr ⟨d, ⟨h1, ht⟩, h3⟩
      · exact absurd ht h2
  refine ⟨EC st, ?_, w2, qcy, by rw [qH, hf.rest.1],
    C09_conservative two c1 c2 hwf hok hconn (C42_skew h.datum h.labels ha hb).2,
    by rw [qx, hf.x]; exact positions_labels hp h.labels _, ?_, ?_, ?_⟩
  · intro d hd
    obtain ⟨p1, p2⟩ := C60_prescribed h.datum h.labels h.free ha hd
    exact ⟨fun hh => (p1 hh).1, fun hh => (p2 hh).2⟩
  · have hz : c1.w.zip c1.z = c1.w.map fun l => (l, law (if EC st l then
        ((edges.find? fun d => d.label = l).map (·.ze)).getD ""
        else ((edges.find? fun d => d.label = l).map (·.zf)).getD "")) := by
      refine zip_map hf.z.1 _ fun i hi => ?_
      have hi' : i < (positions st .dissipative).length := by
        have := congrArg List.length hf.w; simp at this; omega
      have hpl := positions_lt (List.getElem_mem hi')
      have e2 : c1.w[i] = lab st (positions st .dissipative)[i] := by simp [hf.w]
      have hd := List.getElem?_eq_getElem hpl
      obtain ⟨d', m1, m2, m3, m4, m5⟩ := mem_edges hp hd
      have hfind : (edges.find? fun d => d.label = c1.w[i]) = some d' := by
        rw [e2, lab_eq hd, ← m2]; exact find_label h.labels m1
      have := hf.z.2 i _ _ (List.getElem?_eq_getElem hi') hd
      rw [hfind, e2]
      rcases this with ⟨h1, h2⟩ | ⟨h1, -, h2⟩
      · rw [if_pos ((ec_iff hp h.labels hpl).2 h1), h2]; simp [m4]
      · rw [if_neg (fun hh => h1 ((ec_iff hp h.labels hpl).1 hh)), h2]; simp [m5]
    rw [qw, qz, hz, hf.w]
    refine ((positions_labels hp h.labels .dissipative).map _).trans ?_
    rw [List.map_map]
    refine List.Perm.of_eq (List.map_congr_left fun d hd => ?_)
    have := find_label h.labels (mem_ofType.1 hd).1
    simp only [Function.comp_apply, this, Option.map_some, Option.getD_some]
  · have hz : c1.y.zip c1.u = c1.y.map fun l => (l, inputOf c l) := by
      refine zip_map hf.lens.1 _ fun i hi => ?_
      have hi' : i < (positions st .port).length := by
        have := congrArg List.length hf.y; simp at this; omega
      have e1 := hf.u i _ (List.getElem?_eq_getElem hi')
      have e2 : c1.y[i] = lab st (positions st .port)[i] := by simp [hf.y]
      have h3 : i < c1.u.length := by rw [hf.lens.1]; exact hi
      rw [List.getElem?_eq_getElem h3] at e1 ⊢
      unfold inputOf
      rw [e2, List.getD_eq_getElem?_getD, ← e1]
      rfl
    rw [qy, qu, hz, hf.y]
    refine ((positions_labels hp h.labels .port).map _).trans ?_
    rw [List.map_map]
    exact List.Perm.refl _
  · intro β α
    rw [qeq]
    constructor
    · rintro ⟨β', α', hag, hst, hrel⟩
      have hside : ∀ l, Side (EC st l) ((fun l => if EC st l then β' l else α' l) l)
          ((fun l => if EC st l then α' l else β' l) l) (β' l) (α' l) := by
        intro l
        constructor
        · intro hh; simp [hh]
        · intro hh; simp [hh]
      have hs := sides_of hp h.labels hside
      have hk := (C42_kirchhoff h.datum h.distinct h.ends h.labels ha hb
        (fun l => if EC st l then β' l else α' l) (fun l => if EC st l then α' l else β' l) β' α'
        hs.ec hs.fc).1 hst
      refine ⟨_, _, ⟨hk.1, hk.2, (conn_law h ha hb hs).1 hrel⟩, ?_⟩
      · intro d hd ht
        obtain ⟨e1, e2⟩ := hag d.label ((hlab2 _).2 ⟨d, hd, ht, rfl⟩)
        rw [← e1, ← e2]
        exact hside d.label
    · rintro ⟨E, F, hn, hsd⟩
      have hside : ∀ l, Side (EC st l) (E l) (F l) ((fun l => if EC st l then E l else F l) l)
          ((fun l => if EC st l then F l else E l) l) := by
        intro l
        constructor
        · intro hh; simp [hh]
        · intro hh; simp [hh]
      have hs := sides_of hp h.labels hside
      refine ⟨_, _, ?_, (C42_kirchhoff h.datum h.distinct h.ends h.labels ha hb E F _ _ hs.ec
        hs.fc).2 ⟨hn.kcl, hn.kvl⟩, (conn_law h ha hb hs).2 hn.conn⟩
      intro p hpm
      obtain ⟨d, hd, ht, rfl⟩ := (hlab2 p).1 hpm
      have := hsd d hd ht
      by_cases hh : EC st d.label
      · obtain ⟨e1, e2⟩ := this.1 hh
        simp [hh, e1, e2]
      · obtain ⟨e1, e2⟩ := this.2 hh
        simp [hh, e1, e2]

end Circuit
end Pyphs
