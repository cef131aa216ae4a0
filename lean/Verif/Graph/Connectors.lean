import Verif.Graph.Link
import Verif.Graph.Repeat
import Verif.Graph.Kirchhoff
import Verif.Core.ConnProps
import Mathlib.Tactic.FieldSimp
import Mathlib.Tactic.LinearCombination

/-!
# Gyrators and transformers (C51)

pyphs/dictionary/connectors, pyphs/dictionary/edges/connectors.py:15-53.
-/

namespace Pyphs
namespace Graph
open Core (ConnRel)

variable {K : Type} [Field K] [DecidableEq K]

/-! ### Specification -/

/-- The relations documented for a gyrator (connectors/_gyrator.py:29-30). -/
def GyratorLaw (a eA fA eB fB : K) : Prop := eA = -a * fB ∧ eB = a * fA

/-- The relations documented for a transformer (connectors/_transformer.py:28-29). -/
def TransformerLaw (a eA fA eB fB : K) : Prop := fA = -a * fB ∧ eB = a * eA

/-- The values of the two sides of the structure given by the efforts and the flows of the edges. -/
structure Sides (st : St K) (E F : String → K) (β α : Env K) : Prop where
  ec : ∀ e ∈ st.ec, β (lab st e) = E (lab st e) ∧ α (lab st e) = F (lab st e)
  fc : ∀ e ∈ st.fc, β (lab st e) = F (lab st e) ∧ α (lab st e) = E (lab st e)

/-- What `Connector.__init__` (edges/connectors.py:15-53) adds: two edges linked to each other, the
ratio on the first one, and connector `i` of the core for their labels. -/
structure IsConnector (edges : List (Edge K)) (c : Core K) (d1 d2 : Edge K) (a : K) (i : ℕ)
    (k : Conn K) : Prop where
  mem1 : d1 ∈ edges
  mem2 : d2 ∈ edges
  type1 : d1.type = .connector
  type2 : d2.type = .connector
  ctype : d2.ctype = d1.ctype
  alpha1 : d1.alpha = some a
  alpha2 : d2.alpha = none
  link1 : d1.link = some d2.label
  link2 : d2.link = some d1.label
  conn : c.connectors[i]? = some k
  y0 : k.y0 = d1.label
  y1 : k.y1 = d2.label
  first : ∀ j < i, ∀ k', c.connectors[j]? = some k' → k'.y0 ≠ d1.label ∧ k'.y1 ≠ d1.label

/-! ### Controls -/

omit [DecidableEq K] in
theorem pos_of_label {st : St K} (hn : (st.edges.map (·.label)).Nodup) {i : ℕ} {d : Edge K}
    (h : st.edges[i]? = some d) {d' : Edge K} {j : ℕ} (h' : st.edges[j]? = some d')
    (hl : d'.label = d.label) : j = i := by
  have hj : j < st.edges.length := (List.getElem?_eq_some_iff.1 h').1
  refine (List.getElem?_inj (by simpa using hj) hn).1 ?_
  rw [List.getElem?_map, List.getElem?_map, h, h']
  simp [hl]

/-- C51. The two edges of a gyrator have the same control and those of a transformer opposite
controls. -/
theorem C51_controls {nodes : List String} {edges : List (Edge K)} {st : St K} {fuel : ℕ}
    (hd : datum ∈ nodes) (hl : (edges.map (·.label)).Nodup) (hu : LinksUnique edges)
    (ha : analyse fuel nodes edges = .ok st) {k1 k2 : ℕ} {d1 d2 : Edge K}
    (h1 : st.edges[k1]? = some d1) (h2 : st.edges[k2]? = some d2) (ht : d1.type = .connector)
    (hlink : d2.link = some d1.label) :
    (d1.ctype = .gyrator → (k1 ∈ st.ec ∧ k2 ∈ st.ec) ∨ (k1 ∈ st.fc ∧ k2 ∈ st.fc)) ∧
    (d1.ctype = .transformer → (k1 ∈ st.ec ∧ k2 ∈ st.fc) ∨ (k1 ∈ st.fc ∧ k2 ∈ st.ec)) := by
  obtain ⟨a, b, c, hs, hp, hlk⟩ := analyse_linked hd hl hu ha
  obtain ⟨hpart, hic, hord⟩ := C39_analysis hd hl ha
  have hn := hpart.nodup hl
  have hb : b = [] := by
    rw [hs.ic] at hic
    cases b with
    | nil => rfl
    | cons x b => exact absurd (congrArg List.length hic) (by simp)
  -- membership in the lists
  have inA : ∀ {k : ℕ} {d : Edge K}, st.edges[k]? = some d → d.label ∈ a.map (·.label) →
      k ∈ st.ec := by
    intro k d hk hm
    obtain ⟨x, hx, hxl⟩ := List.mem_map.1 hm
    obtain ⟨j, hj, rfl⟩ := List.getElem_of_mem hx
    have hj' : st.edges[j]? = some a[j] := by
      rw [hs.edges, List.append_assoc, List.getElem?_append_left hj, List.getElem?_eq_getElem hj]
    have := pos_of_label hn hk hj' hxl
    rw [hs.ec, ← this]; simpa using hj
  have inC : ∀ {k : ℕ} {d : Edge K}, st.edges[k]? = some d → d.label ∈ c.map (·.label) →
      k ∈ st.fc := by
    intro k d hk hm
    obtain ⟨x, hx, hxl⟩ := List.mem_map.1 hm
    obtain ⟨j, hj, rfl⟩ := List.getElem_of_mem hx
    have hj' : st.edges[a.length + b.length + j]? = some c[j] := by
      rw [hs.edges, List.getElem?_append_right (by simp), List.length_append,
        Nat.add_sub_cancel_left, List.getElem?_eq_getElem hj]
    have := pos_of_label hn hk hj' hxl
    rw [hs.fc, ← this, List.mem_range'_1]; omega
  have orig : ∀ x ∈ st.edges, ∃ x0 ∈ edges, noAlpha x0 = noAlpha x := by
    intro x hx
    have : noAlpha x ∈ edges.map noAlpha := hp.mem_iff.1 (List.mem_map_of_mem hx)
    obtain ⟨x0, h1, h2⟩ := List.mem_map.1 this
    exact ⟨x0, h1, h2⟩
  obtain ⟨e1, he1, q1⟩ := orig d1 (List.mem_of_getElem? h1)
  obtain ⟨e2, he2, q2⟩ := orig d2 (List.mem_of_getElem? h2)
  have l1 : e1.label = d1.label := (congrArg Edge.label q1 :)
  have l2 : e2.label = d2.label := (congrArg Edge.label q2 :)
  have t1 : e1.type = .connector := (congrArg Edge.type q1 :).trans ht
  have c1 : e1.ctype = d1.ctype := (congrArg Edge.ctype q1 :)
  have k2' : e2.link = some e1.label := by
    rw [l1, ← hlink]; exact (congrArg Edge.link q2 :)
  have key := hlk e1 he1 e2 he2 t1 k2'
  rw [l1, l2] at key
  have hcase : d1.label ∈ a.map (·.label) ∨ d1.label ∈ c.map (·.label) := by
    have := List.mem_of_getElem? h1
    rw [hs.edges, hb, List.append_nil] at this
    rcases List.mem_append.1 this with h | h
    · exact .inl (List.mem_map_of_mem h)
    · exact .inr (List.mem_map_of_mem h)
  constructor
  · intro hg
    have w : ∀ b, want e1 b = b := fun b => if_pos (c1.trans hg)
    rcases hcase with h | h
    · have := key true (by exact h)
      rw [w] at this
      exact .inl ⟨inA h1 h, inA h2 this⟩
    · have := key false (by exact h)
      rw [w] at this
      exact .inr ⟨inC h1 h, inC h2 this⟩
  · intro hg
    have w : ∀ b, want e1 b = !b := fun b => if_neg (by rw [c1, hg]; simp)
    rcases hcase with h | h
    · have := key true (by exact h)
      rw [w] at this
      exact .inl ⟨inA h1 h, inC h2 this⟩
    · have := key false (by exact h)
      rw [w] at this
      exact .inr ⟨inC h1 h, inA h2 this⟩

/-! ### Ratio -/

theorem foldl_ratio {st : St K} {cs : List (Conn K)} {i k1 : ℕ} {a : K}
    (h1 : ∀ r, ratioStep st cs i r k1 = some a) : ∀ (es : List ℕ) (r : Option K),
    (∀ e ∈ es, e ≠ k1 → ∀ r, ratioStep st cs i r e = r) → (k1 ∈ es ∨ r = some a) →
    es.foldl (ratioStep st cs i) r = some a := by
  intro es
  induction es with
  | nil => intro r _ h; simpa using h
  | cons e es ih =>
    intro r h2 h
    rw [List.foldl_cons]
    refine ih _ (fun e he => h2 e (by simp [he])) ?_
    by_cases he : e = k1
    · right; rw [he, h1]
    · rw [h2 e (by simp) he]
      rcases h with h | h
      · rcases List.mem_cons.1 h with h | h
        · exact absurd h.symm he
        · exact .inl h
      · exact .inr h

/-- The ratio of the connector in the core: that of the component, or its inverse for an
effort-controlled gyrator. -/
theorem conn_ratio {law : String → Env K → K} {nodes : List String} {edges : List (Edge K)}
    {st : St K} {fuel : ℕ} {c c' : Core K} {d1 d2 : Edge K} {a : K} {i : ℕ} {k : Conn K}
    (hd : datum ∈ nodes) (hl : (edges.map (·.label)).Nodup) (ha : analyse fuel nodes edges = .ok st)
    (hb : buildCore law st c = some c') (hk : IsConnector edges c d1 d2 a i k) :
    ∃ k1 k2 : ℕ, st.edges[k1]? = some (if k1 ∈ st.ec then ecEdge d1 else d1) ∧
      st.edges[k2]? = some (if k2 ∈ st.ec then ecEdge d2 else d2) ∧
      lab st k1 = d1.label ∧ lab st k2 = d2.label ∧
      c'.connectors[i]? = some { k with
        alpha := if k1 ∈ st.ec ∧ d1.ctype = .gyrator then a⁻¹ else a } := by
  obtain ⟨hp, hic, hord⟩ := C39_analysis hd hl ha
  have hn := hp.nodup hl
  obtain ⟨J, hJ, hs⟩ := buildCore_some hb
  have hf := (setCore_follows hn hs).1
  obtain ⟨-, -, hc⟩ := setAlphas_spec hf.conns
  obtain ⟨k1, hk1⟩ := edge_origin hd hl ha hk.mem1
  obtain ⟨k2, hk2⟩ := edge_origin hd hl ha hk.mem2
  have lb : ∀ {j : ℕ} {d : Edge K}, st.edges[j]? = some (if j ∈ st.ec then ecEdge d else d) →
      lab st j = d.label := by
    intro j d hj
    unfold lab; rw [hj]
    split
    · exact ecEdge_label d
    · rfl
  refine ⟨k1, k2, hk1, hk2, lb hk1, lb hk2, ?_⟩
  rw [hc i k hk.conn]
  have hr : ratio st c.connectors (positions st .connector) i =
      some (if k1 ∈ st.ec ∧ d1.ctype = .gyrator then a⁻¹ else a) := by
    have hal : st.edges[k1]?.bind (·.alpha) =
        some (if k1 ∈ st.ec ∧ d1.ctype = .gyrator then a⁻¹ else a) := by
      rw [hk1]
      by_cases hm : k1 ∈ st.ec
      · by_cases hg : d1.ctype = .gyrator
        · simp [hm, hg, ecEdge, hk.type1, hk.alpha1]
        · simp [hm, hg, ecEdge, hk.alpha1]
      · simp [hm, hk.alpha1]
    have hal2 : st.edges[k2]?.bind (·.alpha) = none := by
      rw [hk2]
      by_cases hm : k2 ∈ st.ec
      · simp only [if_pos hm, Option.bind_some]
        unfold ecEdge
        split <;> simp [hk.alpha2]
      · simp [hm, hk.alpha2]
    refine foldl_ratio (k1 := k1) ?_ _ _ ?_ (.inl ?_)
    · intro r
      unfold ratioStep
      rw [hal]
      have : connOf st c.connectors k1 = some i := by
        unfold connOf
        rw [List.findIdx?_eq_some_iff_getElem]
        obtain ⟨hi, hki⟩ := List.getElem?_eq_some_iff.1 hk.conn
        refine ⟨hi, ?_, ?_⟩
        · rw [hki, hk.y0, lb hk1]; simp
        · intro j hj
          have := hk.first j hj _ (List.getElem?_eq_getElem (by omega))
          rw [lb hk1]; simp [this]
      simp [this]
    · intro e he hne r
      unfold ratioStep
      cases hA : st.edges[e]?.bind (·.alpha) with
      | none => rfl
      | some b =>
        dsimp only
        rw [if_neg]
        intro hco
        unfold connOf at hco
        rw [List.findIdx?_eq_some_iff_getElem] at hco
        obtain ⟨hi, hco, -⟩ := hco
        obtain ⟨_, hki⟩ := List.getElem?_eq_some_iff.1 hk.conn
        rw [hki, hk.y0, hk.y1] at hco
        cases hee : st.edges[e]? with
        | none => rw [hee] at hA; exact absurd hA (by simp)
        | some x =>
          have hx : lab st e = x.label := by simp [lab, hee]
          rw [hx] at hco
          rcases of_decide_eq_true hco with h | h
          · refine hne (pos_of_label hn hk1 hee ?_)
            rw [← h]; split
            · exact (ecEdge_label d1).symm
            · rfl
          · have : e = k2 := by
              refine pos_of_label hn hk2 hee ?_
              rw [← h]; split
              · exact (ecEdge_label d2).symm
              · rfl
            rw [this, hal2] at hA
            exact absurd hA (by simp)
    · rw [mem_positions]
      refine ⟨_, hk1, ?_⟩
      split
      · unfold ecEdge; split <;> exact hk.type1
      · exact hk.type1
  rw [hr]
  rfl

/-! ### C51 -/

/-- C51. In every control configuration the relations of a connector of the core absorb no power. -/
theorem C51_lossless {st : St K} {k : Conn K} {E F : String → K} {β α : Env K}
    (hs : Sides st E F β α) {k1 k2 : ℕ} (h1 : k1 ∈ st.ec ∨ k1 ∈ st.fc) (h2 : k2 ∈ st.ec ∨ k2 ∈ st.fc)
    (l1 : k.y0 = lab st k1) (l2 : k.y1 = lab st k2) (hr : ConnRel k β α) :
    E k.y0 * F k.y0 + E k.y1 * F k.y1 = 0 := by
  have e1 : E k.y0 * F k.y0 = β k.y0 * α k.y0 := by
    rw [l1]
    rcases h1 with h | h
    · rw [(hs.ec k1 h).1, (hs.ec k1 h).2]
    · rw [(hs.fc k1 h).1, (hs.fc k1 h).2, mul_comm]
  have e2 : E k.y1 * F k.y1 = β k.y1 * α k.y1 := by
    rw [l2]
    rcases h2 with h | h
    · rw [(hs.ec k2 h).1, (hs.ec k2 h).2]
    · rw [(hs.fc k2 h).1, (hs.fc k2 h).2, mul_comm]
  rw [e1, e2, hr.1, hr.2]
  ring

/-- C51. The relations given by a gyrator after the analysis and the construction of the core: the
documented ones if it is flux-controlled, those of the opposite ratio if it is effort-controlled. -/
theorem C51_gyrator {law : String → Env K → K} {nodes : List String} {edges : List (Edge K)}
    {st : St K} {fuel : ℕ} {c c' : Core K} {d1 d2 : Edge K} {a : K} {i : ℕ} {k : Conn K}
    (hd : datum ∈ nodes) (hl : (edges.map (·.label)).Nodup) (hu : LinksUnique edges)
    (ha : analyse fuel nodes edges = .ok st) (hb : buildCore law st c = some c')
    (hk : IsConnector edges c d1 d2 a i k) (hg : d1.ctype = .gyrator) (h0 : a ≠ 0) :
    ∃ k', c'.connectors[i]? = some k' ∧
      (∀ (E F : String → K) (β α : Env K), Sides st E F β α → ConnRel k' β α →
        E d1.label * F d1.label + E d2.label * F d2.label = 0) ∧
      ((∀ (E F : String → K) (β α : Env K), Sides st E F β α →
        (ConnRel k' β α ↔ GyratorLaw a (E d1.label) (F d1.label) (E d2.label) (F d2.label))) ∧
        d1.label ∈ st.fc.map (lab st) ∨
       (∀ (E F : String → K) (β α : Env K), Sides st E F β α →
        (ConnRel k' β α ↔ GyratorLaw (-a) (E d1.label) (F d1.label) (E d2.label) (F d2.label))) ∧
        d1.label ∈ st.ec.map (lab st)) := by
  obtain ⟨k1, k2, g1, g2, l1, l2, hc⟩ := conn_ratio hd hl ha hb hk
  obtain ⟨hp, hic, hord⟩ := C39_analysis hd hl ha
  have ct : ∀ (b : Prop) [Decidable b] (d : Edge K), (if b then ecEdge d else d).ctype = d.ctype ∧
      (if b then ecEdge d else d).type = d.type ∧ (if b then ecEdge d else d).label = d.label ∧
      (if b then ecEdge d else d).link = d.link := by
    intro b _ d
    split
    · unfold ecEdge; split <;> exact ⟨rfl, rfl, rfl, rfl⟩
    · exact ⟨rfl, rfl, rfl, rfl⟩
  have hctl := (C51_controls hd hl hu ha g1 g2 (by rw [(ct _ d1).2.1, hk.type1])
    (by rw [(ct _ d2).2.2.2, (ct _ d1).2.2.1, hk.link2])).1 (by rw [(ct _ d1).1, hg])
  refine ⟨_, hc, ?_, ?_⟩
  · intro E F β α hs hr
    have := C51_lossless (k := { k with
      alpha := if k1 ∈ st.ec ∧ d1.ctype = .gyrator then a⁻¹ else a }) hs
      (hctl.elim (fun h => .inl h.1) (fun h => .inr h.1))
      (hctl.elim (fun h => .inl h.2) (fun h => .inr h.2))
      (by rw [l1]; exact hk.y0) (by rw [l2]; exact hk.y1) hr
    rw [← hk.y0, ← hk.y1]; exact this
  · rcases hctl with ⟨m1, m2⟩ | ⟨m1, m2⟩
    · right
      refine ⟨?_, l1 ▸ List.mem_map_of_mem m1⟩
      intro E F β α hs
      obtain ⟨b1, a1⟩ := hs.ec k1 m1
      obtain ⟨b2, a2⟩ := hs.ec k2 m2
      rw [l1] at b1 a1
      rw [l2] at b2 a2
      unfold ConnRel GyratorLaw
      simp only [m1, hg, and_self, if_true, hk.y0, hk.y1, b1, a1, b2, a2]
      constructor
      · rintro ⟨h1, h2⟩
        rw [h1, h2]
        constructor <;> field_simp
      · rintro ⟨h1, h2⟩
        rw [h1, h2]
        constructor <;> field_simp
    · left
      refine ⟨?_, l1 ▸ List.mem_map_of_mem m1⟩
      have hne : k1 ∉ st.ec := by
        intro h
        have hnd : (st.ec ++ st.fc).Nodup := by rw [hord]; exact List.nodup_range
        exact (List.nodup_append.1 hnd).2.2 k1 h k1 m1 rfl
      intro E F β α hs
      obtain ⟨b1, a1⟩ := hs.fc k1 m1
      obtain ⟨b2, a2⟩ := hs.fc k2 m2
      rw [l1] at b1 a1
      rw [l2] at b2 a2
      unfold ConnRel GyratorLaw
      simp only [hne, false_and, if_false, hk.y0, hk.y1, b1, a1, b2, a2]

/-- C51. The relations given by a transformer: the documented ones if the first edge is
effort-controlled, those of the ratio `-1/a` otherwise. -/
theorem C51_transformer {law : String → Env K → K} {nodes : List String} {edges : List (Edge K)}
    {st : St K} {fuel : ℕ} {c c' : Core K} {d1 d2 : Edge K} {a : K} {i : ℕ} {k : Conn K}
    (hd : datum ∈ nodes) (hl : (edges.map (·.label)).Nodup) (hu : LinksUnique edges)
    (ha : analyse fuel nodes edges = .ok st) (hb : buildCore law st c = some c')
    (hk : IsConnector edges c d1 d2 a i k) (hg : d1.ctype = .transformer) (h0 : a ≠ 0) :
    ∃ k', c'.connectors[i]? = some k' ∧
      (∀ (E F : String → K) (β α : Env K), Sides st E F β α → ConnRel k' β α →
        E d1.label * F d1.label + E d2.label * F d2.label = 0) ∧
      ((∀ (E F : String → K) (β α : Env K), Sides st E F β α →
        (ConnRel k' β α ↔ TransformerLaw a (E d1.label) (F d1.label) (E d2.label) (F d2.label))) ∧
        d1.label ∈ st.ec.map (lab st) ∨
       (∀ (E F : String → K) (β α : Env K), Sides st E F β α →
        (ConnRel k' β α ↔
          TransformerLaw (-a⁻¹) (E d1.label) (F d1.label) (E d2.label) (F d2.label))) ∧
        d1.label ∈ st.fc.map (lab st)) := by
  obtain ⟨k1, k2, g1, g2, l1, l2, hc⟩ := conn_ratio hd hl ha hb hk
  obtain ⟨hp, hic, hord⟩ := C39_analysis hd hl ha
  have ct : ∀ (b : Prop) [Decidable b] (d : Edge K), (if b then ecEdge d else d).ctype = d.ctype ∧
      (if b then ecEdge d else d).type = d.type ∧ (if b then ecEdge d else d).label = d.label ∧
      (if b then ecEdge d else d).link = d.link := by
    intro b _ d
    split
    · unfold ecEdge; split <;> exact ⟨rfl, rfl, rfl, rfl⟩
    · exact ⟨rfl, rfl, rfl, rfl⟩
  have hctl := (C51_controls hd hl hu ha g1 g2 (by rw [(ct _ d1).2.1, hk.type1])
    (by rw [(ct _ d2).2.2.2, (ct _ d1).2.2.1, hk.link2])).2 (by rw [(ct _ d1).1, hg])
  have hng : ¬ (k1 ∈ st.ec ∧ d1.ctype = .gyrator) := by rw [hg]; simp
  rw [if_neg hng] at hc
  refine ⟨_, hc, ?_, ?_⟩
  · intro E F β α hs hr
    have := C51_lossless (k := { k with alpha := a }) hs
      (hctl.elim (fun h => .inl h.1) (fun h => .inr h.1))
      (hctl.elim (fun h => .inr h.2) (fun h => .inl h.2))
      (by rw [l1]; exact hk.y0) (by rw [l2]; exact hk.y1) hr
    rw [← hk.y0, ← hk.y1]; exact this
  · rcases hctl with ⟨m1, m2⟩ | ⟨m1, m2⟩
    · left
      refine ⟨?_, l1 ▸ List.mem_map_of_mem m1⟩
      intro E F β α hs
      obtain ⟨b1, a1⟩ := hs.ec k1 m1
      obtain ⟨b2, a2⟩ := hs.fc k2 m2
      rw [l1] at b1 a1
      rw [l2] at b2 a2
      unfold ConnRel TransformerLaw
      simp only [hk.y0, hk.y1, b1, a1, b2, a2]
    · right
      refine ⟨?_, l1 ▸ List.mem_map_of_mem m1⟩
      intro E F β α hs
      obtain ⟨b1, a1⟩ := hs.fc k1 m1
      obtain ⟨b2, a2⟩ := hs.ec k2 m2
      rw [l1] at b1 a1
      rw [l2] at b2 a2
      unfold ConnRel TransformerLaw
      simp only [hk.y0, hk.y1, b1, a1, b2, a2]
      constructor
      · rintro ⟨h1, h2⟩
        rw [h1, h2]
        constructor <;> field_simp
      · rintro ⟨h1, h2⟩
        rw [h1, h2]
        constructor <;> field_simp

/-! ### Examples -/

theorem sides_exist {nodes : List String} {edges : List (Edge K)} {st : St K} {fuel : ℕ}
    (hd : datum ∈ nodes) (hl : (edges.map (·.label)).Nodup) (ha : analyse fuel nodes edges = .ok st)
    (E F : String → K) : ∃ β α : Env K, Sides st E F β α := by
  obtain ⟨hp, hic, hord⟩ := C39_analysis hd hl ha
  have hn := hp.nodup hl
  have hlen : st.edges.length = edges.length := by simpa using hp.sameEdges.length_eq
  refine ⟨fun l => if l ∈ st.ec.map (lab st) then E l else F l,
    fun l => if l ∈ st.ec.map (lab st) then F l else E l, ?_, ?_⟩
  · intro e he
    have : lab st e ∈ st.ec.map (lab st) := List.mem_map_of_mem he
    simp only [if_pos this, and_self]
  · intro e he
    have : lab st e ∉ st.ec.map (lab st) := by
      have h1 : ((st.ec ++ st.fc).map (lab st)).Nodup := by
        refine lab_nodup hn (by rw [hord]; exact List.nodup_range) ?_
        intro x hx
        rw [hord, ← hlen] at hx
        exact List.mem_range.1 hx
      rw [List.map_append] at h1
      intro hm
      exact (List.nodup_append.1 h1).2.2 _ hm _ (List.mem_map_of_mem he) rfl
    simp only [if_neg this, and_self]

/-- A transformer between a source of effort and a source of flux. -/
def trEdges (s1 s2 : Ctrl) : List (Edge ℚ) :=
  [⟨"#", "A", "s1", .port, s1, none, .gyrator, none, "", ""⟩,
   ⟨"#", "B", "s2", .port, s2, none, .gyrator, none, "", ""⟩,
   ⟨"A", "#", "g1", .connector, .unknown, some "g2", .transformer, some 2, "", ""⟩,
   ⟨"B", "#", "g2", .connector, .unknown, some "g1", .transformer, none, "", ""⟩]

theorem gyr_labels : (gyrEdges.map (·.label)).Nodup := by decide +kernel
theorem tr_labels (a b : Ctrl) : ((trEdges a b).map (·.label)).Nodup := by
  show ["s1", "s2", "g1", "g2"].Nodup; decide

theorem gyr_conn : IsConnector gyrEdges gyrCore gyrEdges[2] gyrEdges[3] 2 0
    ⟨"cu1", "cu2", "g1", "g2", 2⟩ :=
  ⟨by simp, by simp, rfl, rfl, rfl, rfl, rfl, rfl, rfl, rfl, rfl, rfl,
    fun j hj => absurd hj (by omega)⟩

theorem tr_conn (a b : Ctrl) : IsConnector (trEdges a b) gyrCore
    ((trEdges a b)[2]'(by simp [trEdges])) ((trEdges a b)[3]'(by simp [trEdges])) 2 0
    ⟨"cu1", "cu2", "g1", "g2", 2⟩ :=
  ⟨by simp, by simp, rfl, rfl, rfl, rfl, rfl, rfl, rfl, rfl, rfl, rfl,
    fun j hj => absurd hj (by omega)⟩

/-- A call in two steps, with the labels of the effort-controlled edges. -/
def run (nodes : List String) (edges : List (Edge ℚ)) (c : Core ℚ) : Option (List String × Core ℚ) :=
  match analyse 30 nodes edges with
  | .error _ => none
  | .ok st => (buildCore exLaw st c).map fun c' => (st.ec.map (lab st), c')

theorem run_some {nodes : List String} {edges : List (Edge ℚ)} {c : Core ℚ} {l : List String}
    (h : (run nodes edges c).map (·.1) = some l) :
    ∃ st c', analyse 30 nodes edges = .ok st ∧ buildCore exLaw st c = some c' ∧
      st.ec.map (lab st) = l := by
  obtain ⟨r, h1, h2⟩ := Option.map_eq_some_iff.1 h
  unfold run at h1
  cases ha : analyse 30 nodes edges with
  | error x => rw [ha] at h1; cases h1
  | ok st =>
    rw [ha] at h1
    obtain ⟨c', h3, rfl⟩ := Option.map_eq_some_iff.1 h1
    exact ⟨st, c', rfl, h3, h2⟩

/-- The hypotheses of C51 on a gyrator and on the two controls of a transformer (with `gyr_labels`,
`gyr_conn`, `tr_labels`, `tr_conn`). -/
example : datum ∈ gyrNodes ∧ LinksUnique gyrEdges ∧ (∀ a b, LinksUnique (trEdges a b)) ∧
    (run gyrNodes gyrEdges gyrCore).map (·.1) = some ["g2", "g1"] ∧
    (run gyrNodes (trEdges .e .f) gyrCore).map (·.1) = some ["g2", "s1"] ∧
    (run gyrNodes (trEdges .f .e) gyrCore).map (·.1) = some ["g1", "s2"] := by
  refine ⟨by decide, by simp [LinksUnique, gyrEdges], fun a b => by simp [LinksUnique, trEdges],
    by decide +kernel, by decide +kernel, by decide +kernel⟩

def exE (l : String) : ℚ := if l = "g1" then 2 else if l = "s1" then -2 else 0
def exF (l : String) : ℚ := if l = "g2" ∨ l = "s2" then 1 else 0

/-- C51. The code does not give the documented relations to an effort-controlled gyrator: a solution of
the equations of the core that violates them. -/
theorem C51_gyrator_counterexample :
    ∃ st c' k' E F β α, analyse 30 gyrNodes gyrEdges = .ok st ∧ buildCore exLaw st gyrCore = some c' ∧
      c'.connectors[0]? = some k' ∧ Sides st E F β α ∧ Core.StructEq c'.labels c'.M β α ∧
      ConnRel k' β α ∧ ¬ GyratorLaw 2 (E "g1") (F "g1") (E "g2") (F "g2") := by
  obtain ⟨st, c', ha, hb, hec⟩ := run_some (show (run gyrNodes gyrEdges gyrCore).map (·.1) =
    some ["g2", "g1"] by decide +kernel)
  have hd : datum ∈ gyrNodes := by decide
  have hu : LinksUnique gyrEdges := by simp [LinksUnique, gyrEdges]
  obtain ⟨k', hk', -, hk⟩ := C51_gyrator hd gyr_labels hu ha hb gyr_conn rfl (by norm_num)
  obtain ⟨β, α, hs⟩ := sides_exist hd gyr_labels ha exE exF
  refine ⟨st, c', k', exE, exF, β, α, ha, hb, hk', hs, ?_, ?_, ?_⟩
  · refine (C42_kirchhoff hd (by decide) ?_ gyr_labels ha hb exE exF β α hs.ec hs.fc).2 ⟨?_, ?_⟩
    · simp [gyrEdges, gyrNodes]
    · intro v hv hne
      simp only [gyrNodes, List.mem_cons, List.not_mem_nil, or_false] at hv
      rcases hv with rfl | rfl | rfl
      · decide +kernel
      · exact absurd rfl hne
      · decide +kernel
    · refine ⟨fun v => if v = "A" then 2 else 0, ?_⟩
      decide +kernel
  · rcases hk with ⟨-, hf⟩ | ⟨hk, -⟩
    · exfalso
      have h1 := (C39_analysis hd gyr_labels ha)
      have hn := h1.1.nodup gyr_labels
      have h2 : ((st.ec ++ st.fc).map (lab st)).Nodup := by
        refine lab_nodup hn (by rw [h1.2.2]; exact List.nodup_range) ?_
        intro x hx
        rw [h1.2.2] at hx
        have : st.edges.length = gyrEdges.length := by simpa using h1.1.sameEdges.length_eq
        rw [this]; exact List.mem_range.1 hx
      rw [List.map_append, hec] at h2
      exact (List.nodup_append.1 h2).2.2 "g1" (by simp) "g1" hf rfl
    · refine (hk exE exF β α hs).2 ?_
      show GyratorLaw (-2) (exE "g1") (exF "g1") (exE "g2") (exF "g2")
      unfold GyratorLaw
      decide +kernel
  · unfold GyratorLaw
    decide +kernel

/-- C51. The same for a transformer with its first edge flux-controlled. -/
theorem C51_transformer_counterexample :
    ∃ st c' k' E F β α, analyse 30 gyrNodes (trEdges .e .f) = .ok st ∧
      buildCore exLaw st gyrCore = some c' ∧
      c'.connectors[0]? = some k' ∧ Sides st E F β α ∧ Core.StructEq c'.labels c'.M β α ∧
      ConnRel k' β α ∧ ¬ TransformerLaw 2 (E "g1") (F "g1") (E "g2") (F "g2") := by
  obtain ⟨st, c', ha, hb, hec⟩ := run_some (show (run gyrNodes (trEdges .e .f) gyrCore).map (·.1) =
    some ["g2", "s1"] by decide +kernel)
  have hd : datum ∈ gyrNodes := by decide
  have hu : LinksUnique (trEdges .e .f) := by simp [LinksUnique, trEdges]
  obtain ⟨k', hk', -, hk⟩ := C51_transformer hd (tr_labels _ _) hu ha hb (tr_conn _ _) rfl (by norm_num)
  let E : String → ℚ := fun l => if l = "g1" then -2 else if l = "s1" then 2
    else if l = "g2" then 1 else if l = "s2" then -1 else 0
  let F : String → ℚ := fun _ => 0
  obtain ⟨β, α, hs⟩ := sides_exist hd (tr_labels _ _) ha E F
  refine ⟨st, c', k', E, F, β, α, ha, hb, hk', hs, ?_, ?_, ?_⟩
  · refine (C42_kirchhoff hd (by decide) ?_ (tr_labels _ _) ha hb E F β α hs.ec hs.fc).2 ⟨?_, ?_⟩
    · simp [trEdges, gyrNodes]
    · intro v hv hne
      simp [F]
    · refine ⟨fun v => if v = "A" then -2 else if v = "B" then 1 else 0, ?_⟩
      simp [trEdges, E]
  · rcases hk with ⟨-, hf⟩ | ⟨hk, -⟩
    · exfalso
      rw [hec] at hf
      exact absurd hf (show "g1" ∉ ["g2", "s1"] by decide)
    · refine (hk E F β α hs).2 ?_
      show TransformerLaw (-2⁻¹) (E "g1") (F "g1") (E "g2") (F "g2")
      unfold TransformerLaw
      refine ⟨by simp [F], ?_⟩
      show (1 : ℚ) = -2⁻¹ * -2
      norm_num
  · unfold TransformerLaw
    rintro ⟨-, h⟩
    replace h : (1 : ℚ) = 2 * -2 := h
    norm_num at h

/-! ### Order of the description -/

/-- C42. The equations of the core do not depend on the order in which the edges and the nodes are
given, nor on the controls found. -/
theorem C42_any_order {law law' : String → Env K → K} {nodes nodes' : List String}
    {edges edges' : List (Edge K)} {st st' : St K} {fuel fuel' : ℕ} {c c' k k' : Core K}
    (hd : datum ∈ nodes) (hn : nodes.Nodup) (hnodes : ∀ d ∈ edges, d.tail ∈ nodes ∧ d.head ∈ nodes)
    (hl : (edges.map (·.label)).Nodup) (hpn : nodes'.Perm nodes) (hpe : edges'.Perm edges)
    (ha : analyse fuel nodes edges = .ok st) (hb : buildCore law st c = some c')
    (ha' : analyse fuel' nodes' edges' = .ok st') (hb' : buildCore law' st' k = some k')
    {E F : String → K} {β α β' α' : Env K} (hs : Sides st E F β α) (hs' : Sides st' E F β' α') :
    Core.StructEq c'.labels c'.M β α ↔ Core.StructEq k'.labels k'.M β' α' := by
  rw [C42_kirchhoff hd hn hnodes hl ha hb E F β α hs.ec hs.fc,
    C42_kirchhoff (hpn.mem_iff.2 hd) (hpn.nodup_iff.2 hn)
      (fun d h => ⟨hpn.mem_iff.2 (hnodes d (hpe.mem_iff.1 h)).1,
        hpn.mem_iff.2 (hnodes d (hpe.mem_iff.1 h)).2⟩)
      ((hpe.map _).nodup_iff.2 hl) ha' hb' E F β' α' hs'.ec hs'.fc]
  refine and_congr ?_ ?_
  · constructor
    · intro h v hv hne
      rw [(hpe.map _).sum_eq]; exact h v (hpn.mem_iff.1 hv) hne
    · intro h v hv hne
      rw [← (hpe.map _).sum_eq]; exact h v (hpn.mem_iff.2 hv) hne
  · constructor
    · rintro ⟨p, h⟩; exact ⟨p, fun d hm => h d (hpe.mem_iff.1 hm)⟩
    · rintro ⟨p, h⟩; exact ⟨p, fun d hm => h d (hpe.mem_iff.2 hm)⟩

example : (run rcNodes rcEdges rcCore).isSome ∧
    (run rcNodes.reverse rcEdges.reverse rcCore).isSome := by decide +kernel

end Graph
end Pyphs
