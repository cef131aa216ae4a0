import Verif.Graph.Erase
import Verif.Graph.Run

/-!
# Controls of the two edges of a connector

The analysis gives the same control to the two edges of a gyrator and opposite controls to those of
a transformer.
-/

namespace Pyphs
namespace Graph

variable {K : Type}

/-- The lists of a state, with the edges split by control. -/
structure Shape (st : St K) (a b c : List (Edge K)) : Prop where
  edges : st.edges = a ++ b ++ c
  G : st.G.length = st.edges.length
  L : st.L.length = st.edges.length
  ec : st.ec = List.range a.length
  ic : st.ic = List.range' a.length b.length
  fc : st.fc = List.range' (a.length + b.length) c.length

theorem exists_cols (E : List (Edge K)) : ∀ (G : List (List ℤ)) (L : List (List ℕ)),
    G.length = E.length → L.length = E.length →
    ∃ cs : List (Col K), cs.map (·.edge) = E ∧ cs.map (·.g) = G ∧ cs.map (·.l) = L := by
  induction E with
  | nil =>
    intro G L hG hL
    exact ⟨[], rfl, (List.length_eq_zero_iff.1 hG).symm, (List.length_eq_zero_iff.1 hL).symm⟩
  | cons e E ih =>
    intro G L hG hL
    cases G with
    | nil => simp at hG
    | cons g G =>
      cases L with
      | nil => simp at hL
      | cons l L =>
        obtain ⟨cs, h1, h2, h3⟩ := ih G L (by simpa using hG) (by simpa using hL)
        exact ⟨⟨e, g, l⟩ :: cs, by simp [h1], by simp [h2], by simp [h3]⟩

theorem Shape.rep {st : St K} {a b c : List (Edge K)} (h : Shape st a b c) :
    ∃ A B C : List (Col K), Rep st A B C ∧ A.map (·.edge) = a ∧ B.map (·.edge) = b ∧
      C.map (·.edge) = c := by
  obtain ⟨cs, h1, h2, h3⟩ := exists_cols st.edges st.G st.L h.G h.L
  rw [h.edges] at h1
  obtain ⟨AB, C, rfl, hAB, hC⟩ := List.map_eq_append_iff.1 h1
  obtain ⟨A, B, rfl, hA, hB⟩ := List.map_eq_append_iff.1 hAB
  have la : A.length = a.length := by rw [← hA]; simp
  have lb : B.length = b.length := by rw [← hB]; simp
  have lc : C.length = c.length := by rw [← hC]; simp
  refine ⟨A, B, C, ⟨?_, h2.symm, h3.symm, ?_, ?_, ?_⟩, hA, hB, hC⟩
  · rw [h.edges, h1]
  · rw [la]; exact h.ec
  · rw [la, lb]; exact h.ic
  · rw [la, lb, lc]; exact h.fc

theorem Rep.shape {st : St K} {A B C : List (Col K)} (h : Rep st A B C) :
    Shape st (A.map (·.edge)) (B.map (·.edge)) (C.map (·.edge)) := by
  refine ⟨?_, ?_, ?_, ?_, ?_, ?_⟩
  · rw [h.edges]; simp
  · rw [h.edges, h.G]; simp
  · rw [h.edges, h.L]; simp
  · simpa using h.ec
  · simpa using h.ic
  · simpa using h.fc

/-- Label of the list of a control. -/
def sel (b : Bool) (la lc : List String) : List String := if b then la else lc

/-- The partner of a connector edge is effort-controlled (`true`) or flux-controlled. -/
def want (d : Edge K) (b : Bool) : Bool := if d.ctype = .gyrator then b else !b

/-- The partner of every determined connector edge has its control. -/
def Linked (edges : List (Edge K)) (la lc : List String) : Prop :=
  ∀ d ∈ edges, ∀ d' ∈ edges, d.type = .connector → d'.link = some d.label →
    ∀ b, d.label ∈ sel b la lc → d'.label ∈ sel (want d b) la lc

/-- The same, except for an edge that is about to get the control `isE`. -/
def LinkedBut (edges : List (Edge K)) (la lc : List String) (isE : Bool) (l : String) : Prop :=
  ∀ d ∈ edges, ∀ d' ∈ edges, d.type = .connector → d'.link = some d.label →
    ∀ b, d.label ∈ sel b la lc →
      d'.label ∈ sel (want d b) la lc ∨ (d'.label = l ∧ isE = want d b)

theorem Linked.but {edges : List (Edge K)} {la lc : List String} (h : Linked edges la lc)
    (isE : Bool) (l : String) : LinkedBut edges la lc isE l :=
  fun d hd d' hd' ht hl b hb => Or.inl (h d hd d' hd' ht hl b hb)

/-- At most one edge links to a label. -/
def LinksUnique (edges : List (Edge K)) : Prop :=
  ∀ d ∈ edges, ∀ d' ∈ edges, ∀ l, d.link = some l → d'.link = some l → d = d'

section inv
variable [Inv K]

/-- Labels after the move of an edge. -/
def mvA (isE : Bool) (l : String) (la : List String) : List String := if isE then l :: la else la
def mvC (isE : Bool) (l : String) (lc : List String) : List String := if isE then lc else lc ++ [l]

theorem LinkedBut.moved {edges : List (Edge K)} {la lc : List String} {isE : Bool} {l : String}
    (h : LinkedBut edges la lc isE l) :
    ∀ d ∈ edges, ∀ d' ∈ edges, d.type = .connector → d'.link = some d.label → d.label ≠ l →
      ∀ b, d.label ∈ sel b (mvA isE l la) (mvC isE l lc) →
        d'.label ∈ sel (want d b) (mvA isE l la) (mvC isE l lc) := by
  intro d hd d' hd' ht hl hne b hb
  have hb' : d.label ∈ sel b la lc := by
    cases isE <;> cases b <;> simp_all [sel, mvA, mvC]
  rcases h d hd d' hd' ht hl b hb' with h1 | ⟨h1, h2⟩
  · generalize want d b = w at h1
    cases isE <;> cases w <;> simp_all [sel, mvA, mvC]
  · rw [h1, ← h2]
    cases isE <;> simp [sel, mvA, mvC]

theorem shape_moveEc {st st' : St K} {a p q c : List (Edge K)} {d : Edge K}
    (h : Shape st a (p ++ d :: q) c) (hm : moveEc st (a.length + p.length) = .ok st') :
    Shape st' (d :: a) (p ++ q) c := by
  obtain ⟨A, B, C, hr, hA, hB, hC⟩ := h.rep
  obtain ⟨P, cQ, rfl, hP, hcQ⟩ := List.map_eq_append_iff.1 hB
  obtain ⟨x, Q, rfl, hx, hQ⟩ := List.map_eq_cons_iff.1 hcQ
  obtain ⟨st1, e1, r1, _, _⟩ := rep_moveEc hr
  have hlen : A.length + P.length = a.length + p.length := by rw [← hA, ← hP]; simp
  rw [hlen, hm] at e1
  obtain rfl : st' = st1 := by simpa using e1
  have := r1.shape
  simpa [hA, hP, hQ, hC, hx] using this

theorem shape_moveFc {st st' : St K} {a p q c : List (Edge K)} {d : Edge K}
    (h : Shape st a (p ++ d :: q) c) (hm : moveFc st (a.length + p.length) = .ok st') :
    Shape st' a (p ++ q) (c ++ [d]) := by
  obtain ⟨A, B, C, hr, hA, hB, hC⟩ := h.rep
  obtain ⟨P, cQ, rfl, hP, hcQ⟩ := List.map_eq_append_iff.1 hB
  obtain ⟨x, Q, rfl, hx, hQ⟩ := List.map_eq_cons_iff.1 hcQ
  obtain ⟨st1, e1, r1, _, _⟩ := rep_moveFc hr
  have hlen : A.length + P.length = a.length + p.length := by rw [← hA, ← hP]; simp
  rw [hlen, hm] at e1
  obtain rfl : st' = st1 := by simpa using e1
  have := r1.shape
  simpa [hA, hP, hQ, hC, hx] using this

omit [Inv K] in
theorem shape_mem {st : St K} {a b c : List (Edge K)} (h : Shape st a b c) {i : ℕ} {d : Edge K}
    (hd : st.edges[i]? = some d) :
    (i ∈ st.ec ∧ d ∈ a) ∨ (∃ p q, b = p ++ d :: q ∧ i = a.length + p.length ∧ i ∈ st.ic) ∨
      (i ∈ st.fc ∧ d ∈ c) := by
  have hi : i < st.edges.length := by
    by_contra hlt
    rw [List.getElem?_eq_none (by omega)] at hd
    exact absurd hd (by simp)
  have hlen : st.edges.length = a.length + b.length + c.length := by rw [h.edges]; simp; omega
  rw [h.edges] at hd
  by_cases h1 : i < a.length
  · left
    rw [List.append_assoc, List.getElem?_append_left h1] at hd
    exact ⟨by rw [h.ec]; simpa using h1, List.mem_of_getElem? hd⟩
  · by_cases h2 : i < a.length + b.length
    · right; left
      rw [List.append_assoc, List.getElem?_append_right (by omega),
        List.getElem?_append_left (by omega)] at hd
      refine ⟨b.take (i - a.length), b.drop (i - a.length + 1), ?_, ?_, ?_⟩
      · obtain ⟨hlt, rfl⟩ := List.getElem?_eq_some_iff.1 hd
        rw [List.getElem_cons_drop, List.take_append_drop]
      · rw [List.length_take]; omega
      · rw [h.ic, List.mem_range'_1]; omega
    · right; right
      rw [List.getElem?_append_right (by simp; omega)] at hd
      refine ⟨?_, List.mem_of_getElem? hd⟩
      rw [h.fc, List.mem_range'_1]; omega

theorem noAlpha_modify (l : List (Edge K)) (i : ℕ) (f : Edge K → Edge K)
    (hf : ∀ d, noAlpha (f d) = noAlpha d) : (l.modify i f).map noAlpha = l.map noAlpha := by
  apply List.ext_getElem?
  intro k
  simp only [List.getElem?_modify, List.getElem?_map]
  cases l[k]? with
  | none => simp
  | some v => by_cases hk : i = k <;> simp [hk, hf]

omit [Inv K] in
theorem noAlpha_label {l l' : List (Edge K)} (h : l.map noAlpha = l'.map noAlpha) :
    l.map (·.label) = l'.map (·.label) := by
  have : ∀ m : List (Edge K), m.map (·.label) = (m.map noAlpha).map (·.label) := by
    intro m; rw [List.map_map]; rfl
  rw [this l, this l', h]

omit [Inv K] in
theorem noAlpha_link {l l' : List (Edge K)} (h : l.map noAlpha = l'.map noAlpha) :
    l.map (·.link) = l'.map (·.link) := by
  have : ∀ m : List (Edge K), m.map (·.link) = (m.map noAlpha).map (·.link) := by
    intro m; rw [List.map_map]; rfl
  rw [this l, this l', h]

/-- Edges changed in their ratio only. -/
theorem Shape.congr {st : St K} {a b c E : List (Edge K)} (h : Shape st a b c)
    (hE : E.map noAlpha = st.edges.map noAlpha) :
    ∃ a' b' c', Shape { st with edges := E } a' b' c' ∧ a'.map noAlpha = a.map noAlpha ∧
      b'.map noAlpha = b.map noAlpha ∧ c'.map noAlpha = c.map noAlpha := by
  have h1 : E.map noAlpha = (a.map noAlpha ++ b.map noAlpha) ++ c.map noAlpha := by
    rw [hE, h.edges]; simp
  obtain ⟨ab, c', rfl, hab, hc⟩ := List.map_eq_append_iff.1 h1
  obtain ⟨a', b', rfl, ha, hb⟩ := List.map_eq_append_iff.1 hab
  have la : a'.length = a.length := by simpa using congrArg List.length ha
  have lb : b'.length = b.length := by simpa using congrArg List.length hb
  have lc : c'.length = c.length := by simpa using congrArg List.length hc
  have lE : (a' ++ b' ++ c').length = st.edges.length := by simpa using congrArg List.length hE
  refine ⟨a', b', c', ⟨rfl, ?_, ?_, ?_, ?_, ?_⟩, ha, hb, hc⟩
  · show st.G.length = _; rw [h.G]; exact lE.symm
  · show st.L.length = _; rw [h.L]; exact lE.symm
  · show st.ec = _; rw [la]; exact h.ec
  · show st.ic = _; rw [la, lb]; exact h.ic
  · show st.fc = _; rw [la, lb, lc]; exact h.fc

/-- The state keeps the edges up to their ratio, and partners have matching controls. -/
def LinkedSt (edges : List (Edge K)) (st : St K) : Prop :=
  ∃ a b c, Shape st a b c ∧ (st.edges.map noAlpha).Perm (edges.map noAlpha) ∧
    Linked edges (a.map (·.label)) (c.map (·.label))

theorem setEdge_linked {edges : List (Edge K)} (hn : (edges.map (·.label)).Nodup)
    (hu : LinksUnique edges) : ∀ (k : ℕ) (isE : Bool) (st st' : St K)
    (a p : List (Edge K)) (d : Edge K) (q c : List (Edge K)), Shape st a (p ++ d :: q) c →
    (st.edges.map noAlpha).Perm (edges.map noAlpha) →
    LinkedBut edges (a.map (·.label)) (c.map (·.label)) isE d.label →
    setEdge k isE st (a.length + p.length) = .ok st' → LinkedSt edges st' := by
  intro k
  induction k with
  | zero => intro isE st st' a p d q c _ _ _ h; exact absurd h (by simp [setEdge])
  | succ k ih =>
    intro isE st st' a p d q c hs hp hl h
    rw [setEdge_succ] at h
    have hget : st.edges[a.length + p.length]? = some d := by rw [hs.edges]; simp
    rw [hget] at h
    dsimp only at h
    cases hm : (if isE = true then moveEc st (a.length + p.length)
        else moveFc st (a.length + p.length)) with
    | error x => rw [hm] at h; exact absurd h (by simp [bind, Except.bind])
    | ok st1 =>
      rw [hm] at h
      replace h : tailE k isE d.label st1 = .ok st' := h
      -- the edge is at its place
      obtain ⟨a1, b1, c1, hs1, ha1, hc1, hp1⟩ : ∃ a1 b1 c1, Shape st1 a1 b1 c1 ∧
          a1.map (·.label) = mvA isE d.label (a.map (·.label)) ∧
          c1.map (·.label) = mvC isE d.label (c.map (·.label)) ∧
          (st1.edges.map noAlpha).Perm (edges.map noAlpha) := by
        cases isE with
        | true =>
          have hs1 := shape_moveEc hs (by simpa using hm)
          refine ⟨_, _, _, hs1, by simp [mvA], by simp [mvC], ?_⟩
          refine List.Perm.trans (List.Perm.map _ ?_) hp
          rw [hs1.edges, hs.edges]
          have : a ++ (p ++ d :: q) ++ c = (a ++ p) ++ d :: (q ++ c) := by simp
          rw [this]
          refine List.Perm.trans ?_ List.perm_middle.symm
          simp
        | false =>
          have hs1 := shape_moveFc hs (by simpa using hm)
          refine ⟨_, _, _, hs1, by simp [mvA], by simp [mvC], ?_⟩
          refine List.Perm.trans (List.Perm.map _ ?_) hp
          rw [hs1.edges, hs.edges]
          have e1 : a ++ (p ++ d :: q) ++ c = (a ++ p) ++ d :: (q ++ c) := by simp
          have e2 : a ++ (p ++ q) ++ (c ++ [d]) = (a ++ p ++ (q ++ c)) ++ [d] := by simp
          rw [e1, e2]
          exact (List.perm_append_singleton _ _).trans List.perm_middle.symm
      have hmv := hl.moved
      rw [← ha1, ← hc1] at hmv
      have hlabels : (st1.edges.map (·.label)).Nodup := by
        have h1 : (st1.edges.map (·.label)).Perm (edges.map (·.label)) := by
          have := hp1.map (·.label)
          simpa [List.map_map, Function.comp_def, noAlpha] using this
        exact h1.nodup_iff.2 hn
      have horig : ∀ x ∈ st1.edges, ∃ x0 ∈ edges, noAlpha x0 = noAlpha x := by
        intro x hx
        have : noAlpha x ∈ edges.map noAlpha := hp1.mem_iff.1 (List.mem_map_of_mem hx)
        obtain ⟨x0, h1, h2⟩ := List.mem_map.1 this
        exact ⟨x0, h1, h2⟩
      unfold tailE at h
      cases hnew : indexOf d.label (st1.edges.map (·.label)) with
      | error x => rw [hnew] at h; exact absurd h (by simp [bind, Except.bind])
      | ok newE =>
        rw [hnew] at h
        simp only [bind, Except.bind] at h
        cases hd1 : st1.edges[newE]? with
        | none => rw [hd1] at h; exact absurd h (by simp)
        | some d1 =>
          rw [hd1] at h
          dsimp only at h
          have hl1 : d1.label = d.label := by
            have := (indexOf_ok hnew).1
            rw [List.getElem?_map, hd1] at this
            simpa using this
          obtain ⟨d0, hd0, hd01⟩ := horig d1 (List.mem_of_getElem? hd1)
          have e_type : d0.type = d1.type := (congrArg Edge.type hd01 :)
          have e_ctype : d0.ctype = d1.ctype := (congrArg Edge.ctype hd01 :)
          have e_label : d0.label = d1.label := (congrArg Edge.label hd01 :)
          have huniq : ∀ x ∈ edges, x.label = d.label → x = d0 := by
            intro x hx hxl
            exact List.inj_on_of_nodup_map hn hx hd0 (by rw [hxl, e_label, hl1])
          by_cases hconn : d1.type = .connector
          · rw [if_pos hconn] at h
            cases hidx : indexOf (some d1.label) (st1.edges.map (·.link)) with
            | error x => rw [hidx] at h; exact absurd h (by simp)
            | ok j =>
              rw [hidx] at h
              dsimp only at h
              -- the state after the inversion of the ratio
              obtain ⟨st2, hst2, a2, b2, c2, hs2, ha2, hb2, hc2, he2⟩ : ∃ st2 : St K,
                  (if (isE && decide (d1.ctype = CType.gyrator)) = true then inverseAlpha st1 newE
                    else st1) = st2 ∧
                  ∃ a2 b2 c2, Shape st2 a2 b2 c2 ∧ a2.map noAlpha = a1.map noAlpha ∧
                  b2.map noAlpha = b1.map noAlpha ∧ c2.map noAlpha = c1.map noAlpha ∧
                  st2.edges.map noAlpha = st1.edges.map noAlpha := by
                refine ⟨_, rfl, ?_⟩
                split
                · have hE : (st1.edges.modify newE
                      fun d => { d with alpha := d.alpha.map (·⁻¹) }).map noAlpha =
                      st1.edges.map noAlpha := noAlpha_modify _ _ _ fun _ => rfl
                  obtain ⟨a2, b2, c2, g1, g2, g3, g4⟩ := hs1.congr hE
                  exact ⟨a2, b2, c2, g1, g2, g3, g4, hE⟩
                · exact ⟨a1, b1, c1, hs1, rfl, rfl, rfl, rfl⟩
              rw [hst2] at h
              have la2 := noAlpha_label ha2
              have lc2 := noAlpha_label hc2
              have hp2 : (st2.edges.map noAlpha).Perm (edges.map noAlpha) := by rw [he2]; exact hp1
              have hw : (if d1.ctype = CType.gyrator then isE else !isE) = want d0 isE := by
                unfold want; rw [e_ctype]
              rw [hw] at h
              -- the linked edge
              have hlk := (indexOf_ok hidx).1
              rw [← noAlpha_link he2] at hlk
              rw [List.getElem?_map] at hlk
              cases hd2 : st2.edges[j]? with
              | none => rw [hd2] at hlk; exact absurd hlk (by simp)
              | some d2 =>
                rw [hd2] at hlk
                have hlk2 : d2.link = some d1.label := by simpa using hlk
                have horig2 : ∃ x0 ∈ edges, noAlpha x0 = noAlpha d2 := by
                  have : noAlpha d2 ∈ edges.map noAlpha :=
                    hp2.mem_iff.1 (List.mem_map_of_mem (List.mem_of_getElem? hd2))
                  obtain ⟨x0, h1, h2⟩ := List.mem_map.1 this
                  exact ⟨x0, h1, h2⟩
                obtain ⟨d20, hd20, hd21⟩ := horig2
                have e2_link : d20.link = some d0.label := by
                  rw [e_label, ← hlk2]; exact (congrArg Edge.link hd21 :)
                have e2_label : d20.label = d2.label := (congrArg Edge.label hd21 :)
                -- the label of the edge itself is in one list only
                have hself : ∀ b, d0.label ∈ sel b (a1.map (·.label)) (c1.map (·.label)) → b = isE := by
                  intro b hb
                  rw [e_label, hl1] at hb
                  have hnd := hlabels
                  rw [hs1.edges, List.map_append, List.map_append] at hnd
                  have hdis : ∀ l ∈ a1.map (·.label), l ∉ c1.map (·.label) := by
                    intro l h1 h2
                    exact (List.nodup_append.1 hnd).2.2 l (List.mem_append_left _ h1) l h2 rfl
                  rcases isE with _ | _ <;> rcases b with _ | _
                  · rfl
                  · exact absurd (show d.label ∈ c1.map (·.label) by rw [hc1]; simp [mvC])
                      (hdis d.label hb)
                  · exact absurd (show d.label ∈ c1.map (·.label) from hb)
                      (hdis d.label (by rw [ha1]; simp [mvA]))
                  · rfl
                have key : ∀ x ∈ edges, ∀ x' ∈ edges, x.type = .connector →
                    x'.link = some x.label → ∀ b,
                    x.label ∈ sel b (a2.map (·.label)) (c2.map (·.label)) →
                    x'.label ∈ sel (want x b) (a2.map (·.label)) (c2.map (·.label)) ∨
                    (x'.label = d2.label ∧ want d0 isE = want x b) := by
                  intro x hx x' hx' ht hxl b hb
                  rw [la2, lc2] at hb ⊢
                  by_cases hx1 : x.label = d.label
                  · right
                    have hxd := huniq x hx hx1
                    subst hxd
                    have := hu x' hx' d20 hd20 _ hxl e2_link
                    rw [this, e2_label, hself b hb]
                    exact ⟨rfl, rfl⟩
                  · exact Or.inl (hmv x hx x' hx' ht hxl hx1 b hb)
                have done : d2.label ∈ sel (want d0 isE) (a2.map (·.label)) (c2.map (·.label)) →
                    Linked edges (a2.map (·.label)) (c2.map (·.label)) := by
                  intro hin x hx x' hx' ht hxl b hb
                  rcases key x hx x' hx' ht hxl b hb with h1 | ⟨h1, h2⟩
                  · exact h1
                  · rw [h1, ← h2]; exact hin
                generalize hlist : (if want d0 isE = true then st2.fc else st2.ec) = ls at h
                by_cases hbad : j ∈ ls
                · rw [if_pos hbad] at h; exact absurd h (by simp)
                · rw [if_neg hbad] at h
                  rcases shape_mem hs2 hd2 with ⟨h1, h2⟩ | ⟨p2, q2, h1, h2, h3⟩ | ⟨h1, h2⟩
                  · have hw2 : want d0 isE = true := by
                      by_contra hne
                      rw [if_neg hne] at hlist
                      exact hbad (hlist ▸ h1)
                    have hic : j ∉ st2.ic := by
                      rw [hs2.ec] at h1; rw [hs2.ic, List.mem_range'_1]
                      simp at h1; omega
                    rw [if_neg hic] at h
                    obtain rfl : st2 = st' := by simpa using h
                    refine ⟨a2, b2, c2, hs2, hp2, done ?_⟩
                    rw [hw2]; exact List.mem_map_of_mem h2
                  · rw [if_pos h3, h2] at h
                    subst h1
                    exact ih (want d0 isE) st2 st' a2 p2 d2 q2 c2 hs2 hp2 key h
                  · have hw2 : want d0 isE = false := by
                      by_contra hne
                      rw [Bool.not_eq_false] at hne
                      rw [if_pos hne] at hlist
                      exact hbad (hlist ▸ h1)
                    have hic : j ∉ st2.ic := by
                      rw [hs2.fc, List.mem_range'_1] at h1; rw [hs2.ic, List.mem_range'_1]
                      omega
                    rw [if_neg hic] at h
                    obtain rfl : st2 = st' := by simpa using h
                    refine ⟨a2, b2, c2, hs2, hp2, done ?_⟩
                    rw [hw2]; exact List.mem_map_of_mem h2
          · rw [if_neg hconn] at h
            obtain rfl : st1 = st' := by simpa using h
            refine ⟨a1, b1, c1, hs1, hp1, ?_⟩
            intro x hx x' hx' ht hxl b hb
            by_cases hx1 : x.label = d.label
            · rw [huniq x hx hx1, e_type] at ht
              exact absurd ht hconn
            · exact hmv x hx x' hx' ht hxl hx1 b hb

/-- What has to be kept by the elementary changes to be kept by the analysis. -/
structure Stable (P : St K → Prop) : Prop where
  marks : ∀ (st : St K) (L : List (List ℕ)) (icn : List ℕ), L.length = st.L.length → P st →
    P { st with L := L, icn := icn }
  set : ∀ (k : ℕ) (isE : Bool) (st : St K) (e : ℕ) (st' : St K), P st → e ∈ st.ic →
    setEdge k isE st e = .ok st' → P st'

theorem Stable.setNodeDc {P : St K → Prop} (h : Stable P) {st st' : St K} {n e : ℕ} (hP : P st)
    (hr : setNodeDc st n e = .ok st') : P st' := by
  unfold Graph.setNodeDc at hr
  dsimp only at hr
  have h1 := h.marks st (setEntry (zeroRow (zeroCol st.L e) n) n e 1)
    (if n ∈ st.icn then st.icn.erase n else st.icn)
    (by simp [setEntry, zeroRow, zeroCol]) hP
  split at hr
  · rename_i he
    exact h.set _ _ _ _ _ h1 he hr
  · obtain rfl := Except.ok.inj hr
    exact h1

theorem Stable.stepFc {P : St K → Prop} (h : Stable P) {st st' : St K} {e : ℕ} (hP : P st)
    (hr : stepFc st e = .ok st') : P st' := by
  unfold Graph.stepFc at hr
  split at hr
  · exact absurd hr (by simp)
  · split at hr
    · dsimp only at hr
      split at hr
      · exact h.setNodeDc hP hr
      · obtain rfl := Except.ok.inj hr; exact hP
    · obtain rfl := Except.ok.inj hr; exact hP

theorem Stable.iterateFc {P : St K → Prop} (h : Stable P) {st st' : St K} (hP : P st)
    (hr : iterateFc st = .ok st') : P st' := by
  unfold Graph.iterateFc at hr
  generalize st.fc = l at hr
  induction l generalizing st with
  | nil => obtain rfl := Except.ok.inj hr; exact hP
  | cons a l ih =>
    rw [List.foldlM_cons] at hr
    cases hs : Graph.stepFc st a with
    | error x => rw [hs] at hr; exact absurd hr (by simp [bind, Except.bind])
    | ok st1 =>
      rw [hs] at hr
      exact ih (h.stepFc hP hs) hr

theorem Stable.iterateIc {P : St K → Prop} (h : Stable P) {st' : St K} (k : ℕ) : ∀ (i : ℕ)
    (st : St K), P st → iterateIc k i st = .ok st' → P st' := by
  induction k with
  | zero => intro i st _ hr; exact absurd hr (by simp [Graph.iterateIc])
  | succ k ih =>
    intro i st hP hr
    unfold Graph.iterateIc at hr
    cases hi : st.ic[i]? with
    | none => rw [hi] at hr; obtain rfl := Except.ok.inj hr; exact hP
    | some e =>
      rw [hi] at hr
      dsimp only at hr
      split at hr
      · cases hs : setEdge (st.edges.length + 1) true st e with
        | error x => rw [hs] at hr; exact absurd hr (by simp [bind, Except.bind])
        | ok st1 =>
          rw [hs] at hr
          exact ih i st1 (h.set _ _ _ _ _ hP (List.mem_of_getElem? hi) hs) hr
      · exact ih _ st hP hr

theorem Stable.stepNode {P : St K → Prop} (h : Stable P) {st st' : St K} {n : ℕ} (hP : P st)
    (hr : stepNode st n = .ok st') : P st' := by
  unfold Graph.stepNode at hr
  split at hr
  · exact absurd hr (by simp)
  · split at hr
    · dsimp only at hr
      split at hr
      · exact absurd hr (by simp)
      · split at hr
        · exact h.setNodeDc hP hr
        · obtain rfl := Except.ok.inj hr; exact hP
    · obtain rfl := Except.ok.inj hr; exact hP

theorem Stable.iterateNodes {P : St K → Prop} (h : Stable P) {st' : St K} (k : ℕ) : ∀ (i : ℕ)
    (st : St K), P st → iterateNodes k i st = .ok st' → P st' := by
  induction k with
  | zero => intro i st _ hr; exact absurd hr (by simp [Graph.iterateNodes])
  | succ k ih =>
    intro i st hP hr
    unfold Graph.iterateNodes at hr
    cases hi : st.icn[i]? with
    | none => rw [hi] at hr; obtain rfl := Except.ok.inj hr; exact hP
    | some n =>
      rw [hi] at hr
      dsimp only at hr
      cases hs : Graph.stepNode st n with
      | error x => rw [hs] at hr; exact absurd hr (by simp [bind, Except.bind])
      | ok st1 =>
        rw [hs] at hr
        exact ih _ st1 (h.stepNode hP hs) hr

theorem Stable.pass {P : St K → Prop} (h : Stable P) {st st' : St K} (hP : P st)
    (hr : pass st = .ok st') : P st' := by
  unfold Graph.pass at hr
  cases h1 : Graph.iterateNodes (st.icn.length + 1) 0 st with
  | error x => rw [h1] at hr; exact absurd hr (by simp [bind, Except.bind])
  | ok st1 =>
    rw [h1] at hr
    replace hr : (Graph.iterateFc st1 >>= fun st => Graph.iterateIc (st.ic.length + 1) 0 st) =
      .ok st' := hr
    cases h2 : Graph.iterateFc st1 with
    | error x => rw [h2] at hr; exact absurd hr (by simp [bind, Except.bind])
    | ok st2 =>
      rw [h2] at hr
      exact h.iterateIc _ _ _ (h.iterateFc (h.iterateNodes _ _ _ hP h1) h2) hr

theorem Stable.iterationLoop {P : St K → Prop} (h : Stable P) (k : ℕ) : ∀ (temp : List (List ℕ))
    (st : St K) (r : St K × List (List ℕ)), P st → iterationLoop k temp st = .ok r → P r.1 := by
  induction k with
  | zero => intro temp st r _ hr; exact absurd hr (by simp [Graph.iterationLoop])
  | succ k ih =>
    intro temp st r hP hr
    unfold Graph.iterationLoop at hr
    split at hr
    · obtain rfl := Except.ok.inj hr; exact hP
    · cases hs : Graph.pass st with
      | error x => rw [hs] at hr; exact absurd hr (by simp [bind, Except.bind])
      | ok st1 =>
        rw [hs] at hr
        exact ih _ st1 r (h.pass hP hs) hr

theorem unlockIc_length (st : St K) (L : List (List ℕ)) (h : unlockIc st = .ok (some L)) :
    L.length = st.L.length := by
  have hgo : ∀ l, unlockIc.go st st.ec.length l = .ok (some L) → L.length = st.L.length := by
    intro l
    induction l with
    | nil => intro h; exact absurd h (by simp [unlockIc.go])
    | cons n ns ih =>
      intro h
      unfold unlockIc.go at h
      dsimp only at h
      split at h
      · split at h
        · exact absurd h (by simp)
        · split at h
          · obtain rfl : setEntry st.L _ _ 0 = L := by simpa using h
            simp [setEntry]
          · exact ih h
      · exact ih h
  exact hgo _ h

theorem unlockFc_length (st : St K) (L : List (List ℕ)) (h : unlockFc st = .ok (some L)) :
    L.length = st.L.length := by
  unfold unlockFc at h
  cases hi : st.ic with
  | nil => rw [hi] at h; exact absurd h (by simp)
  | cons i0 t =>
    rw [hi] at h
    have hgo : ∀ l, unlockFc.go st st.ec.length i0 l = .ok (some L) → L.length = st.L.length := by
      intro l
      induction l with
      | nil => intro h; exact absurd h (by simp [unlockFc.go])
      | cons n ns ih =>
        intro h
        unfold unlockFc.go at h
        dsimp only at h
        split at h
        · split at h
          · exact absurd h (by simp)
          · split at h
            · obtain rfl : setEntry st.L _ _ 0 = L := by simpa using h
              simp [setEntry]
            · exact ih h
        · exact ih h
    exact hgo _ h

theorem Stable.unlock {P : St K → Prop} (h : Stable P) {st st' : St K} (hP : P st)
    (hr : unlock st = .ok st') : P st' := by
  unfold Graph.unlock at hr
  cases h1 : unlockIc st with
  | error x => rw [h1] at hr; exact absurd hr (by simp [bind, Except.bind])
  | ok o =>
    rw [h1] at hr
    cases o with
    | some L =>
      obtain rfl := Except.ok.inj hr
      exact h.marks st L st.icn (unlockIc_length st L h1) hP
    | none =>
      cases h2 : unlockFc st with
      | error x => rw [h2] at hr; exact absurd hr (by simp [bind, Except.bind])
      | ok o =>
        rw [h2] at hr
        cases o with
        | some L =>
          obtain rfl := Except.ok.inj hr
          exact h.marks st L st.icn (unlockFc_length st L h2) hP
        | none => exact absurd hr (by simp [bind, Except.bind])

theorem Stable.performLoop {P : St K → Prop} (h : Stable P) {st' : St K} (k : ℕ) : ∀ (st : St K),
    P st → performLoop k st = .ok st' → P st' := by
  induction k with
  | zero => intro st _ hr; exact absurd hr (by simp [Graph.performLoop])
  | succ k ih =>
    intro st hP hr
    unfold Graph.performLoop at hr
    split at hr
    · cases h1 : iteration k st with
      | error x => rw [h1] at hr; exact absurd hr (by simp [bind, Except.bind])
      | ok p =>
        rw [h1] at hr
        obtain ⟨st1, temp⟩ := p
        have hP1 : P st1 := h.iterationLoop _ _ _ _ hP h1
        replace hr : (if (isequal temp st1.L && decide (st1.ic.length + st1.icn.length > 0)) = true
          then (Graph.unlock st1 >>= fun st => Graph.performLoop k st)
          else Graph.performLoop k st1) = .ok st' := hr
        split at hr
        · cases h2 : Graph.unlock st1 with
          | error x => rw [h2] at hr; exact absurd hr (by simp [bind, Except.bind])
          | ok st2 =>
            rw [h2] at hr
            exact ih st2 (h.unlock hP1 h2) hr
        · exact ih st1 hP1 hr
    · obtain rfl := Except.ok.inj hr; exact hP

theorem Stable.initLoop {P : St K → Prop} (h : Stable P) {st' : St K} (k : ℕ) : ∀ (i : ℕ)
    (st : St K), P st → initLoop k i st = .ok st' → P st' := by
  induction k with
  | zero => intro i st _ hr; exact absurd hr (by simp [Graph.initLoop])
  | succ k ih =>
    intro i st hP hr
    unfold Graph.initLoop at hr
    cases hi : st.ic[i]? with
    | none => rw [hi] at hr; obtain rfl := Except.ok.inj hr; exact hP
    | some e =>
      rw [hi] at hr
      dsimp only at hr
      cases hd : st.edges[e]? with
      | none => rw [hd] at hr; exact absurd hr (by simp)
      | some d =>
        rw [hd] at hr
        dsimp only at hr
        cases hc : d.ctrl with
        | e =>
          rw [hc] at hr
          dsimp only at hr
          cases hs : setEdge (st.edges.length + 1) true st e with
          | error x => rw [hs] at hr; exact absurd hr (by simp [bind, Except.bind])
          | ok st1 =>
            rw [hs] at hr
            exact ih i st1 (h.set _ _ _ _ _ hP (List.mem_of_getElem? hi) hs) hr
        | f =>
          rw [hc] at hr
          dsimp only at hr
          split at hr
          · split at hr
            · cases hs : Graph.setNodeDc st ((st.L.getD e []).idxOf 1) e with
              | error x => rw [hs] at hr; exact absurd hr (by simp [bind, Except.bind])
              | ok st1 =>
                rw [hs] at hr
                exact ih i st1 (h.setNodeDc hP hs) hr
            · exact ih _ st hP hr
          · cases hs : setEdge (st.edges.length + 1) false st e with
            | error x => rw [hs] at hr; exact absurd hr (by simp [bind, Except.bind])
            | ok st1 =>
              rw [hs] at hr
              exact ih i st1 (h.set _ _ _ _ _ hP (List.mem_of_getElem? hi) hs) hr
        | unknown => rw [hc] at hr; exact ih _ st hP hr

theorem linkedSt_stable {edges : List (Edge K)} (hn : (edges.map (·.label)).Nodup)
    (hu : LinksUnique edges) : Stable (LinkedSt edges) := by
  constructor
  · rintro st L icn hL ⟨a, b, c, hs, hp, hl⟩
    exact ⟨a, b, c, ⟨hs.edges, hs.G, hL.trans hs.L, hs.ec, hs.ic, hs.fc⟩, hp, hl⟩
  · rintro k isE st e st' ⟨a, b, c, hs, hp, hl⟩ he hr
    have hlt : e < st.edges.length := by
      rw [hs.ic, List.mem_range'_1] at he
      rw [hs.edges]; simp; omega
    rcases shape_mem hs (List.getElem?_eq_getElem hlt) with ⟨h1, _⟩ | ⟨p, q, h1, h2, _⟩ | ⟨h1, _⟩
    · rw [hs.ec] at h1; rw [hs.ic, List.mem_range'_1] at he
      simp at h1; omega
    · subst h1
      rw [h2] at hr
      exact setEdge_linked hn hu k isE st st' a p _ q c hs hp (hl.but _ _) hr
    · rw [hs.fc, List.mem_range'_1] at h1; rw [hs.ic, List.mem_range'_1] at he
      omega

/-- After the analysis, partners have matching controls. -/
theorem analyse_linked {fuel : ℕ} {nodes : List String} {edges : List (Edge K)} {st : St K}
    (hdat : datum ∈ nodes) (hn : (edges.map (·.label)).Nodup) (hu : LinksUnique edges)
    (h : analyse fuel nodes edges = .ok st) : LinkedSt edges st := by
  unfold analyse init at h
  obtain ⟨st0, I, h0, _, hr⟩ := start_rep nodes edges hdat
  rw [h0] at h
  replace h : (initLoop fuel 0 st0 >>= fun st => performLoop fuel st) = .ok st := h
  have hst := linkedSt_stable hn hu
  have hP0 : LinkedSt edges st0 := by
    refine ⟨_, _, _, hr.1.shape, ?_, ?_⟩
    · rw [hr.1.edges]
      simp [Function.comp_def, startCol]
    · intro d _ d' _ _ _ b hb
      cases b <;> simp [sel] at hb
  cases h1 : initLoop fuel 0 st0 with
  | error x => rw [h1] at h; exact absurd h (by simp [bind, Except.bind])
  | ok st1 =>
    rw [h1] at h
    exact hst.performLoop _ _ (hst.initLoop _ _ _ hP0 h1) h

end inv
end Graph
end Pyphs
