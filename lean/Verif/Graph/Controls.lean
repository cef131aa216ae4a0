/-
C60: the controls given by the components are those of the analysis.
-/
import Verif.Graph.Connectors

namespace Pyphs
namespace Graph

variable {K : Type}

/-- No edge has a control other than the one it was given. -/
structure Respects (a b c : List (Edge K)) : Prop where
  ec : ∀ d ∈ a, d.ctrl ≠ .f
  ic : ∀ d ∈ b, d.ctrl = .unknown
  fc : ∀ d ∈ c, d.ctrl ≠ .e

/-- The same for a state. -/
def RespectsSt (st : St K) : Prop :=
  (st.edges.map (·.label)).Nodup ∧ ∃ a b c, Shape st a b c ∧ Respects a b c

section inv
variable [Inv K]

omit [Inv K] in
theorem ctrl_of_noAlpha {l l' : List (Edge K)} (h : l.map noAlpha = l'.map noAlpha) {P : Ctrl → Prop}
    (hp : ∀ d ∈ l', P d.ctrl) : ∀ d ∈ l, P d.ctrl := by
  intro d hd
  have : noAlpha d ∈ l'.map noAlpha := by rw [← h]; exact List.mem_map_of_mem hd
  obtain ⟨x, hx, he⟩ := List.mem_map.1 this
  have e : x.ctrl = d.ctrl := (congrArg Edge.ctrl he :)
  rw [← e]; exact hp x hx

/-- The move of an edge at the level of the lists. -/
theorem shape_move {k : ℕ} {isE : Bool} {st st' : St K} {a p q c : List (Edge K)} {d : Edge K}
    (hs : Shape st a (p ++ d :: q) c)
    (h : setEdge (k + 1) isE st (a.length + p.length) = .ok st') :
    ∃ st1, tailE k isE d.label st1 = .ok st' ∧
      Shape st1 (if isE then d :: a else a) (p ++ q) (if isE then c else c ++ [d]) ∧
      (st1.edges).Perm st.edges := by
  rw [setEdge_succ] at h
  have hget : st.edges[a.length + p.length]? = some d := by rw [hs.edges]; simp
  rw [hget] at h
  dsimp only at h
  cases hm : (if isE = true then moveEc st (a.length + p.length)
      else moveFc st (a.length + p.length)) with
  | error x => rw [hm] at h; exact absurd h (by simp [bind, Except.bind])
  | ok st1 =>
    rw [hm] at h
    refine ⟨st1, h, ?_⟩
    cases isE with
    | true =>
      have hs1 := shape_moveEc hs (by simpa using hm)
      refine ⟨hs1, ?_⟩
      rw [hs1.edges, hs.edges]
      have : a ++ (p ++ d :: q) ++ c = (a ++ p) ++ d :: (q ++ c) := by simp
      rw [this]
      refine List.Perm.trans ?_ List.perm_middle.symm
      simp
    | false =>
      have hs1 := shape_moveFc hs (by simpa using hm)
      refine ⟨hs1, ?_⟩
      rw [hs1.edges, hs.edges]
      have e1 : a ++ (p ++ d :: q) ++ c = (a ++ p) ++ d :: (q ++ c) := by simp
      have e2 : a ++ (p ++ q) ++ (c ++ [d]) = (a ++ p ++ (q ++ c)) ++ [d] := by simp
      rw [e1, e2]
      exact (List.perm_append_singleton _ _).trans List.perm_middle.symm

/-- An edge that is not a connector moves alone. -/
theorem setEdge_plain {k : ℕ} {isE : Bool} {st st' : St K} {a p q c : List (Edge K)} {d : Edge K}
    (hs : Shape st a (p ++ d :: q) c) (hn : (st.edges.map (·.label)).Nodup)
    (ht : d.type ≠ .connector) (h : setEdge (k + 1) isE st (a.length + p.length) = .ok st') :
    Shape st' (if isE then d :: a else a) (p ++ q) (if isE then c else c ++ [d]) ∧
      (st'.edges).Perm st.edges := by
  obtain ⟨st1, h1, hs1, hp⟩ := shape_move hs h
  have hn1 : (st1.edges.map (·.label)).Nodup := (hp.map _).nodup_iff.2 hn
  unfold tailE at h1
  cases hnew : indexOf d.label (st1.edges.map (·.label)) with
  | error x => rw [hnew] at h1; exact absurd h1 (by simp [bind, Except.bind])
  | ok newE =>
    rw [hnew] at h1
    simp only [bind, Except.bind] at h1
    cases hd1 : st1.edges[newE]? with
    | none => rw [hd1] at h1; exact absurd h1 (by simp)
    | some d1 =>
      rw [hd1] at h1
      dsimp only at h1
      have hl1 : d1.label = d.label := by
        have := (indexOf_ok hnew).1
        rw [List.getElem?_map, hd1] at this
        simpa using this
      have hmem : d ∈ st1.edges := by
        rw [hp.mem_iff, hs.edges]; simp
      have : d1 = d := List.inj_on_of_nodup_map hn1 (List.mem_of_getElem? hd1) hmem hl1
      rw [this, if_neg ht] at h1
      obtain rfl : st1 = st' := by simpa using h1
      exact ⟨hs1, hp⟩

theorem setEdge_respects : ∀ (k : ℕ) (isE : Bool) (st st' : St K) (a p : List (Edge K)) (d : Edge K)
    (q c : List (Edge K)), Shape st a (p ++ d :: q) c → (st.edges.map (·.label)).Nodup →
    Respects a (p ++ d :: q) c → setEdge k isE st (a.length + p.length) = .ok st' →
    RespectsSt st' := by
  intro k
  induction k with
  | zero => intro isE st st' a p d q c _ _ _ h; exact absurd h (by simp [setEdge])
  | succ k ih =>
    intro isE st st' a p d q c hs hn hr h
    obtain ⟨st1, h1, hs1, hp⟩ := shape_move hs h
    have hn1 : (st1.edges.map (·.label)).Nodup := (hp.map _).nodup_iff.2 hn
    have hr1 : Respects (if isE then d :: a else a) (p ++ q) (if isE then c else c ++ [d]) := by
      have hd : d.ctrl = .unknown := hr.ic d (by simp)
      refine ⟨?_, fun x hx => hr.ic x (by
        rcases List.mem_append.1 hx with h | h <;> simp [h]), ?_⟩
      · intro x hx
        split at hx
        · rcases List.mem_cons.1 hx with rfl | hx
          · rw [hd]; decide
          · exact hr.ec x hx
        · exact hr.ec x hx
      · intro x hx
        split at hx
        · exact hr.fc x hx
        · rcases List.mem_append.1 hx with hx | hx
          · exact hr.fc x hx
          · rw [List.mem_singleton.1 hx, hd]; decide
    generalize (if isE then d :: a else a) = a1 at hs1 hr1
    generalize (if isE then c else c ++ [d]) = c1 at hs1 hr1
    generalize p ++ q = b1 at hs1 hr1
    unfold tailE at h1
    cases hnew : indexOf d.label (st1.edges.map (·.label)) with
    | error x => rw [hnew] at h1; exact absurd h1 (by simp [bind, Except.bind])
    | ok newE =>
      rw [hnew] at h1
      simp only [bind, Except.bind] at h1
      cases hd1 : st1.edges[newE]? with
      | none => rw [hd1] at h1; exact absurd h1 (by simp)
      | some d1 =>
        rw [hd1] at h1
        dsimp only at h1
        by_cases hconn : d1.type = .connector
        · rw [if_pos hconn] at h1
          cases hidx : indexOf (some d1.label) (st1.edges.map (·.link)) with
          | error x => rw [hidx] at h1; exact absurd h1 (by simp)
          | ok j =>
            rw [hidx] at h1
            dsimp only at h1
            obtain ⟨st2, hst2, a2, b2, c2, hs2, ha2, hb2, hc2, he2⟩ : ∃ st2 : St K,
                (if (isE && decide (d1.ctype = CType.gyrator)) = true then inverseAlpha st1 newE
                  else st1) = st2 ∧
                ∃ a2 b2 c2, Shape st2 a2 b2 c2 ∧ a2.map noAlpha = a1.map noAlpha ∧
                b2.map noAlpha = b1.map noAlpha ∧ c2.map noAlpha = c1.map noAlpha ∧
                st2.edges.map noAlpha = st1.edges.map noAlpha := by
              refine ⟨_, rfl, ?_⟩
              split
              · have hE : (st1.edges.modify newE
                    fun d => { d with alpha := d.alpha.map (·⁻¹) }).map noAlpha =
                    st1.edges.map noAlpha := noAlpha_modify _ _ _ fun _ => rfl
                obtain ⟨a2, b2, c2, g1, g2, g3, g4⟩ := hs1.congr hE
                exact ⟨a2, b2, c2, g1, g2, g3, g4, hE⟩
              · exact ⟨a1, b1, c1, hs1, rfl, rfl, rfl, rfl⟩
            rw [hst2] at h1
            have hn2 : (st2.edges.map (·.label)).Nodup := by rw [noAlpha_label he2]; exact hn1
            have hr2 : Respects a2 b2 c2 :=
              ⟨ctrl_of_noAlpha (P := (· ≠ .f)) ha2 hr1.ec,
                ctrl_of_noAlpha (P := (· = .unknown)) hb2 hr1.ic,
                ctrl_of_noAlpha (P := (· ≠ .e)) hc2 hr1.fc⟩
            generalize (if d1.ctype = CType.gyrator then isE else !isE) = tg at h1
            generalize hls : (if tg = true then st2.fc else st2.ec) = ls at h1
            by_cases hbad : j ∈ ls
            · rw [if_pos hbad] at h1; exact absurd h1 (by simp)
            · rw [if_neg hbad] at h1
              by_cases hic : j ∈ st2.ic
              · rw [if_pos hic] at h1
                have hlt : j < st2.edges.length := by
                  rw [hs2.ic, List.mem_range'_1] at hic
                  rw [hs2.edges]; simp; omega
                rcases shape_mem hs2 (List.getElem?_eq_getElem hlt) with
                  ⟨g, _⟩ | ⟨p2, q2, g1, g2, _⟩ | ⟨g, _⟩
                · rw [hs2.ec] at g; rw [hs2.ic, List.mem_range'_1] at hic
                  simp at g; omega
                · subst g1
                  rw [g2] at h1
                  exact ih tg st2 st' a2 p2 _ q2 c2 hs2 hn2 hr2 h1
                · rw [hs2.fc, List.mem_range'_1] at g; rw [hs2.ic, List.mem_range'_1] at hic
                  omega
              · rw [if_neg hic] at h1
                obtain rfl : st2 = st' := by simpa using h1
                exact ⟨hn2, a2, b2, c2, hs2, hr2⟩
        · rw [if_neg hconn] at h1
          obtain rfl : st1 = st' := by simpa using h1
          exact ⟨hn1, a1, b1, c1, hs1, hr1⟩

theorem respectsSt_stable : Stable (RespectsSt (K := K)) := by
  constructor
  · rintro st L icn hL ⟨hn, a, b, c, hs, hr⟩
    exact ⟨hn, a, b, c, ⟨hs.edges, hs.G, hL.trans hs.L, hs.ec, hs.ic, hs.fc⟩, hr⟩
  · rintro k isE st e st' ⟨hn, a, b, c, hs, hr⟩ he h
    have hlt : e < st.edges.length := by
      rw [hs.ic, List.mem_range'_1] at he
      rw [hs.edges]; simp; omega
    rcases shape_mem hs (List.getElem?_eq_getElem hlt) with ⟨h1, _⟩ | ⟨p, q, h1, h2, _⟩ | ⟨h1, _⟩
    · rw [hs.ec] at h1; rw [hs.ic, List.mem_range'_1] at he
      simp at h1; omega
    · subst h1
      rw [h2] at h
      exact setEdge_respects k isE st st' a p _ q c hs hn hr h
    · rw [hs.fc, List.mem_range'_1] at h1; rw [hs.ic, List.mem_range'_1] at he
      omega

/-- The first loop gives each edge its control. -/
theorem initLoop_respects : ∀ (k i : ℕ) (st st' : St K) (a b c : List (Edge K)), Shape st a b c →
    (st.edges.map (·.label)).Nodup → (∀ d ∈ b, d.type = .connector → d.ctrl = .unknown) →
    (∀ d ∈ a, d.ctrl ≠ .f) → (∀ d ∈ c, d.ctrl ≠ .e) → (∀ d ∈ b.take i, d.ctrl = .unknown) →
    initLoop k i st = .ok st' → RespectsSt st' := by
  intro k
  induction k with
  | zero => intro i st st' a b c _ _ _ _ _ _ h; exact absurd h (by simp [initLoop])
  | succ k ih =>
    intro i st st' a b c hs hn hcon ha hc hb h
    unfold initLoop at h
    cases hi : st.ic[i]? with
    | none =>
      rw [hi] at h
      obtain rfl := Except.ok.inj h
      have hle : b.length ≤ i := by
        have := List.getElem?_eq_none_iff.1 hi
        rw [hs.ic] at this
        simpa using this
      rw [List.take_of_length_le hle] at hb
      exact ⟨hn, a, b, c, hs, ha, hb, hc⟩
    | some e =>
      have hib : i < b.length := by
        have := (List.getElem?_eq_some_iff.1 hi).1
        rw [hs.ic] at this
        simpa using this
      have he : e = a.length + i := by
        have hi' := hi
        rw [hs.ic, List.getElem?_range' hib] at hi'
        simpa using (Option.some.inj hi').symm
      have hbsplit : b = b.take i ++ b[i] :: b.drop (i + 1) := by
        rw [List.getElem_cons_drop, List.take_append_drop]
      have hpl : (b.take i).length = i := by rw [List.length_take]; omega
      have hget : st.edges[e]? = some b[i] := by
        rw [hs.edges, he, List.append_assoc, List.getElem?_append_right (by omega),
          Nat.add_sub_cancel_left, List.getElem?_append_left hib]
        exact List.getElem?_eq_getElem hib
      rw [hi] at h
      simp only [hget] at h
      generalize b[i] = d at hget hbsplit h
      generalize b.take i = p at hbsplit hpl hb
      generalize b.drop (i + 1) = q at hbsplit
      subst hbsplit
      -- continuation after the move of the edge
      have cont : ∀ (isE : Bool) (st1 : St K), Shape st1 a (p ++ d :: q) c →
          st1.edges = st.edges → d.ctrl ≠ .unknown → (isE = true → d.ctrl = .e) →
          (isE = false → d.ctrl = .f) →
          (setEdge (st1.edges.length + 1) isE st1 e >>= fun st => initLoop k i st) = .ok st' →
          RespectsSt st' := by
        intro isE st1 hs1 hed hu h1 h2 hr
        have hty : d.type ≠ .connector := fun ht => hu (hcon d (by simp) ht)
        cases hse : setEdge (st1.edges.length + 1) isE st1 e with
        | error x => rw [hse] at hr; exact absurd hr (by simp [bind, Except.bind])
        | ok st2 =>
          rw [hse] at hr
          rw [he, ← hpl] at hse
          obtain ⟨hs2, hp2⟩ := setEdge_plain hs1 (by rw [hed]; exact hn) hty hse
          refine ih i st2 st' _ _ _ hs2 ?_ ?_ ?_ ?_ ?_ hr
          · refine (hp2.map _).nodup_iff.2 ?_
            rw [hed]; exact hn
          · intro x hx ht
            exact hcon x (by rcases List.mem_append.1 hx with h | h <;> simp [h]) ht
          · intro x hx
            cases isE with
            | true =>
              rcases List.mem_cons.1 hx with rfl | hx
              · rw [h1 rfl]; decide
              · exact ha x hx
            | false => exact ha x hx
          · intro x hx
            cases isE with
            | true => exact hc x hx
            | false =>
              rcases List.mem_append.1 hx with hx | hx
              · exact hc x hx
              · rw [List.mem_singleton.1 hx, h2 rfl]; decide
          · intro x hx
            rw [List.take_append_of_le_length (by omega), List.take_of_length_le (by omega)] at hx
            exact hb x hx
      cases hctrl : d.ctrl with
      | e =>
        rw [hctrl] at h
        exact cont true st hs rfl (by rw [hctrl]; decide) (fun _ => hctrl) (fun h => by cases h) h
      | f =>
        rw [hctrl] at h
        dsimp only at h
        split at h
        · split at h
          · unfold setNodeDc at h
            dsimp only at h
            have hin : e ∈ st.ic := List.mem_of_getElem? hi
            rw [if_pos hin] at h
            have hL : (setEntry (zeroRow (zeroCol st.L e) ((st.L.getD e []).idxOf 1))
                ((st.L.getD e []).idxOf 1) e 1).length = st.L.length := by
              simp [setEntry, zeroRow, zeroCol]
            exact cont false { st with
                L := setEntry (zeroRow (zeroCol st.L e) ((st.L.getD e []).idxOf 1))
                  ((st.L.getD e []).idxOf 1) e 1
                icn := if (st.L.getD e []).idxOf 1 ∈ st.icn then
                  st.icn.erase ((st.L.getD e []).idxOf 1) else st.icn }
              ⟨hs.edges, hs.G, hL.trans hs.L, hs.ec, hs.ic, hs.fc⟩ rfl (by rw [hctrl]; decide)
              (fun h => by cases h) (fun _ => hctrl) h
          · refine ih i st st' _ _ _ hs hn hcon ha hc ?_ h
            intro x hx
            rw [List.take_append_of_le_length (by omega), List.take_of_length_le (by omega)] at hx
            exact hb x hx
        · exact cont false st hs rfl (by rw [hctrl]; decide) (fun h => by cases h)
            (fun _ => hctrl) h
      | unknown =>
        rw [hctrl] at h
        refine ih (i + 1) st st' _ _ _ hs hn hcon ha hc ?_ h
        intro x hx
        rw [List.take_append, List.take_of_length_le (by omega)] at hx
        rcases List.mem_append.1 hx with hx | hx
        · exact hb x hx
        · have : i + 1 - p.length = 1 := by omega
          rw [this] at hx
          simp at hx
          rw [hx]; exact hctrl

/-- C60. If the analysis of a graph succeeds, each edge whose component gives it a control has this
control. -/
theorem C60_prescribed {nodes : List String} {edges : List (Edge K)} {st : St K} {fuel : ℕ}
    (hd : datum ∈ nodes) (hl : (edges.map (·.label)).Nodup)
    (hcon : ∀ d ∈ edges, d.type = .connector → d.ctrl = .unknown)
    (h : analyse fuel nodes edges = .ok st) {d : Edge K} (hm : d ∈ edges) :
    (d.ctrl = .e → d.label ∈ st.ec.map (lab st) ∧ d.label ∉ st.fc.map (lab st)) ∧
    (d.ctrl = .f → d.label ∈ st.fc.map (lab st) ∧ d.label ∉ st.ec.map (lab st)) := by
  have key : RespectsSt st := by
    have h' := h
    unfold analyse init at h'
    obtain ⟨st0, I, h0, _, hr⟩ := start_rep nodes edges hd
    rw [h0] at h'
    replace h' : (initLoop fuel 0 st0 >>= fun st => performLoop fuel st) = .ok st := h'
    cases h1 : initLoop fuel 0 st0 with
    | error x => rw [h1] at h'; exact absurd h' (by simp [bind, Except.bind])
    | ok st1 =>
      rw [h1] at h'
      have hed : st0.edges = edges := by rw [hr.1.edges]; simp [Function.comp_def, startCol]
      refine respectsSt_stable.performLoop _ _ ?_ h'
      refine initLoop_respects fuel 0 st0 st1 _ _ _ hr.1.shape (by rw [hed]; exact hl) ?_
        (by simp) (by simp) (by simp) h1
      intro x hx
      refine hcon x ?_
      simpa [Function.comp_def, startCol] using hx
  obtain ⟨hn, a, b, c, hs, hr⟩ := key
  obtain ⟨hp, hic, hord⟩ := C39_analysis hd hl h
  have hb : b = [] := by
    rw [hs.ic] at hic
    exact List.length_eq_zero_iff.1 (by simpa using congrArg List.length hic)
  obtain ⟨x, hx, he⟩ : ∃ x ∈ st.edges, noAlpha x = noAlpha d := by
    have : noAlpha d ∈ st.edges.map noAlpha := hp.sameEdges.mem_iff.2 (List.mem_map_of_mem hm)
    exact List.mem_map.1 this
  have ectrl : x.ctrl = d.ctrl := (congrArg Edge.ctrl he :)
  have hlabel : x.label = d.label := (congrArg Edge.label he :)
  obtain ⟨i, hi, hix⟩ := List.getElem_of_mem hx
  have hlab : lab st i = d.label := by simp [lab, List.getElem?_eq_getElem hi, hix, hlabel]
  have hlt : ∀ j, j ∈ st.ec ++ st.fc → j < st.edges.length := by
    intro j hj
    have : st.edges.length = edges.length := by simpa using hp.sameEdges.length_eq
    rw [hord] at hj
    rw [this]; exact List.mem_range.1 hj
  have hone : ∀ j, j ∈ st.ec ++ st.fc → lab st j = d.label → j = i := by
    intro j hj hjl
    have hjlt := hlt j hj
    refine (List.getElem?_inj (by simpa using hjlt) hn).1 ?_
    rw [List.getElem?_map, List.getElem?_map, List.getElem?_eq_getElem hi,
      List.getElem?_eq_getElem hjlt]
    have e1 : st.edges[j].label = d.label := by
      rw [← hjl]; simp [lab, List.getElem?_eq_getElem hjlt]
    simp [e1, hix, hlabel]
  have hdisj : ∀ j ∈ st.ec, j ∉ st.fc := by
    intro j h1 h2
    have hnd : (st.ec ++ st.fc).Nodup := by rw [hord]; exact List.nodup_range
    exact (List.nodup_append.1 hnd).2.2 j h1 j h2 rfl
  have hcases := shape_mem hs (List.getElem?_eq_getElem hi)
  rw [hix] at hcases
  rcases hcases with ⟨h1, h2⟩ | ⟨p, q, h1, _, _⟩ | ⟨h1, h2⟩
  · have hnf := hr.ec x h2
    rw [ectrl] at hnf
    refine ⟨fun _ => ⟨hlab ▸ List.mem_map_of_mem h1, ?_⟩, fun hf => absurd hf hnf⟩
    intro hm
    obtain ⟨j, hj, hjl⟩ := List.mem_map.1 hm
    have := hone j (List.mem_append_right _ hj) hjl
    exact hdisj i h1 (this ▸ hj)
  · rw [hb] at h1; exact absurd h1 (by simp)
  · have hnf := hr.fc x h2
    rw [ectrl] at hnf
    refine ⟨fun hf => absurd hf hnf, fun _ => ⟨hlab ▸ List.mem_map_of_mem h1, ?_⟩⟩
    intro hm
    obtain ⟨j, hj, hjl⟩ := List.mem_map.1 hm
    have := hone j (List.mem_append_left _ hj) hjl
    exact hdisj i (this ▸ hj) h1

end inv

/-- The hypotheses on a graph with sources of effort and of flux and a transformer. -/
example : datum ∈ gyrNodes ∧ ((trEdges .e .f).map (·.label)).Nodup ∧
    (∀ d ∈ trEdges .e .f, d.type = .connector → d.ctrl = .unknown) ∧
    (run gyrNodes (trEdges .e .f) gyrCore).map (·.1) = some ["g2", "s1"] :=
  ⟨by decide, tr_labels _ _, by simp [trEdges], by decide +kernel⟩

end Graph
end Pyphs
