/-
The ratios of the connectors do not influence the analysis.
-/
import Verif.Graph.Props

namespace Pyphs
namespace Graph
open Core (reorder)

variable {K : Type} [Inv K]

/-- The state without the ratios. -/
def St.er (st : St K) : St K := { st with edges := st.edges.map noAlpha }

theorem map_bind_er {α β γ : Type} (x : Except Err α) (f : α → Except Err β) (g : β → γ) :
    Except.map g (x >>= f) = x >>= fun a => Except.map g (f a) := by
  cases x <;> rfl

theorem bind_map_er {α β γ : Type} (x : Except Err α) (g : α → β) (f : β → Except Err γ) :
    Except.map g x >>= f = x >>= fun a => f (g a) := by
  cases x <;> rfl

theorem reorder_map' {α β : Type} (f : α → β) (new : List ℕ) (l : List α) :
    reorder new (l.map f) = (reorder new l).map (List.map f) := by
  unfold reorder
  induction new with
  | nil => simp
  | cons a new ih =>
    rw [List.mapM_cons, List.mapM_cons, ih, List.getElem?_map]
    cases l[a]? with
    | none => rfl
    | some b =>
      cases new.mapM fun k => l[k]? with
      | none => rfl
      | some r => rfl

omit [Inv K] in
theorem moveEdge_er (st : St K) (i f : ℕ) :
    moveEdge st.er i f = (moveEdge st i f).map St.er := by
  unfold moveEdge
  simp only [St.er, List.length_map, reorder_map']
  cases myrange st.edges.length i f with
  | none => rfl
  | some new =>
    dsimp only
    cases reorder new st.G <;> cases reorder new st.L <;> cases reorder new st.edges <;> rfl

omit [Inv K] in
theorem moveEc_er (st : St K) (e : ℕ) : moveEc st.er e = (moveEc st e).map St.er := by
  unfold moveEc
  rw [moveEdge_er, map_bind_er, bind_map_er]
  cases moveEdge st e 0 with
  | error x => rfl
  | ok st => simp [St.er, Except.map, bind, Except.bind]

omit [Inv K] in
theorem moveFc_er (st : St K) (e : ℕ) : moveFc st.er e = (moveFc st e).map St.er := by
  unfold moveFc
  have : st.er.edges.length = st.edges.length := by simp [St.er]
  rw [this, moveEdge_er, map_bind_er, bind_map_er]
  cases moveEdge st e (st.edges.length - 1) with
  | error x => rfl
  | ok st => simp [St.er, Except.map, bind, Except.bind]

theorem inverseAlpha_er (st : St K) (e : ℕ) : inverseAlpha st.er e = (inverseAlpha st e).er := by
  unfold inverseAlpha St.er
  congr 1
  apply List.ext_getElem?
  intro i
  simp only [List.getElem?_modify, List.getElem?_map]
  cases st.edges[i]? with
  | none => rfl
  | some d =>
    by_cases h : e = i
    · simp [h, noAlpha]
    · simp [h]

omit [Inv K] in
theorem er_labels (st : St K) : st.er.edges.map (·.label) = st.edges.map (·.label) := by
  simp [St.er, Function.comp_def, noAlpha]

omit [Inv K] in
theorem er_links (st : St K) : st.er.edges.map (·.link) = st.edges.map (·.link) := by
  simp [St.er, Function.comp_def, noAlpha]

/-- What `setEdge` does after the move. -/
def tailE (k : ℕ) (isE : Bool) (label : String) (st : St K) : Except Err (St K) := do
  let newE ← indexOf label (st.edges.map (·.label))
  match st.edges[newE]? with
  | none => .error .index
  | some d =>
    if d.type = .connector then do
      let linkE ← indexOf (some d.label) (st.edges.map (·.link))
      let gyr := d.ctype = .gyrator
      let st := if isE && gyr then inverseAlpha st newE else st
      let target := if gyr then isE else !isE
      if linkE ∈ (if target then st.fc else st.ec) then .error .assertion
      else if linkE ∈ st.ic then setEdge k target st linkE
      else .ok st
    else .ok st

theorem setEdge_succ (k : ℕ) (isE : Bool) (st : St K) (e : ℕ) :
    setEdge (k + 1) isE st e = match st.edges[e]? with
      | none => .error .index
      | some d => (if isE then moveEc st e else moveFc st e) >>= tailE k isE d.label := by
  rw [setEdge]
  cases st.edges[e]? with
  | none => rfl
  | some d => cases isE <;> rfl

theorem setEdge_er (k : ℕ) (isE : Bool) (st : St K) (e : ℕ) :
    setEdge k isE st.er e = (setEdge k isE st e).map St.er := by
  induction k generalizing isE st e with
  | zero => rfl
  | succ k ih =>
    rw [setEdge_succ, setEdge_succ]
    have he : st.er.edges[e]? = st.edges[e]?.map noAlpha := by simp [St.er]
    rw [he]
    cases st.edges[e]? with
    | none => rfl
    | some d =>
      dsimp only [Option.map_some]
      have hm : (if isE = true then moveEc st.er e else moveFc st.er e) =
          (if isE = true then moveEc st e else moveFc st e).map St.er := by
        cases isE <;> simp [moveEc_er, moveFc_er]
      rw [hm, bind_map_er, map_bind_er]
      cases (if isE = true then moveEc st e else moveFc st e) with
      | error x => rfl
      | ok st1 =>
        show tailE k isE d.label st1.er = Except.map St.er (tailE k isE d.label st1)
        unfold tailE
        rw [er_labels, map_bind_er]
        cases indexOf d.label (st1.edges.map (·.label)) with
        | error x => rfl
        | ok newE =>
          simp only [bind, Except.bind]
          have he : st1.er.edges[newE]? = st1.edges[newE]?.map noAlpha := by simp [St.er]
          rw [he]
          cases st1.edges[newE]? with
          | none => rfl
          | some d1 =>
            dsimp only [Option.map_some]
            have ht : (noAlpha d1).type = d1.type := rfl
            have hc : (noAlpha d1).ctype = d1.ctype := rfl
            have hla : (noAlpha d1).label = d1.label := rfl
            rw [ht, hc, hla, er_links]
            by_cases hty : d1.type = .connector
            · rw [if_pos hty, if_pos hty]
              cases indexOf (some d1.label) (st1.edges.map (·.link)) with
              | error x => rfl
              | ok linkE =>
                dsimp only
                have hi : (if (isE && decide (d1.ctype = CType.gyrator)) = true
                    then inverseAlpha st1.er newE else st1.er) =
                    (if (isE && decide (d1.ctype = CType.gyrator)) = true
                    then inverseAlpha st1 newE else st1).er := by
                  split
                  · exact inverseAlpha_er _ _
                  · rfl
                rw [hi]
                generalize (if (isE && decide (d1.ctype = CType.gyrator)) = true
                    then inverseAlpha st1 newE else st1) = st2
                generalize (if d1.ctype = CType.gyrator then isE else !isE) = tg
                have e1 : st2.er.fc = st2.fc := rfl
                have e2 : st2.er.ec = st2.ec := rfl
                have e3 : st2.er.ic = st2.ic := rfl
                rw [e1, e2, e3, ih]
                generalize (if tg = true then st2.fc else st2.ec) = ll
                split
                · rfl
                · split <;> rfl
            · rw [if_neg hty, if_neg hty]; rfl

theorem setNodeDc_er (st : St K) (n e : ℕ) :
    setNodeDc st.er n e = (setNodeDc st n e).map St.er := by
  unfold setNodeDc
  have hl : st.er.edges.length = st.edges.length := by simp [St.er]
  dsimp only
  rw [hl]
  have e3 : st.er.ic = st.ic := rfl
  rw [e3]
  split
  · exact setEdge_er _ false { st with
      L := setEntry (zeroRow (zeroCol st.L e) n) n e 1
      icn := if n ∈ st.icn then st.icn.erase n else st.icn } e
  · rfl

theorem stepFc_er (st : St K) (e : ℕ) : stepFc st.er e = (stepFc st e).map St.er := by
  unfold stepFc
  have e1 : st.er.L = st.L := rfl
  have e2 : st.er.icn = st.icn := rfl
  rw [e1, e2]
  dsimp only
  rw [setNodeDc_er]
  split
  · rfl
  · split
    · split <;> rfl
    · rfl

theorem foldlM_er (f : St K → ℕ → Except Err (St K))
    (hf : ∀ st e, f st.er e = (f st e).map St.er) (l : List ℕ) (st : St K) :
    l.foldlM f st.er = (l.foldlM f st).map St.er := by
  induction l generalizing st with
  | nil => rfl
  | cons a l ih =>
    rw [List.foldlM_cons, List.foldlM_cons, hf, bind_map_er, map_bind_er]
    cases f st a with
    | error x => rfl
    | ok st' => exact ih st'

theorem iterateFc_er (st : St K) : iterateFc st.er = (iterateFc st).map St.er :=
  foldlM_er _ stepFc_er st.fc st

theorem iterateIc_er (k i : ℕ) (st : St K) :
    iterateIc k i st.er = (iterateIc k i st).map St.er := by
  induction k generalizing i st with
  | zero => rfl
  | succ k ih =>
    unfold iterateIc
    have e1 : st.er.L = st.L := rfl
    have e2 : st.er.ic = st.ic := rfl
    have hl : st.er.edges.length = st.edges.length := by simp [St.er]
    rw [e1, e2, hl]
    cases st.ic[i]? with
    | none => rfl
    | some e =>
      dsimp only
      split
      · rw [setEdge_er, bind_map_er, map_bind_er]
        cases setEdge (st.edges.length + 1) true st e with
        | error x => rfl
        | ok st' => exact ih i st'
      · exact ih _ st

theorem stepNode_er (st : St K) (n : ℕ) : stepNode st.er n = (stepNode st n).map St.er := by
  unfold stepNode
  have e1 : st.er.L = st.L := rfl
  have e2 : st.er.icn = st.icn := rfl
  have e3 : st.er.ec = st.ec := rfl
  rw [e1, e2, e3]
  dsimp only
  rw [setNodeDc_er]
  split
  · rfl
  · split
    · split
      · rfl
      · split <;> rfl
    · rfl

theorem iterateNodes_er (k i : ℕ) (st : St K) :
    iterateNodes k i st.er = (iterateNodes k i st).map St.er := by
  induction k generalizing i st with
  | zero => rfl
  | succ k ih =>
    unfold iterateNodes
    have e2 : st.er.icn = st.icn := rfl
    rw [e2]
    cases st.icn[i]? with
    | none => rfl
    | some n =>
      dsimp only
      rw [stepNode_er, bind_map_er, map_bind_er]
      cases stepNode st n with
      | error x => rfl
      | ok st' => exact ih _ st'

theorem pass_er (st : St K) : pass st.er = (pass st).map St.er := by
  unfold pass
  have e2 : st.er.icn = st.icn := rfl
  rw [e2, iterateNodes_er, bind_map_er, map_bind_er]
  cases iterateNodes (st.icn.length + 1) 0 st with
  | error x => rfl
  | ok st1 =>
    show iterateFc st1.er >>= _ = Except.map St.er (iterateFc st1 >>= _)
    rw [iterateFc_er, bind_map_er, map_bind_er]
    cases iterateFc st1 with
    | error x => rfl
    | ok st2 => exact iterateIc_er _ _ st2

theorem iterationLoop_er (k : ℕ) (temp : List (List ℕ)) (st : St K) :
    iterationLoop k temp st.er = (iterationLoop k temp st).map fun p => (p.1.er, p.2) := by
  induction k generalizing temp st with
  | zero => rfl
  | succ k ih =>
    unfold iterationLoop
    have e1 : st.er.L = st.L := rfl
    rw [e1]
    split
    · rfl
    · rw [pass_er, bind_map_er, map_bind_er]
      cases pass st with
      | error x => rfl
      | ok st' => exact ih _ st'

theorem unlock_er (st : St K) : unlock st.er = (unlock st).map St.er := by
  have h1 : unlockIc st.er = unlockIc st := by
    have hgo : ∀ l, unlockIc.go st.er st.er.ec.length l = unlockIc.go st st.ec.length l := by
      intro l
      induction l with
      | nil => rfl
      | cons n ns ih =>
        unfold unlockIc.go
        rw [ih]
        rfl
    exact hgo _
  have h2 : unlockFc st.er = unlockFc st := by
    unfold unlockFc
    have e : st.er.ic = st.ic := rfl
    rw [e]
    cases st.ic with
    | nil => rfl
    | cons i0 t =>
      dsimp only
      have hgo : ∀ l, unlockFc.go st.er st.er.ec.length i0 l = unlockFc.go st st.ec.length i0 l := by
        intro l
        induction l with
        | nil => rfl
        | cons n ns ih =>
          unfold unlockFc.go
          rw [ih]
          rfl
      exact hgo _
  unfold unlock
  rw [h1, h2, map_bind_er]
  cases unlockIc st with
  | error x => rfl
  | ok o =>
    cases o with
    | some L => rfl
    | none =>
      show (unlockFc st >>= _) = Except.map St.er (unlockFc st >>= _)
      rw [map_bind_er]
      cases unlockFc st with
      | error x => rfl
      | ok o => cases o <;> rfl

theorem performLoop_er (k : ℕ) (st : St K) :
    performLoop k st.er = (performLoop k st).map St.er := by
  induction k generalizing st with
  | zero => rfl
  | succ k ih =>
    unfold performLoop
    have e1 : st.er.ic = st.ic := rfl
    have e2 : st.er.icn = st.icn := rfl
    rw [e1, e2]
    split
    · have hi : iteration k st.er = (iteration k st).map fun p => (p.1.er, p.2) :=
        iterationLoop_er _ _ st
      rw [hi, bind_map_er, map_bind_er]
      cases iteration k st with
      | error x => rfl
      | ok p =>
        obtain ⟨st1, temp⟩ := p
        show (if (isequal temp st1.L && decide (st1.ic.length + st1.icn.length > 0)) = true then
          _ else _) = Except.map St.er (if (isequal temp st1.L &&
            decide (st1.ic.length + st1.icn.length > 0)) = true then _ else _)
        split
        · rw [unlock_er, bind_map_er, map_bind_er]
          cases unlock st1 with
          | error x => rfl
          | ok st2 => exact ih st2
        · exact ih st1
    · rfl

omit [Inv K] in
theorem start_er (nodes : List String) (edges : List (Edge K)) :
    start nodes (edges.map noAlpha) = (start nodes edges).map St.er := by
  unfold start
  have hG : (edges.map noAlpha).map (incidence nodes) = edges.map (incidence nodes) := by
    rw [List.map_map]; rfl
  dsimp only
  rw [hG, List.length_map]
  split
  · unfold moveNode
    dsimp only
    cases myrange nodes.length (nodes.idxOf datum) 0 with
    | none => rfl
    | some new =>
      dsimp only
      cases reorder new nodes with
      | none => rfl
      | some a =>
        cases (edges.map (incidence nodes)).mapM (reorder new) with
        | none => rfl
        | some b =>
          cases ((edges.map (incidence nodes)).map fun c => c.map Int.natAbs).mapM (reorder new) with
          | none => rfl
          | some c =>
            dsimp only
            cases renumber (List.range nodes.length) ((List.range nodes.length).zip new) with
            | error x => rfl
            | ok icn =>
              simp only [bind, Except.bind]
              cases indexOf datum a with
              | error x => rfl
              | ok i =>
                dsimp only
                cases indexOf i icn <;> rfl
  · rfl

theorem initLoop_er (k i : ℕ) (st : St K) :
    initLoop k i st.er = (initLoop k i st).map St.er := by
  induction k generalizing i st with
  | zero => rfl
  | succ k ih =>
    unfold initLoop
    have e1 : st.er.L = st.L := rfl
    have e2 : st.er.ic = st.ic := rfl
    have e4 : st.er.icn = st.icn := rfl
    have hl : st.er.edges.length = st.edges.length := by simp [St.er]
    rw [e1, e2, e4, hl]
    cases st.ic[i]? with
    | none => rfl
    | some e =>
      dsimp only
      have he : st.er.edges[e]? = st.edges[e]?.map noAlpha := by simp [St.er]
      rw [he]
      cases st.edges[e]? with
      | none => rfl
      | some d =>
        dsimp only [Option.map_some]
        have hc : (noAlpha d).ctrl = d.ctrl := rfl
        rw [hc]
        cases d.ctrl with
        | e =>
          dsimp only
          rw [setEdge_er, bind_map_er, map_bind_er]
          cases setEdge (st.edges.length + 1) true st e with
          | error x => rfl
          | ok st' => exact ih i st'
        | f =>
          dsimp only
          split
          · split
            · rw [setNodeDc_er, bind_map_er, map_bind_er]
              cases setNodeDc st ((st.L.getD e []).idxOf 1) e with
              | error x => rfl
              | ok st' => exact ih i st'
            · exact ih _ st
          · rw [setEdge_er, bind_map_er, map_bind_er]
            cases setEdge (st.edges.length + 1) false st e with
            | error x => rfl
            | ok st' => exact ih i st'
        | unknown => exact ih _ st

/-- The analysis commutes with the removal of the ratios. -/
theorem analyse_er (fuel : ℕ) (nodes : List String) (edges : List (Edge K)) :
    analyse fuel nodes (edges.map noAlpha) = (analyse fuel nodes edges).map St.er := by
  unfold analyse init
  rw [start_er]
  cases start nodes edges with
  | error x => rfl
  | ok st0 =>
    show (initLoop fuel 0 st0.er >>= _) = Except.map St.er (initLoop fuel 0 st0 >>= _)
    rw [initLoop_er, bind_map_er, map_bind_er]
    cases initLoop fuel 0 st0 with
    | error x => rfl
    | ok st1 => exact performLoop_er _ st1

/-- Graphs that differ by the ratios only have the same analysis, up to the ratios. -/
theorem analyse_sim {fuel : ℕ} {nodes : List String} {edges edges' : List (Edge K)} {st : St K}
    (he : edges'.map noAlpha = edges.map noAlpha) (h : analyse fuel nodes edges = .ok st) :
    ∃ st', analyse fuel nodes edges' = .ok st' ∧ st'.er = st.er := by
  have h1 := analyse_er fuel nodes edges
  have h2 := analyse_er fuel nodes edges'
  rw [he, h1, h] at h2
  cases ha : analyse fuel nodes edges' with
  | error x => rw [ha] at h2; cases h2
  | ok st' =>
    rw [ha] at h2
    refine ⟨st', rfl, ?_⟩
    injection h2 with h2
    exact h2.symm

end Graph
end Pyphs
