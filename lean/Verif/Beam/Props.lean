/-
C76: the network of the cantilever beam, inside any graph, computes the modal equations.
-/
import Verif.Beam.Net
import Verif.Beam.Spec

namespace Pyphs
namespace Beam
open Graph Finset Frac

variable {K : Type} [Field K]

/-! ### Names -/

theorem modeNode_inj {label : String} {i j : ℕ} (h : modeNode label i = modeNode label j) : i = j :=
  Nat.repr_inj.1 (append_left_cancel h)

theorem mode_ne_trans {label : String} {i n j : ℕ} : modeNode label i ≠ transName label n j := by
  intro h
  unfold modeNode transName at h
  simp only [String.append_assoc] at h
  have h1 := append_left_cancel h
  have := congrArg (fun s : String => s.toList.head?) h1
  simp [String.toList_append] at this

/-! ### The flow leaving a node through the beam -/

section flows
variable (label : String) (contacts : List String) (Mb Kb : K) (ks as : List K) (omega : ℕ → K → K)

theorem leaving_map (f : ℕ → Frac.Part K) (F : String → K) (v : String) (N : ℕ) :
    leaving (edgesOf ((List.range N).map f)) F v = ∑ i ∈ range N, leaving (f i).edges F v := by
  have e : (List.range N).map f = (List.range N).flatMap fun n => [f n] := by
    rw [List.map_eq_flatMap]
  rw [e, leaving_cells]
  refine Finset.sum_congr rfl fun i _ => ?_
  simp [edgesOf]

/-- Flow into mode `i` by its stiffness, mass and damper. -/
def inMode (F : String → K) (i : ℕ) : K :=
  F ("x" ++ (label ++ "K" ++ i.repr)) + F ("x" ++ (label ++ "M" ++ i.repr)) +
    F ("w" ++ (label ++ "A" ++ i.repr))

theorem leaving_beam (F : String → K) (v : String) :
    leaving (edgesOf (beam label contacts Mb Kb ks as omega)) F v =
      ∑ i ∈ range ks.length, ((if v = datum then 1 else 0) - (if v = modeNode label i then 1 else 0)) *
        inMode label F i +
      ∑ n ∈ range contacts.length, ∑ i ∈ range ks.length,
        (((if v = chainNode label ks.length (contacts.getD n "") n i then 1 else 0) -
          (if v = chainNode label ks.length (contacts.getD n "") n (i + 1) then 1 else 0)) *
          F ("y" ++ transName label n i ++ "1") +
        ((if v = datum then 1 else 0) - (if v = modeNode label i then 1 else 0)) *
          F ("y" ++ transName label n i ++ "2")) := by
  unfold beam
  rw [edgesOf_append, leaving_append, edgesOf_append, leaving_append, edgesOf_append, leaving_append,
    leaving_map, leaving_map, leaving_map, leaving_cells, ← add_assoc, ← add_assoc,
    ← Finset.sum_add_distrib, ← Finset.sum_add_distrib]
  congr 1
  · refine Finset.sum_congr rfl fun i _ => ?_
    simp [leaving, stiffness, mass, damper, Frac.Part.edges, edgeD, edgeS, sign, inMode]
    ring
  · refine Finset.sum_congr rfl fun n _ => ?_
    rw [leaving_map]
    refine Finset.sum_congr rfl fun i _ => ?_
    simp [leaving, transfo, Frac.Part.edges, edgeA, edgeB, sign]

variable {label contacts Mb Kb ks as omega}

theorem mem_stiffness {i : ℕ} (hi : i < ks.length) :
    stiffness label Kb ks i ∈ beam label contacts Mb Kb ks as omega :=
  List.mem_append_left _ (List.mem_map_of_mem (List.mem_range.2 hi))

theorem mem_mass {i : ℕ} (hi : i < ks.length) :
    mass label Mb i ∈ beam label contacts Mb Kb ks as omega :=
  List.mem_append_right _ (List.mem_append_left _ (List.mem_map_of_mem (List.mem_range.2 hi)))

theorem mem_damper {i : ℕ} (hi : i < ks.length) :
    damper label as i ∈ beam label contacts Mb Kb ks as omega :=
  List.mem_append_right _ (List.mem_append_right _ (List.mem_append_left _
    (List.mem_map_of_mem (List.mem_range.2 hi))))

theorem mem_transfo {n i : ℕ} (hn : n < contacts.length) (hi : i < ks.length) :
    transfo label ks omega (contacts.getD n "") n i ∈ beam label contacts Mb Kb ks as omega :=
  List.mem_append_right _ (List.mem_append_right _ (List.mem_append_right _
    (List.mem_flatMap.2 ⟨n, List.mem_range.2 hn, List.mem_map_of_mem (List.mem_range.2 hi)⟩)))

/-- Distinct labels of edges make the names of the transformers distinct. -/
theorem transName_inj (hl : ((edgesOf (beam label contacts Mb Kb ks as omega)).map (·.label)).Nodup)
    {n i n' i' : ℕ} (hn : n < contacts.length) (hi : i < ks.length) (hn' : n' < contacts.length)
    (hi' : i' < ks.length) (h : transName label n i = transName label n' i') : n = n' ∧ i = i' := by
  by_cases hii : i = i'
  · subst hii
    exact ⟨Nat.repr_inj.1 (append_left_cancel (append_right_cancel h)), rfl⟩
  · exfalso
    unfold edgesOf at hl
    rw [List.map_flatMap, List.nodup_flatMap] at hl
    haveI : Std.Symm (Function.onFun List.Disjoint
        fun a : Frac.Part K => List.map (fun x : Edge K => x.label) a.edges) :=
      ⟨fun a b hab => List.Disjoint.symm hab⟩
    have := hl.2.forall (mem_transfo hn hi) (mem_transfo hn' hi') (by
      intro e
      simp only [transfo, Frac.Part.trans.injEq] at e
      exact hii (modeNode_inj e.2.2.2.2.1))
    refine this (a := "y" ++ transName label n i ++ "1") ?_ ?_
    · simp [transfo, Frac.Part.edges, edgeA]
    · simp [transfo, Frac.Part.edges, edgeA, h]

theorem mem_modeNode {i : ℕ} (hi : i < ks.length) :
    modeNode label i ∈ inner label ks.length contacts.length :=
  List.mem_append_left _ (List.mem_map_of_mem (List.mem_range.2 hi))

theorem mem_transNode {n i : ℕ} (hn : n < contacts.length) (hi : i + 1 < ks.length) :
    transName label n i ∈ inner label ks.length contacts.length :=
  List.mem_append_right _ (List.mem_flatMap.2 ⟨n, List.mem_range.2 hn,
    List.mem_map_of_mem (List.mem_range.2 (by omega))⟩)

theorem getD_mem_contacts {n : ℕ} (hn : n < contacts.length) : contacts.getD n "" ∈ contacts := by
  rw [List.getD_eq_getElem?_getD, List.getElem?_eq_getElem hn]
  exact List.getElem_mem hn

end flows

section main
variable [DecidableEq K]
variable {law : String → Env K → K} {nodes : List String} {edges : List (Edge K)} {fuel : ℕ}
  {st : St K} {c c' : Core K} {label : String} {contacts : List String} {Mb Kb : K} {ks as : List K}
  {omega : ℕ → K → K}

/-- C76. The beam in any graph that gives a core. For every solution of the equations of this core, with
`q` and `v` minus the elongations of the stiffnesses and minus the momenta divided by the mass, the
modes follow `m v' + a v + k q = ∑ ω f`, `q' = v`, the velocities at the contacts are `∑ ω v`, and the
flow that enters the beam at a node is the sum of the forces of the contacts at this node. -/
theorem C76_beam (h : Assembled law nodes edges fuel st c c') (hM : Mb ≠ 0) (hks : ks ≠ [])
    (has : ∀ i < ks.length, as.getD i 0 ≠ 0)
    (hom : ∀ n < contacts.length, ∀ k ∈ ks, omega n k ≠ 0)
    (hl : HasLaws law (beam label contacts Mb Kb ks as omega))
    (hp : Inside nodes edges c (beam label contacts Mb Kb ks as omega)
      (inner label ks.length contacts.length))
    (hc : ∀ v ∈ contacts, v ∉ inner label ks.length contacts.length)
    {E F X dX : String → K}
    (hs : CoreSolution st c' (beam label contacts Mb Kb ks as omega) E F X dX) :
    FromPotentials edges E ∧ ∀ p, Potential edges E p → ∃ f : ℕ → K,
      (∀ v, v ≠ datum → v ∉ inner label ks.length contacts.length →
        leaving (edgesOf (beam label contacts Mb Kb ks as omega)) F v =
          ∑ n ∈ range contacts.length, if contacts.getD n "" = v then f n else 0) ∧
      Modal ks.length contacts.length Mb (fun i => Kb * ks.getD i 0 ^ 4) (fun i => as.getD i 0)
        (fun n i => omega n (ks.getD i 0))
        (fun i => -X ("x" ++ (label ++ "K" ++ i.repr)))
        (fun i => -(X ("x" ++ (label ++ "M" ++ i.repr)) / Mb))
        (fun i => -dX ("x" ++ (label ++ "K" ++ i.repr)))
        (fun i => -(dX ("x" ++ (label ++ "M" ++ i.repr)) / Mb))
        (fun n => p (contacts.getD n "") - p datum) f := by
  have hs' := h.solution (fun _ hd => hp.mem hd) (by
    intro q hq
    rcases List.mem_append.1 hq with hq | hq
    · obtain ⟨i, -, rfl⟩ := List.mem_map.1 hq
      simp [stiffness, Part.Good]
    rcases List.mem_append.1 hq with hq | hq
    · obtain ⟨i, -, rfl⟩ := List.mem_map.1 hq
      simp [mass, Part.Good]
    rcases List.mem_append.1 hq with hq | hq
    · obtain ⟨i, hi, rfl⟩ := List.mem_map.1 hq
      exact has i (List.mem_range.1 hi)
    · obtain ⟨n, -, hq⟩ := List.mem_flatMap.1 hq
      obtain ⟨i, -, rfl⟩ := List.mem_map.1 hq
      trivial) hl hs
  obtain ⟨hf, hfp⟩ := h.kirchhoff hs'
  refine ⟨hfp, fun p hpot => ?_⟩
  have hN : 0 < ks.length := List.length_pos_iff.2 hks
  have hlab : ((edgesOf (beam label contacts Mb Kb ks as omega)).map (·.label)).Nodup := by
    obtain ⟨rest, hpr, -⟩ := hp.rest
    have h1 := (hpr.map (·.label)).nodup_iff.1 h.labels
    rw [List.map_append] at h1
    exact (List.nodup_append.1 h1).1
  have hno : ∀ v ∈ inner label ks.length contacts.length, ∀ n < contacts.length,
      v ≠ contacts.getD n "" := fun v hv n hn e => hc _ (getD_mem_contacts hn) (e ▸ hv)
  -- nodes of the chains
  have chainT : ∀ n < contacts.length, ∀ j, j + 1 < ks.length → ∀ n' < contacts.length,
      ∀ i' ≤ ks.length, (transName label n j = chainNode label ks.length (contacts.getD n' "") n' i' ↔
        n' = n ∧ i' = j + 1) := by
    intro n hn j hj n' hn' i' hi'
    cases i' with
    | zero =>
      exact iff_of_false (hno _ (mem_transNode hn hj) n' hn') (by omega)
    | succ m =>
      simp only [chainNode]
      split
      · next hm =>
        exact iff_of_false (hp.known _ (mem_transNode hn hj)).2 (by omega)
      · next hm =>
        constructor
        · intro e
          obtain ⟨h1, h2⟩ := transName_inj hlab hn (by omega) hn' (by omega) e
          omega
        · rintro ⟨rfl, h2⟩
          obtain rfl : m = j := by omega
          rfl
  have chainM : ∀ i < ks.length, ∀ n < contacts.length, ∀ j ≤ ks.length,
      modeNode label i ≠ chainNode label ks.length (contacts.getD n "") n j := by
    intro i hi n hn j hj
    cases j with
    | zero => exact hno _ (mem_modeNode hi) n hn
    | succ m =>
      simp only [chainNode]
      split
      · exact (hp.known _ (mem_modeNode hi)).2
      · exact mode_ne_trans
  have chainV : ∀ v, v ≠ datum → v ∉ inner label ks.length contacts.length →
      ∀ n < contacts.length, ∀ j ≤ ks.length,
      (v = chainNode label ks.length (contacts.getD n "") n j ↔ contacts.getD n "" = v ∧ j = 0) := by
    intro v hv0 hvi n hn j hj
    cases j with
    | zero => simp [chainNode, eq_comm]
    | succ m =>
      refine iff_of_false ?_ (by omega)
      simp only [chainNode]
      split
      · exact hv0
      · intro e
        exact hvi (e ▸ mem_transNode hn (by omega))
  -- balance at the node of a mode
  have balM : ∀ i < ks.length, inMode label F i +
      ∑ n ∈ range contacts.length, F ("y" ++ transName label n i ++ "2") = 0 := by
    intro i hi
    have h1 := hp.balance hf (mem_modeNode hi)
    have h0 := (hp.known _ (mem_modeNode (contacts := contacts) hi)).2
    rw [leaving_beam, Finset.sum_eq_single i] at h1
    · have e : ∀ n ∈ range contacts.length, ∑ j ∈ range ks.length,
          (((if modeNode label i = chainNode label ks.length (contacts.getD n "") n j then (1 : K) else 0) -
            (if modeNode label i = chainNode label ks.length (contacts.getD n "") n (j + 1) then 1 else 0)) *
            F ("y" ++ transName label n j ++ "1") +
          ((if modeNode label i = datum then 1 else 0) -
            (if modeNode label i = modeNode label j then 1 else 0)) *
            F ("y" ++ transName label n j ++ "2")) = -F ("y" ++ transName label n i ++ "2") := by
        intro n hn
        have hn := mem_range.1 hn
        rw [Finset.sum_eq_single i]
        · rw [if_neg (chainM i hi n hn i hi.le), if_neg (chainM i hi n hn (i + 1) hi), if_neg h0,
            if_pos rfl]
          ring
        · intro j hj hji
          have hj := mem_range.1 hj
          rw [if_neg (chainM i hi n hn j hj.le), if_neg (chainM i hi n hn (j + 1) hj), if_neg h0,
            if_neg (fun e => hji (modeNode_inj e).symm)]
          ring
        · intro hni; exact absurd (mem_range.2 hi) hni
      rw [Finset.sum_congr rfl e, if_neg h0, if_pos rfl, Finset.sum_neg_distrib] at h1
      linear_combination -h1
    · intro j _ hji
      rw [if_neg h0, if_neg (fun e => hji (modeNode_inj e).symm)]
      ring
    · intro hni; exact absurd (mem_range.2 hi) hni
  -- balance at an inner node of a chain
  have balT : ∀ n < contacts.length, ∀ j, j + 1 < ks.length →
      F ("y" ++ transName label n (j + 1) ++ "1") = F ("y" ++ transName label n j ++ "1") := by
    intro n hn j hj
    have h1 := hp.balance hf (mem_transNode hn hj)
    have h0 := (hp.known _ (mem_transNode hn hj)).2
    have hm : ∀ i, transName label n j ≠ modeNode label i := fun i => mode_ne_trans.symm
    rw [leaving_beam] at h1
    have e1 : ∀ i ∈ range ks.length, ((if transName label n j = datum then (1 : K) else 0) -
        (if transName label n j = modeNode label i then 1 else 0)) * inMode label F i = 0 := by
      intro i _
      rw [if_neg h0, if_neg (hm i)]; ring
    have e2 : ∀ n' ∈ range contacts.length, ∑ i ∈ range ks.length,
        (((if transName label n j = chainNode label ks.length (contacts.getD n' "") n' i then (1 : K) else 0) -
          (if transName label n j = chainNode label ks.length (contacts.getD n' "") n' (i + 1) then 1 else 0)) *
          F ("y" ++ transName label n' i ++ "1") +
        ((if transName label n j = datum then 1 else 0) -
          (if transName label n j = modeNode label i then 1 else 0)) *
          F ("y" ++ transName label n' i ++ "2")) =
        if n' = n then F ("y" ++ transName label n (j + 1) ++ "1") - F ("y" ++ transName label n j ++ "1")
        else 0 := by
      intro n' hn'
      have hn' := mem_range.1 hn'
      by_cases hnn : n' = n
      · subst hnn
        rw [if_pos rfl]
        have e3 : ∀ i ∈ range ks.length,
            (((if transName label n' j = chainNode label ks.length (contacts.getD n' "") n' i then (1 : K) else 0) -
              (if transName label n' j = chainNode label ks.length (contacts.getD n' "") n' (i + 1) then 1 else 0)) *
              F ("y" ++ transName label n' i ++ "1") +
            ((if transName label n' j = datum then 1 else 0) -
              (if transName label n' j = modeNode label i then 1 else 0)) *
              F ("y" ++ transName label n' i ++ "2")) =
            (if j + 1 = i then F ("y" ++ transName label n' i ++ "1") else 0) -
            (if j = i then F ("y" ++ transName label n' i ++ "1") else 0) := by
          intro i hi
          have hi := mem_range.1 hi
          rw [if_neg h0, if_neg (hm i)]
          simp only [chainT n' hn' j hj n' hn' i hi.le, chainT n' hn' j hj n' hn' (i + 1) hi, true_and,
            Nat.add_right_cancel_iff, @eq_comm _ i]
          split <;> split <;> ring
        rw [Finset.sum_congr rfl e3, Finset.sum_sub_distrib, Finset.sum_ite_eq, Finset.sum_ite_eq,
          if_pos (mem_range.2 hj), if_pos (mem_range.2 (by omega))]
      · rw [if_neg hnn]
        refine Finset.sum_eq_zero fun i hi => ?_
        have hi := mem_range.1 hi
        rw [if_neg h0, if_neg (hm i), if_neg (fun e => hnn ((chainT n hn j hj n' hn' i hi.le).1 e).1),
          if_neg (fun e => hnn ((chainT n hn j hj n' hn' (i + 1) hi).1 e).1)]
        ring
    rw [Finset.sum_eq_zero e1, Finset.sum_congr rfl e2, Finset.sum_ite_eq', if_pos (mem_range.2 hn)] at h1
    linear_combination h1
  have same : ∀ n < contacts.length, ∀ i < ks.length,
      F ("y" ++ transName label n i ++ "1") = F ("y" ++ transName label n 0 ++ "1") := by
    intro n hn i
    induction i with
    | zero => intro _; rfl
    | succ i ih => intro hi; rw [balT n hn i hi, ih (by omega)]
  -- the transformers
  have tr : ∀ n < contacts.length, ∀ i < ks.length,
      F ("y" ++ transName label n i ++ "2") =
        omega n (ks.getD i 0) * F ("y" ++ transName label n i ++ "1") ∧
      E ("y" ++ transName label n i ++ "1") =
        omega n (ks.getD i 0) * (p (modeNode label i) - p datum) := by
    intro n hn i hi
    have mT := mem_transfo (label := label) (Mb := Mb) (Kb := Kb) (as := as) (omega := omega) hn hi
    obtain ⟨i0, k, hk⟩ := hp.conns _ _ _ _ _ _ mT
    have h0 : omega n (ks.getD i 0) ≠ 0 := hom n hn _ (by
      rw [List.getD_eq_getElem?_getD, List.getElem?_eq_getElem hi]; exact List.getElem_mem hi)
    have memS : (edgeS (label ++ "M" ++ i.repr) datum (modeNode label i) .f : Edge K) ∈ edges :=
      hp.mem (mem_edges (mem_mass hi) (List.mem_singleton_self _))
    have cS := ((C60_prescribed h.datum h.labels h.free h.analysed memS).2 rfl).1
    have cB := not_both_in h memS hk.mem2 (by
      simp only [edgeS, edgeB]
      intro e
      have := congrArg (fun s : String => s.toList.head?) e
      simp [String.toList_append] at this) rfl rfl rfl rfl cS
    obtain ⟨t1, t2⟩ := (h.trans hs' hk rfl h0).elim (fun h => absurd h.2.1 cB) (fun h => h.2.2)
    simp only [edgeA, edgeB] at t1 t2
    have eB := hp.pot_transB hpot mT
    refine ⟨?_, ?_⟩
    · rw [t1]; field_simp
    · rw [eB] at t2
      refine mul_left_cancel₀ (inv_ne_zero h0) ?_
      rw [inv_mul_cancel_left₀ h0]
      linear_combination t2
  refine ⟨fun n => F ("y" ++ transName label n 0 ++ "1"), ?_, ?_, ?_, ?_⟩
  · intro v hv0 hvi
    rw [leaving_beam]
    have hvm : ∀ i < ks.length, v ≠ modeNode label i := fun i hi e => hvi (e ▸ mem_modeNode hi)
    have e1 : ∀ i ∈ range ks.length, ((if v = datum then (1 : K) else 0) -
        (if v = modeNode label i then 1 else 0)) * inMode label F i = 0 := by
      intro i hi
      rw [if_neg hv0, if_neg (hvm i (mem_range.1 hi))]; ring
    rw [Finset.sum_eq_zero e1, zero_add]
    refine Finset.sum_congr rfl fun n hn => ?_
    have hn := mem_range.1 hn
    rw [Finset.sum_eq_single 0]
    · rw [if_neg hv0, if_neg (hvm 0 hN)]
      simp only [chainV v hv0 hvi n hn 0 (Nat.zero_le _), chainV v hv0 hvi n hn (0 + 1) hN]
      simp
    · intro i hi h0
      have hi := mem_range.1 hi
      rw [if_neg hv0, if_neg (hvm i hi)]
      simp only [chainV v hv0 hvi n hn i hi.le, chainV v hv0 hvi n hn (i + 1) hi]
      simp [h0]
    · intro hni; exact absurd (mem_range.2 hN) hni
  · intro i hi
    have lK := hs'.laws _ (mem_stiffness hi)
    have lM := hs'.laws _ (mem_mass hi)
    have eK := hp.pot_stor hpot (mem_stiffness hi)
    have eM := hp.pot_stor hpot (mem_mass hi)
    simp only [stiffness, mass, Part.Law, reduceCtorEq, if_true, if_false] at lK lM
    rw [lK.1, eK, ← eM, lM.2]
    ring
  · intro i hi
    have lK := hs'.laws _ (mem_stiffness hi)
    have lM := hs'.laws _ (mem_mass hi)
    have lA := hs'.laws _ (mem_damper hi)
    have eA := hp.pot_diss hpot (mem_damper hi)
    have eM := hp.pot_stor hpot (mem_mass hi)
    simp only [stiffness, mass, damper, Part.Law, reduceCtorEq, if_true, if_false] at lK lM lA
    have b := balM i hi
    have e : ∑ n ∈ range contacts.length, F ("y" ++ transName label n i ++ "2") =
        ∑ n ∈ range contacts.length, omega n (ks.getD i 0) * F ("y" ++ transName label n 0 ++ "1") :=
      Finset.sum_congr rfl fun n hn => by
        rw [(tr n (mem_range.1 hn) i hi).1, same n (mem_range.1 hn) i hi]
    rw [← e]
    unfold inMode at b
    rw [lK.2, ← lM.1, lA, eA, ← eM, lM.2] at b
    have e2 : Mb * -(dX ("x" ++ (label ++ "M" ++ i.repr)) / Mb) =
        -dX ("x" ++ (label ++ "M" ++ i.repr)) := by field_simp
    rw [e2]
    linear_combination -b
  · intro n hn
    have e1 : ∑ i ∈ range ks.length, E ("y" ++ transName label n i ++ "1") =
        p (contacts.getD n "") - p datum := by
      have := Finset.sum_range_sub' (fun i => p (chainNode label ks.length (contacts.getD n "") n i))
        ks.length
      have hd : chainNode label ks.length (contacts.getD n "") n ks.length = datum := by
        obtain ⟨k, hk⟩ := Nat.exists_eq_succ_of_ne_zero hN.ne'
        rw [hk]; simp [chainNode]
      rw [hd] at this
      refine Eq.trans ?_ this
      exact Finset.sum_congr rfl fun i hi => hp.pot_transA hpot (mem_transfo hn (mem_range.1 hi))
    rw [← e1]
    refine Finset.sum_congr rfl fun i hi => ?_
    have hi := mem_range.1 hi
    rw [(tr n hn i hi).2]
    have lM := hs'.laws _ (mem_mass hi)
    have eM := hp.pot_stor hpot (mem_mass hi)
    simp only [mass, Part.Law, if_true] at lM
    have : p (modeNode label i) - p datum = -(X ("x" ++ (label ++ "M" ++ i.repr)) / Mb) := by
      rw [div_eq_inv_mul, ← lM.2, eM]; ring
    rw [this]

end main

end Beam
end Pyphs
