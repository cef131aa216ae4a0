/-
C85: a netlist with two capacitors in parallel.
-/
import Verif.Arc.Props
import Verif.System.Examples
import Verif.Split.Props

namespace Pyphs
namespace Arc
open Graph System Core Params Circuit Scheme Numeric Record
open Netlist (Row)
open Verif.Split (pyView pyView_lawful NoHang spSplit)

/-- A source of voltage, a resistor and two capacitors in parallel, one of which is reversed. -/
def exRows : List (Row ℤ) :=
  [⟨"electronics".toList, "source".toList, "V0".toList, .tuple [.str "#".toList, .str "A".toList],
      [("type".toList, .elem (.str "voltage".toList))]⟩,
   ⟨"electronics".toList, "resistor".toList, "R1".toList, .tuple [.str "A".toList, .str "B".toList],
      [("R".toList, .elem (.num 3))]⟩,
   ⟨"electronics".toList, "capacitor".toList, "C1".toList, .tuple [.str "B".toList, .str "#".toList],
      [("C".toList, .elem (.num 4))]⟩,
   ⟨"electronics".toList, "capacitor".toList, "C2".toList, .tuple [.str "#".toList, .str "B".toList],
      [("C".toList, .elem (.num 5))]⟩]

noncomputable def exDevices : List Device :=
  [.effortSource ⟨"V0", "#", "A"⟩, .resistance ⟨"R1", "A", "B"⟩ (exVal 3),
   .fluxStorage ⟨"C1", "B", "#"⟩ (exVal 4)⁻¹, .fluxStorage ⟨"C2", "#", "B"⟩ (exVal 5)⁻¹]

noncomputable def exEdges : List (Edge ℝ) := exDevices.flatMap devEdges

def eV : Edge ℝ := ⟨"#", "A", "yV0", .port, .f, none, .gyrator, none, "", ""⟩
def eR : Edge ℝ := ⟨"A", "B", "wR1", .dissipative, .unknown, none, .gyrator, none, "e:wR1", "f:wR1"⟩
def eC1 : Edge ℝ := ⟨"B", "#", "xC1", .storage, .f, none, .gyrator, none, "", ""⟩
def eC2 : Edge ℝ := ⟨"#", "B", "xC2", .storage, .f, none, .gyrator, none, "", ""⟩

def parSub : List Tr := [wrap eC2, wrap eC1, .out ['#'] ['B'] "parallel1_out_B".toList]
def serSub : List Tr := [wrap eV, wrap eR, .out ['#'] ['B'] "serial1_out_B".toList]

def exTree : List Tr := [.graph ['#'] ['B'] "parallel1".toList parSub, .graph ['#'] ['B'] "serial1".toList serSub]

theorem exEdges_eq : exEdges = [eV, eR, eC1, eC2] := rfl

set_option maxHeartbeats 2000000 in
theorem exSplit : spSplit (fun _ => pyView) (fun _ => pyView) 30 0 ⟨exEdges.map wrap, 0, 0⟩ =
    some ⟨exTree, 1, 1⟩ := rfl

/-- What the two capacitors are replaced by. -/
def eC : Edge ℝ := ⟨"#", "B", "xC2C1", .storage, .f, none, .gyrator, none, "", ""⟩

def parSub' : List Tr := [.out ['#'] ['B'] "parallel1_out_B".toList, wrap eC]

theorem exMerge {sy : Sympy} (hsy : sy.Lawful) {s : Shared} (hs : Holds exDevices s.core) :
    ∃ s', prepare sy ⟨fun _ => pyView, fun _ => pyView, pyView, pyView⟩ 30 exEdges s = .ok ([eC, eV, eR], s') ∧
      s'.law = s.law ∧ ∃ H, s'.core = { s.core with x := ["xC2C1"], H := H } := by
  have hd : Distinct exDevices := by show ["V0", "R1", "C1", "C2"].Nodup; decide
  have h1 : slope s.core.H "xC1" = fun v => (exVal 4)⁻¹ * v :=
    slope_stored hd hs (b := ⟨"C1", "B", "#"⟩) (by simp [exDevices])
  have h2 : slope s.core.H "xC2" = fun v => (exVal 5)⁻¹ * v :=
    slope_stored hd hs (b := ⟨"C2", "#", "B"⟩) (by simp [exDevices])
  obtain ⟨newH, iQ, hn, -⟩ := nonreal_some hsy (ks := [(exVal 5)⁻¹, (exVal 4)⁻¹])
    (by simp [exVal]) (by simp only [exVal]; norm_num)
  have hx : s.core.x = ["xC1", "xC2"] := hs.declares.x
  have hplan : ∃ c, planStorages sy pyView .f ['#'] ['B'] parSub s =
      .ok (some ⟨wrap eC, [wrap eC2, wrap eC1]⟩, ⟨c, s.law⟩) ∧
      ∃ H, c = { s.core with x := ["xC2C1"], H := H } := by
    have e1 : (pyView.edges parSub).filter (isStorage .f) = [wrap eC2, wrap eC1] := rfl
    have e2 : parSub.mapM (orientation ['#'] ['B']) = .ok [some true, some false, some true] := rfl
    have e3 : [wrap eC2, wrap eC1].mapM (orientation ['#'] ['B']) = .ok [some true, some false] := rfl
    have e4 : (datas [wrap eC2, wrap eC1]).map (·.label) = ["xC2", "xC1"] := rfl
    have e5 : removeAll ["xC2", "xC1"] s.core.x = some [] := by rw [hx]; rfl
    have e6 : oriented [some true, some false] (["xC2", "xC1"].map (slope s.core.H)) =
        [(exVal 5)⁻¹, (exVal 4)⁻¹].map fun k v => k * v := by
      simp only [oriented, List.map_cons, List.map_nil, h1, h2, List.zipWith_cons_cons, List.zipWith_nil_left,
        orient_linear]
    unfold planStorages
    dsimp only
    rw [e1, if_neg (by decide), e2, e3]
    simp only [bind, Except.bind]
    rw [e4, e6, hn]
    dsimp only
    rw [e5]
    exact ⟨_, rfl, _, rfl⟩
  obtain ⟨c, hplan, hc⟩ := hplan
  refine ⟨⟨c, s.law⟩, ?_, rfl, hc⟩
  have hdiss : planDissipatives sy pyView .f ['#'] ['B'] parSub' ⟨c, s.law⟩ = .ok (none, ⟨c, s.law⟩) := rfl
  have happ : (⟨wrap eC, [wrap eC2, wrap eC1]⟩ : Plan).apply parSub = .ok parSub' := rfl
  have harc : mergeArc sy pyView ['#'] ['B'] "parallel1".toList parSub s =
      .ok ([⟨wrap eC, [wrap eC2, wrap eC1]⟩], ⟨c, s.law⟩) := by
    unfold mergeArc
    dsimp only
    rw [show anti "parallel1".toList = .f from rfl, if_pos (show Verif.Split.isPar "parallel1".toList = true from rfl), hplan]
    simp only [bind, Except.bind, Option.toList, applyAll, List.foldlM, pure, Except.pure]
    rw [happ]
    dsimp only
    rw [hdiss]
    rfl
  have hser : mergeArc sy pyView ['#'] ['B'] "serial1".toList serSub ⟨c, s.law⟩ = .ok ([], ⟨c, s.law⟩) := rfl
  have hp : mergeEdges sy pyView parSub ⟨c, s.law⟩ = .ok (parSub, ⟨c, s.law⟩) := by
    simp [parSub, mergeEdges, mergeEdge, wrap, bind, Except.bind]
  have hr : mergeEdges sy pyView serSub ⟨c, s.law⟩ = .ok (serSub, ⟨c, s.law⟩) := by
    simp [serSub, mergeEdges, mergeEdge, wrap, bind, Except.bind]
  have hm : mergeEdges sy pyView exTree s = .ok ([.graph ['#'] ['B'] "parallel1".toList parSub',
      .graph ['#'] ['B'] "serial1".toList serSub], ⟨c, s.law⟩) := by
    unfold exTree
    rw [mergeEdges, mergeEdge, harc]
    simp only [bind, Except.bind]
    rw [hp]
    simp only [applyAll, List.foldlM, bind, Except.bind, pure, Except.pure]
    rw [happ]
    dsimp only
    rw [mergeEdges, mergeEdge, hser]
    simp only [bind, Except.bind]
    rw [hr]
    simp only [applyAll, List.foldlM, pure, Except.pure]
    rw [mergeEdges]
  unfold prepare
  rw [exSplit]
  simp only [bind, Except.bind]
  rw [hm]
  rfl

def exNodes : List String := ["#", "A", "B"]

def exSt : St ℝ :=
  ⟨exNodes, [eR, eC, eV], [[0, 1, -1], [1, 0, -1], [1, -1, 0]], [[0, 0, 0], [0, 0, 1], [0, 1, 0]], [0], [], [1, 2], []⟩

set_option smartUnfolding false in
set_option maxHeartbeats 2000000 in
theorem exAnalyse : analyse 30 exNodes [eC, eV, eR] = .ok exSt := rfl

theorem exInv : ∃ B, iGammaFc exSt = some B ∧ B.r = 2 ∧ B.c = 2 := by
  unfold iGammaFc
  refine inv_some (A := gammaFc exSt) rfl ?_
  show Mat.detN 2 _ ≠ 0
  norm_num [Mat.detN, Mat.minor, gammaFc, gammaMat, Mat.slice, exSt, Finset.sum_range_succ]

/-- The components after the merging. -/
noncomputable def exDevices' : List Device :=
  [.effortSource ⟨"V0", "#", "A"⟩, .resistance ⟨"R1", "A", "B"⟩ (exVal 3),
   .fluxStorage ⟨"C2C1", "#", "B"⟩ (exVal 9)⁻¹]

theorem exCore {c : Core ℝ} (hd : Declares c exDevices') (law : String → Env ℝ → ℝ) :
    ∃ c2, toCore law 30 exNodes [eC, eV, eR] c = some c2 := by
  unfold toCore
  rw [exAnalyse]
  dsimp only
  obtain ⟨⟨r, c, f⟩, hB, hr, hc⟩ := exInv
  dsimp only at hr hc
  subst hr hc
  have ha : allEdges exSt = [1, 0, 2] := rfl
  have hJ : ∃ J : Mat ℝ, structureMatrix exSt = some J ∧ J.r = 3 ∧ J.c = 3 := by
    unfold structureMatrix
    rw [hB, ha]
    exact ⟨_, rfl, rfl, rfl⟩
  obtain ⟨⟨r, cc, g⟩, hJ, hr, hcc⟩ := hJ
  dsimp only at hr hcc
  subst hr hcc
  unfold buildCore
  rw [hJ]
  show ∃ c2, (setCore law exSt ⟨3, 3, g⟩ c).bind connect = some c2
  obtain ⟨x, w, u, y, cu, cy, H, z, dxH, M, conns, xl, wl, Zl, fw⟩ := c
  obtain ⟨-, e1, e2, e3, e4, e5, e6, e7, e8, e9, e10, e11⟩ := hd
  dsimp only at e1 e2 e3 e4 e5 e6 e7 e8 e9 e10 e11
  subst e1 e2 e3 e4 e5 e6 e7 e8 e9 e10
  obtain ⟨z0, rfl⟩ := List.length_eq_one_iff.1 e11
  set c1 : Core ℝ := ⟨["xC2C1"], ["wR1"], ["uV0"], ["yV0"], [], [], H, [law "e:wR1"],
    none, ⟨3, 3, g⟩, [], 0, 0, Zl, fw⟩ with hc1
  have hset : setCore law exSt ⟨3, 3, g⟩ ⟨exDevices'.flatMap devX, exDevices'.flatMap devW,
      (exDevices'.flatMap devPorts).map fun b => "u" ++ b.id,
      (exDevices'.flatMap devPorts).map fun b => "y" ++ b.id,
      (exDevices'.flatMap devConns).flatMap fun q => ["u" ++ q.2.1.id, "u" ++ q.1.id],
      (exDevices'.flatMap devConns).flatMap fun q => ["y" ++ q.2.1.id, "y" ++ q.1.id], H, [z0], none, M,
      (exDevices'.flatMap devConns).map fun q =>
        ⟨"u" ++ q.1.id, "u" ++ q.2.1.id, "y" ++ q.1.id, "y" ++ q.2.1.id, q.2.2⟩, 0, 0, Zl, fw⟩ =
      some c1 := rfl
  rw [hset, Option.bind_some]
  have hl : c1.labels = ["xC2C1", "wR1", "yV0"] := rfl
  have hwf : WF c1 := ⟨rfl, rfl, rfl, rfl, rfl, fun d hd => (by cases hd), Nat.zero_le _, Nat.zero_le _,
    by rw [hl]; decide⟩
  have hconn : ConnOK c1 := by simp [ConnOK, connPairs, c1]
  refine Option.ne_none_iff_exists'.1 fun hn => ?_
  obtain ⟨β, α, hst, -, hα, p, hp, hne⟩ := (C08_connect_error c1 hwf hconn).1 hn
  cases hp

/-! ### The hypotheses -/

/-- A solver of linear equations. -/
noncomputable def exSolve : Arc.Sympy where
  solve := fun f => open Classical in
    if h : ∃ k : ℝ, k ≠ 0 ∧ f = fun v => k * v then some fun v => h.choose⁻¹ * v else none
  integ := fun f x => f 1 * x ^ 2 / 2

theorem exSolve_lawful : exSolve.Lawful where
  sound := by
    intro f g h y
    simp only [exSolve] at h
    split at h
    · rename_i hk
      obtain ⟨h1, h2⟩ := hk.choose_spec
      injection h with h
      rw [← h, congrFun h2 (hk.choose⁻¹ * y), ← mul_assoc, mul_inv_cancel₀ h1, one_mul]
    · cases h
  complete := by
    intro k hk
    refine ⟨_, dif_pos ⟨k, hk, rfl⟩⟩
  integ := by
    intro k x
    simp [exSolve]

/-- Names of the same length and without underscore. -/
theorem names_of_length {ids : List String} {n : ℕ} (hn : 0 < n) (hl : ∀ i ∈ ids, i.toList.length = n)
    (hu : ∀ i ∈ ids, '_' ∉ i.toList) : Names ids where
  decode := by
    intro l1
    induction l1 with
    | nil =>
      intro l2 _ h2 hc
      cases l2 with
      | nil => rfl
      | cons j l2 =>
        have := hl j (h2 j (by simp))
        simp only [cat, List.flatMap_nil, List.flatMap_cons] at hc
        have := congrArg List.length hc
        simp only [List.length_nil, List.length_append] at this
        omega
    | cons i l1 ih =>
      intro l2 h1 h2 hc
      have q1 := hl i (h1 i (by simp))
      cases l2 with
      | nil =>
        simp only [cat, List.flatMap_nil, List.flatMap_cons] at hc
        have := congrArg List.length hc
        simp only [List.length_nil, List.length_append] at this
        omega
      | cons j l2 =>
        have q2 := hl j (h2 j (by simp))
        simp only [cat, List.flatMap_cons] at hc
        obtain ⟨r1, r2⟩ := List.append_inj hc (by omega)
        rw [String.toList_injective r1, ih l2 (fun k hk => h1 k (by simp [hk])) (fun k hk => h2 k (by simp [hk])) r2]
  out := by
    intro l hl' hi
    have h1 : '_' ∈ cat l := hi.subset (by decide)
    obtain ⟨i, hi, h2⟩ := List.mem_flatMap.1 h1
    exact hu i (hl' i hi) h2

theorem exHang : NoHang (exEdges.map wrap) := by
  have aA : Verif.Split.Adj (exEdges.map wrap) "A".toList Verif.Split.datum :=
    ⟨wrap eV, by simp [exEdges_eq], .inr ⟨rfl, rfl⟩⟩
  have aB : Verif.Split.Adj (exEdges.map wrap) "B".toList Verif.Split.datum :=
    ⟨wrap eC1, by simp [exEdges_eq], .inl ⟨rfl, rfl⟩⟩
  intro A hA U hU hUU
  obtain ⟨b, hb, hbA⟩ : ∃ b, U b ∧ b ≠ A := by
    obtain ⟨u, hu⟩ := hU
    obtain ⟨a, b, hab, ha, hb, -⟩ := hUU u hu
    by_cases h : a = A
    · exact ⟨b, hb, fun h' => hab (h.trans h'.symm)⟩
    · exact ⟨a, ha, h⟩
  refine ⟨b, hb, hbA, ?_⟩
  obtain ⟨m, -, -, -, -, ⟨e, he, hm⟩, -⟩ := hUU b hb
  have hbn : b = Verif.Split.datum ∨ b = "A".toList ∨ b = "B".toList := by
    simp only [exEdges_eq, List.map_cons, List.map_nil, List.mem_cons, List.not_mem_nil, or_false] at he
    rcases he with rfl | rfl | rfl | rfl <;> rcases hm with ⟨hm, -⟩ | ⟨-, hm⟩ <;> rw [← hm] <;> decide
  rcases hbn with rfl | rfl | rfl
  · exact Relation.ReflTransGen.refl
  · exact Relation.ReflTransGen.single ⟨aA, hbA, hA.symm⟩
  · exact Relation.ReflTransGen.single ⟨aB, hbA, hA.symm⟩

theorem exMeans : List.Forall₂ (fun r d => device exVal r = some d) exRows exDevices :=
  .cons rfl (.cons rfl (.cons rfl (.cons rfl .nil)))

theorem exParams : exRows.flatMap (paramOf exVal) = [("R1coeff", exVal 3), ("C1coeff", exVal 4), ("C2coeff", exVal 5)] := rfl

theorem exNet : NetOK exVal exRows exDevices where
  means := exMeans
  works := by
    intro r hr
    simp only [exRows, List.mem_cons, List.not_mem_nil, or_false] at hr
    rcases hr with rfl | rfl | rfl | rfl
    · exact ⟨by decide, by decide, by decide, by decide, fun h => absurd h (by decide), by decide, by decide⟩
    · refine ⟨by decide, by decide, by decide, by decide, fun _ k d hk => ?_, by decide, by decide⟩
      have hk : some ("R", (1000 : ℝ)) = some (k, d) := hk
      simp only [Option.some.injEq, Prod.mk.injEq] at hk
      rw [← hk.1]; decide
    all_goals
      refine ⟨by decide, by decide, by decide, by decide, fun _ k d hk => ?_, by decide, by decide⟩
      have hk : some ("C", (1 / 1000000000 : ℝ)) = some (k, d) := hk
      simp only [Option.some.injEq, Prod.mk.injEq] at hk
      rw [← hk.1]; decide
  positive := by
    intro d hd
    simp only [exDevices, List.mem_cons, List.not_mem_nil, or_false] at hd
    rcases hd with rfl | rfl | rfl | rfl
    · trivial
    · show 0 < exVal 3; norm_num [exVal]
    · show 0 < (exVal 4)⁻¹; norm_num [exVal]
    · show 0 < (exVal 5)⁻¹; norm_num [exVal]
  ids := by show ["V0", "R1", "C1", "C2"].Nodup; decide
  values := by
    rw [exParams]
    simp
  names := by
    rw [exParams]
    intro p hp
    simp only [List.mem_cons, List.not_mem_nil, or_false] at hp
    rcases hp with rfl | rfl | rfl
    · show "R1coeff" ∉ symbolsOf exDevices; decide
    · show "C1coeff" ∉ symbolsOf exDevices; decide
    · show "C2coeff" ∉ symbolsOf exDevices; decide
  ground := ⟨⟨"V0", "#", "A"⟩, List.mem_cons_self, .inl rfl⟩

def exViews : Views := ⟨fun _ => pyView, fun _ => pyView, pyView, pyView⟩

theorem exSuits : Suits exSolve exViews realI exDevices exEdges 30 where
  sympy := exSolve_lawful
  views := ⟨fun _ => pyView_lawful, fun _ => pyView_lawful, pyView_lawful, pyView_lawful⟩
  arith := realArith
  names := names_of_length (n := 2) (by decide) (by
    show ∀ i ∈ ["V0", "R1", "C1", "C2"], i.toList.length = 2; decide) (by
    show ∀ i ∈ ["V0", "R1", "C1", "C2"], '_' ∉ i.toList; decide)
  loop := by
    intro d hd
    simp only [exEdges_eq, List.mem_cons, List.not_mem_nil, or_false] at hd
    rcases hd with rfl | rfl | rfl | rfl <;> decide
  hang := exHang
  fuel := by rw [exEdges_eq]; decide

/-- The netlist is compiled: the capacitors are merged and the analysis succeeds. -/
theorem exBuilt : ∃ ps c s' c2, Built exSolve exViews realI exVal exRows ps exNodes exEdges c 30 [eC, eV, eR] s' 30 c2 := by
  obtain ⟨ps, h1, h2, h3⟩ := parts_facts exNet realArith
  obtain ⟨c, k1, k2, k3⟩ := graphCore_eq h2 h3.ratios
  obtain ⟨s', m1, m2, H, m3⟩ := exMerge exSolve_lawful (s := ⟨c, law realI ps⟩) ⟨k2, k3.trans h3.energy⟩
  obtain ⟨c2, hc2⟩ := exCore (c := s'.core) (by
    rw [m3]
    exact ⟨k2.M, k2.dxH, k2.xl, k2.wl, k2.u, k2.y, k2.cu, k2.cy, k2.connectors, rfl, k2.w, k2.z⟩) s'.law
  refine ⟨ps, c, s', c2, h1, k1, ?_, by decide, ?_, m1, hc2⟩
  · rw [graphEdges_eq h2 h3.ratios]; exact List.Perm.refl _
  · intro n
    simp only [exNodes, exEdges_eq, List.mem_cons, List.not_mem_nil, or_false]
    constructor
    · rintro (rfl | rfl | rfl)
      · exact ⟨_, .inl rfl, .inl rfl⟩
      · exact ⟨_, .inl rfl, .inr rfl⟩
      · exact ⟨_, .inr (.inl rfl), .inr rfl⟩
    · rintro ⟨d, rfl | rfl | rfl | rfl, rfl | rfl⟩ <;> simp [eV, eR, eC1, eC2]

/-- The theorems apply to the netlist: without input, the energy of the two capacitors does not grow. -/
example : ∃ ps c s' c2 m Bs, Built exSolve exViews realI exVal exRows ps exNodes exEdges c 30 [eC, eV, eR] s' 30 c2 ∧
    InAll Bs exDevices ∧ toMethod exSympy ⟨true, .discret, 0, 1 / 1000, 48000⟩ c2 = some m ∧
    ∀ n : Num, n.m = m → n.p = [] → n.o = [] → n.obs = [] → n.eps = 0 → 1 ≤ n.maxit → ∀ nt st,
      Run n nt ((List.range nt).map fun _ => m.u.map fun _ => 0) (List.replicate nt []) st → ∀ k, k + 1 < nt →
        stored exDevices (fun i => lift Bs (n.E (st (k + 2))) ("x" ++ i)) ≤
          stored exDevices (fun i => lift Bs (n.E (st (k + 1))) ("x" ++ i)) := by
  obtain ⟨ps, c, s', c2, hb⟩ := exBuilt
  obtain ⟨Bs, ec, hB, -, q⟩ := C85_energy hb exNet exSuits
  obtain ⟨m, hm, he⟩ := q exSympy exSympy_ok ⟨true, .discret, 0, 1 / 1000, 48000⟩ (by norm_num) (by simp) (by norm_num)
  refine ⟨ps, c, s', c2, m, Bs, hb, hB, hm, fun n e1 e2 e3 e4 e5 e6 nt st hr k hk => ?_⟩
  obtain ⟨E, F, -, hD, hbal⟩ := he n e1 e2 e3 e4 e5 e6 nt (fun _ _ => 0) st hr
  have h1 := hbal k 1 hk
  have h2 := hD (k + 0)
  rw [h1]
  simp only [Finset.sum_range_one, zero_mul, List.map_const', List.sum_replicate, smul_zero, add_zero] at h2 ⊢
  have : 0 ≤ dissipated exDevices (F k) / 48000 := div_nonneg h2 (by norm_num)
  linarith

/-! ### Disagreements -/

/-- Two capacitors and a source of current between the reference and a node. -/
def starEdges : List (Edge ℝ) :=
  [⟨"#", "A", "yI0", .port, .e, none, .gyrator, none, "", ""⟩,
   ⟨"#", "A", "xC1", .storage, .f, none, .gyrator, none, "", ""⟩,
   ⟨"#", "A", "xC2", .storage, .f, none, .gyrator, none, "", ""⟩]

set_option smartUnfolding false in
set_option maxHeartbeats 2000000 in
theorem starAnalyse : analyse 30 ["#", "A"] starEdges =
    .ok ⟨["#", "A"], starEdges, [[1, -1], [1, -1], [1, -1]], [[0, 0], [0, 1], [0, 0]], [0], [], [1, 2], []⟩ := rfl

/-- **C85**, disagreement: components in parallel between the reference and a node with no other neighbour are not
merged, and the analysis fails (the matrix to invert is not square). -/
theorem C85_reference_counterexample (sy : Sympy) (s : Shared) :
    prepare sy exViews 30 starEdges s = .ok (starEdges, s) ∧
    ∀ c, toCore s.law 30 ["#", "A"] starEdges c = none := by
  constructor
  · have h1 : spSplit exViews.vp exViews.vs 30 0 ⟨starEdges.map wrap, 0, 0⟩ = some ⟨starEdges.map wrap, 0, 0⟩ := rfl
    have h2 : mergeEdges sy exViews.vm (starEdges.map wrap) s = .ok (starEdges.map wrap, s) := by
      simp [starEdges, mergeEdges, mergeEdge, wrap, bind, Except.bind]
    unfold prepare
    rw [h1]
    simp only [bind, Except.bind]
    rw [h2]
    rfl
  · intro c
    unfold toCore
    rw [starAnalyse]
    rfl

/-- A capacitor with the name of the merged one. -/
def eK : Edge ℝ := ⟨"A", "#", "xC2C1", .storage, .f, none, .gyrator, none, "", ""⟩

noncomputable def clashDevices : List Device := exDevices ++ [.fluxStorage ⟨"C2C1", "A", "#"⟩ (exVal 6)⁻¹]

def parA : List Tr := [wrap eV, wrap eK, .out ['#'] ['A'] "parallel1_out_A".toList]
def parB : List Tr := [wrap eC2, wrap eC1, .out ['#'] ['B'] "parallel2_out_B".toList]
def clashTree : List Tr :=
  [.graph ['#'] ['A'] "parallel1".toList parA,
   .graph ['#'] ['A'] "serial1".toList [.graph ['#'] ['B'] "parallel2".toList parB, wrap eR,
     .out ['#'] ['A'] "serial1_out_A".toList]]

set_option maxHeartbeats 2000000 in
theorem clashSplit : spSplit (fun _ => pyView) (fun _ => pyView) 30 0
    ⟨(clashDevices.flatMap devEdges).map wrap, 0, 0⟩ = some ⟨clashTree, 2, 1⟩ := rfl

def parB' : List Tr := [.out ['#'] ['B'] "parallel2_out_B".toList, wrap eC]

/-- **C85**, disagreement: a merged component takes the name of another one, and the core has twice the same
state. -/
theorem C85_name_counterexample {sy : Sympy} (hsy : sy.Lawful) {s : Shared} (hs : Holds clashDevices s.core) :
    Distinct clashDevices ∧ ∃ edges' s', prepare sy exViews 30 (clashDevices.flatMap devEdges) s = .ok (edges', s') ∧
      s'.core.x = ["xC2C1", "xC2C1"] ∧ eC ∈ edges' ∧ eK ∈ edges' := by
  have hd : Distinct clashDevices := by show ["V0", "R1", "C1", "C2", "C2C1"].Nodup; decide
  refine ⟨hd, ?_⟩
  have h1 : slope s.core.H "xC1" = fun v => (exVal 4)⁻¹ * v :=
    slope_stored hd hs (b := ⟨"C1", "B", "#"⟩) (by simp [exDevices, clashDevices])
  have h2 : slope s.core.H "xC2" = fun v => (exVal 5)⁻¹ * v :=
    slope_stored hd hs (b := ⟨"C2", "#", "B"⟩) (by simp [exDevices, clashDevices])
  obtain ⟨newH, iQ, hn, -⟩ := nonreal_some hsy (ks := [(exVal 5)⁻¹, (exVal 4)⁻¹])
    (by simp [exVal]) (by simp only [exVal]; norm_num)
  have hx : s.core.x = ["xC1", "xC2", "xC2C1"] := hs.declares.x
  have hplan : ∃ c, planStorages sy pyView .f ['#'] ['B'] parB s =
      .ok (some ⟨wrap eC, [wrap eC2, wrap eC1]⟩, ⟨c, s.law⟩) ∧ c.x = ["xC2C1", "xC2C1"] := by
    have e1 : (pyView.edges parB).filter (isStorage .f) = [wrap eC2, wrap eC1] := rfl
    have e2 : parB.mapM (orientation ['#'] ['B']) = .ok [some true, some false, some true] := rfl
    have e3 : [wrap eC2, wrap eC1].mapM (orientation ['#'] ['B']) = .ok [some true, some false] := rfl
    have e4 : (datas [wrap eC2, wrap eC1]).map (·.label) = ["xC2", "xC1"] := rfl
    have e5 : removeAll ["xC2", "xC1"] s.core.x = some ["xC2C1"] := by rw [hx]; rfl
    have e6 : oriented [some true, some false] (["xC2", "xC1"].map (slope s.core.H)) =
        [(exVal 5)⁻¹, (exVal 4)⁻¹].map fun k v => k * v := by
      simp only [oriented, List.map_cons, List.map_nil, h1, h2, List.zipWith_cons_cons, List.zipWith_nil_left,
        orient_linear]
    unfold planStorages
    dsimp only
    rw [e1, if_neg (by decide), e2, e3]
    simp only [bind, Except.bind]
    rw [e4, e6, hn]
    dsimp only
    rw [e5]
    exact ⟨_, rfl, rfl⟩
  obtain ⟨c, hplan, hc⟩ := hplan
  have hA : mergeArc sy pyView ['#'] ['A'] "parallel1".toList parA s = .ok ([], s) := rfl
  have hS : mergeArc sy pyView ['#'] ['A'] "serial1".toList [.graph ['#'] ['B'] "parallel2".toList parB, wrap eR,
     .out ['#'] ['A'] "serial1_out_A".toList] s = .ok ([], s) := rfl
  have hdiss : planDissipatives sy pyView .f ['#'] ['B'] parB' ⟨c, s.law⟩ = .ok (none, ⟨c, s.law⟩) := rfl
  have happ : (⟨wrap eC, [wrap eC2, wrap eC1]⟩ : Plan).apply parB = .ok parB' := rfl
  have harc : mergeArc sy pyView ['#'] ['B'] "parallel2".toList parB s =
      .ok ([⟨wrap eC, [wrap eC2, wrap eC1]⟩], ⟨c, s.law⟩) := by
    unfold mergeArc
    dsimp only
    rw [show anti "parallel2".toList = .f from rfl, if_pos (show Verif.Split.isPar "parallel2".toList = true from rfl), hplan]
    simp only [bind, Except.bind, Option.toList, applyAll, List.foldlM, pure, Except.pure]
    rw [happ]
    dsimp only
    rw [hdiss]
    rfl
  have hm : mergeEdges sy pyView clashTree s = .ok ([.graph ['#'] ['A'] "parallel1".toList parA,
      .graph ['#'] ['A'] "serial1".toList [.graph ['#'] ['B'] "parallel2".toList parB', wrap eR,
        .out ['#'] ['A'] "serial1_out_A".toList]], ⟨c, s.law⟩) := by
    have hpA : mergeEdges sy pyView parA s = .ok (parA, s) := by
      simp [parA, mergeEdges, mergeEdge, wrap, bind, Except.bind]
    have hpB : mergeEdges sy pyView parB ⟨c, s.law⟩ = .ok (parB, ⟨c, s.law⟩) := by
      simp [parB, mergeEdges, mergeEdge, wrap, bind, Except.bind]
    have hB : mergeEdge sy pyView (.graph ['#'] ['B'] "parallel2".toList parB) s =
        .ok (.graph ['#'] ['B'] "parallel2".toList parB', ⟨c, s.law⟩) := by
      rw [mergeEdge, harc]
      simp only [bind, Except.bind]
      rw [hpB]
      simp only [applyAll, List.foldlM, bind, Except.bind, pure, Except.pure]
      rw [happ]
    have hSB : mergeEdges sy pyView [.graph ['#'] ['B'] "parallel2".toList parB, wrap eR,
        .out ['#'] ['A'] "serial1_out_A".toList] s =
        .ok ([.graph ['#'] ['B'] "parallel2".toList parB', wrap eR,
        .out ['#'] ['A'] "serial1_out_A".toList], ⟨c, s.law⟩) := by
      rw [mergeEdges, hB]
      simp [mergeEdges, mergeEdge, wrap, bind, Except.bind]
    have hA' : mergeEdge sy pyView (.graph ['#'] ['A'] "parallel1".toList parA) s =
        .ok (.graph ['#'] ['A'] "parallel1".toList parA, s) := by
      rw [mergeEdge, hA]
      simp only [bind, Except.bind]
      rw [hpA]
      rfl
    have hS' : mergeEdge sy pyView (.graph ['#'] ['A'] "serial1".toList
        [.graph ['#'] ['B'] "parallel2".toList parB, wrap eR, .out ['#'] ['A'] "serial1_out_A".toList]) s =
        .ok (.graph ['#'] ['A'] "serial1".toList [.graph ['#'] ['B'] "parallel2".toList parB', wrap eR,
          .out ['#'] ['A'] "serial1_out_A".toList], ⟨c, s.law⟩) := by
      rw [mergeEdge, hS]
      simp only [bind, Except.bind]
      rw [hSB]
      rfl
    unfold clashTree
    rw [mergeEdges, hA']
    simp only [bind, Except.bind]
    rw [mergeEdges, hS']
    simp only [bind, Except.bind]
    rw [mergeEdges]
  have ha : Verif.Split.spAssemble pyView [.graph ['#'] ['A'] "parallel1".toList parA,
      .graph ['#'] ['A'] "serial1".toList [.graph ['#'] ['B'] "parallel2".toList parB', wrap eR,
        .out ['#'] ['A'] "serial1_out_A".toList]] = some [wrap eV, wrap eK, wrap eR, wrap eC] := rfl
  refine ⟨[eV, eK, eR, eC], ⟨c, s.law⟩, ?_, hc, by simp, by simp⟩
  show prepare sy ⟨fun _ => pyView, fun _ => pyView, pyView, pyView⟩ 30 (clashDevices.flatMap devEdges) s = _
  unfold prepare
  dsimp only
  rw [clashSplit]
  simp only [bind, Except.bind]
  rw [hm]
  dsimp only
  rw [ha]
  rfl

end Arc
end Pyphs
