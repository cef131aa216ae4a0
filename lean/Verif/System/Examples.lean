/-
C84: a netlist to which the theorems apply, and lines that do not work as documented.
-/
import Verif.System.Props
import Verif.Netlist.Examples
import Verif.Circuit.Examples

namespace Pyphs
namespace System
open Scheme Core Graph Params Circuit Numeric Record
open Netlist (Row intFmt)

/-- A source of current, a gyrator, a resistor and a capacitor. -/
def exText : String :=
  "electronics.source src ('#', 'A'): type=current;\nconnectors.gyrator G ('A', '#', 'B', '#'): alpha=2;\nelectronics.resistor R1 ('B', 'C'): R=('Rvalue', 3);\nelectronics.Capacitor C1 ('C', '#'): C=4;"

def exRows : List (Row ℤ) :=
  [⟨"electronics".toList, "source".toList, "src".toList, .tuple [.str "#".toList, .str "A".toList],
      [("type".toList, .elem (.str "current".toList))]⟩,
   ⟨"connectors".toList, "gyrator".toList, "G".toList,
      .tuple [.str "A".toList, .str "#".toList, .str "B".toList, .str "#".toList],
      [("alpha".toList, .elem (.num 2))]⟩,
   ⟨"electronics".toList, "resistor".toList, "R1".toList, .tuple [.str "B".toList, .str "C".toList],
      [("R".toList, .tuple [.str "Rvalue".toList, .num 3])]⟩,
   ⟨"electronics".toList, "Capacitor".toList, "C1".toList, .tuple [.str "C".toList, .str "#".toList],
      [("C".toList, .elem (.num 4))]⟩]

theorem exRead : Netlist.read intFmt exText.toList = .ok exRows := by decide +kernel

noncomputable def exVal (n : ℤ) : ℝ := n

noncomputable def exDevices : List Device :=
  [.fluxSource ⟨"src", "#", "A"⟩,
   .gyrator ⟨"G1", "A", "#"⟩ ⟨"G2", "B", "#"⟩ (exVal 2),
   .resistance ⟨"R1", "B", "C"⟩ (exVal 3),
   .fluxStorage ⟨"C1", "C", "#"⟩ (exVal 4)⁻¹]

theorem exMeans : List.Forall₂ (fun r d => device exVal r = some d) exRows exDevices := by
  refine .cons ?_ (.cons ?_ (.cons ?_ (.cons ?_ .nil)))
  · rfl
  · rfl
  · rfl
  · rfl

theorem exParams : exRows.flatMap (paramOf exVal) = [("G_alpha", exVal 2), ("Rvalue", exVal 3), ("C1coeff", exVal 4)] := rfl

theorem exNet : NetOK exVal exRows exDevices where
  means := exMeans
  works := by
    intro r hr
    simp only [exRows, List.mem_cons, List.not_mem_nil, or_false] at hr
    rcases hr with rfl | rfl | rfl | rfl
    · exact ⟨by decide, by decide, by decide, by decide, fun h => absurd h (by decide), by decide, by decide⟩
    · exact ⟨by decide, by decide, by decide, by decide, fun h => absurd h (by decide), by decide, by decide⟩
    · refine ⟨by decide, by decide, by decide, by decide, fun _ k d hk => ?_, by decide, by decide⟩
      have hk : some ("R", (1000 : ℝ)) = some (k, d) := hk
      simp only [Option.some.injEq, Prod.mk.injEq] at hk
      rw [← hk.1]; decide
    · refine ⟨by decide, by decide, by decide, by decide, fun _ k d hk => ?_, by decide, by decide⟩
      have hk : some ("C", (1 / 1000000000 : ℝ)) = some (k, d) := hk
      simp only [Option.some.injEq, Prod.mk.injEq] at hk
      rw [← hk.1]; decide
  positive := by
    intro d hd
    simp only [exDevices, List.mem_cons, List.not_mem_nil, or_false] at hd
    rcases hd with rfl | rfl | rfl | rfl
    · trivial
    · show exVal 2 ≠ 0; norm_num [exVal]
    · show 0 < exVal 3; norm_num [exVal]
    · show 0 < (exVal 4)⁻¹; norm_num [exVal]
  ids := by show ["src", "G1", "G2", "R1", "C1"].Nodup; decide
  values := by
    rw [exParams]
    simp
  names := by
    rw [exParams]
    intro p hp
    simp only [List.mem_cons, List.not_mem_nil, or_false] at hp
    rcases hp with rfl | rfl | rfl
    · show "G_alpha" ∉ symbolsOf exDevices; decide
    · show "Rvalue" ∉ symbolsOf exDevices; decide
    · show "C1coeff" ∉ symbolsOf exDevices; decide
  ground := ⟨⟨"src", "#", "A"⟩, List.mem_cons_self, .inl rfl⟩

/-- A meaning of the operations over the reals. -/
noncomputable def realI : Sym.Interp ℝ :=
  ⟨fun f a => if f = "inv" then a⁻¹ else if f = "sq" then a * a else a,
    fun f a b => if f = "+" then a + b else if f = "*" then a * b else if f = "/" then a / b else 0⟩

theorem realArith : Arith realI := ⟨fun _ _ => rfl, fun _ _ => rfl, fun _ _ => rfl, fun _ => rfl⟩

def exNodes : List String := ["#", "A", "B", "C"]

noncomputable def exEdges : List (Edge ℝ) := exDevices.flatMap devEdges

noncomputable def exSt : St ℝ :=
  ⟨exNodes, [exEdges[3]'(by decide), exEdges[0]'(by decide), exEdges[4]'(by decide), exEdges[1]'(by decide),
    exEdges[2]'(by decide)],
   [[0, 0, 1, -1], [1, -1, 0, 0], [-1, 0, 0, 1], [-1, 1, 0, 0], [-1, 0, 1, 0]],
   [[0, 0, 0, 0], [0, 0, 0, 0], [0, 0, 0, 1], [0, 1, 0, 0], [0, 0, 1, 0]], [0, 1], [], [2, 3, 4], []⟩

set_option smartUnfolding false in
set_option maxHeartbeats 2000000 in
theorem exAnalyse : analyse 30 exNodes exEdges = .ok exSt := rfl

theorem exInv : ∃ B, iGammaFc exSt = some B ∧ B.r = 3 ∧ B.c = 3 := by
  unfold iGammaFc
  refine inv_some (A := gammaFc exSt) rfl ?_
  show Mat.detN 3 _ ≠ 0
  norm_num [Mat.detN, Mat.minor, gammaFc, gammaMat, Mat.slice, exSt, Finset.sum_range_succ]

theorem exCore {c : Core ℝ} (hd : Declares c exDevices) (law : String → Env ℝ → ℝ) :
    ∃ c2, toCore law 30 exNodes exEdges c = some c2 := by
  unfold toCore
  rw [exAnalyse]
  dsimp only
  obtain ⟨⟨r, c, f⟩, hB, hr, hc⟩ := exInv
  dsimp only at hr hc
  subst hr hc
  have ha : allEdges exSt = [2, 0, 1, 3, 4] := rfl
  have hJ : ∃ J : Mat ℝ, structureMatrix exSt = some J ∧ J.r = 5 ∧ J.c = 5 ∧
      ∀ i j, 3 ≤ i → 3 ≤ j → i < 5 → j < 5 → J.e i j = 0 := by
    unfold structureMatrix
    rw [hB, ha]
    refine ⟨_, rfl, rfl, rfl, ?_⟩
    intro i j hi hj hi' hj'
    have h1 : i = 3 ∨ i = 4 := by omega
    have h2 : j = 3 ∨ j = 4 := by omega
    rcases h1 with rfl | rfl <;> rcases h2 with rfl | rfl <;> rfl
  obtain ⟨⟨r, cc, g⟩, hJ, hr, hcc, hz⟩ := hJ
  dsimp only at hr hcc hz
  subst hr hcc
  unfold buildCore
  rw [hJ]
  show ∃ c2, (setCore law exSt ⟨5, 5, g⟩ c).bind connect = some c2
  obtain ⟨x, w, u, y, cu, cy, H, z, dxH, M, conns, xl, wl, Zl, fw⟩ := c
  obtain ⟨-, e1, e2, e3, e4, e5, e6, e7, e8, e9, e10, e11⟩ := hd
  dsimp only at e1 e2 e3 e4 e5 e6 e7 e8 e9 e10 e11
  subst e1 e2 e3 e4 e5 e6 e7 e8 e9 e10
  obtain ⟨z0, rfl⟩ := List.length_eq_one_iff.1 e11
  set c1 : Core ℝ := ⟨["xC1"], ["wR1"], ["usrc"], ["ysrc"], ["uG1", "uG2"], ["yG1", "yG2"], H, [law "e:wR1"],
    none, ⟨5, 5, g⟩, [⟨"uG1", "uG2", "yG1", "yG2", exVal 2⟩], 0, 0, Zl, fw⟩ with hc1
  have hset : setCore law exSt ⟨5, 5, g⟩ ⟨exDevices.flatMap devX, exDevices.flatMap devW,
      (exDevices.flatMap devPorts).map fun b => "u" ++ b.id,
      (exDevices.flatMap devPorts).map fun b => "y" ++ b.id,
      (exDevices.flatMap devConns).flatMap fun q => ["u" ++ q.2.1.id, "u" ++ q.1.id],
      (exDevices.flatMap devConns).flatMap fun q => ["y" ++ q.2.1.id, "y" ++ q.1.id], H, [z0], none, M,
      (exDevices.flatMap devConns).map fun q =>
        ⟨"u" ++ q.1.id, "u" ++ q.2.1.id, "y" ++ q.1.id, "y" ++ q.2.1.id, q.2.2⟩, 0, 0, Zl, fw⟩ =
      some c1 := rfl
  rw [hset, Option.bind_some]
  have hl : c1.labels = ["xC1", "wR1", "ysrc", "yG1", "yG2"] := rfl
  have hwf : WF c1 := ⟨rfl, rfl, rfl, rfl, rfl, fun d hd => (by cases hd), Nat.zero_le _, Nat.zero_le _,
    by rw [hl]; decide⟩
  have hconn : ConnOK c1 := by simp [ConnOK, connPairs, c1]
  refine Option.ne_none_iff_exists'.1 fun hn => ?_
  obtain ⟨β, α, hst, -, hα, p, hp, hne⟩ := (C08_connect_error c1 hwf hconn).1 hn
  have h0 := hα "xC1" (by simp [c1])
  have h1 := hα "wR1" (by simp [c1])
  have h2 := hα "ysrc" (by simp [c1])
  have r3 := hst 3 (by rw [hl]; decide)
  have r4 := hst 4 (by rw [hl]; decide)
  rw [hl] at r3 r4
  have z33 := hz 3 3 (by decide) (by decide) (by decide) (by decide)
  have z34 := hz 3 4 (by decide) (by decide) (by decide) (by decide)
  have z43 := hz 4 3 (by decide) (by decide) (by decide) (by decide)
  have z44 := hz 4 4 (by decide) (by decide) (by decide) (by decide)
  have hM : c1.M.e = g := rfl
  simp [Finset.sum_range_succ, hM, h0, h1, h2, z33, z34, z43, z44] at r3 r4
  have : p = "yG1" ∨ p = "yG2" := by simpa [c1] using hp
  rcases this with rfl | rfl
  · exact hne r3
  · exact hne r4

/-- The netlist is compiled, with any order of its edges. -/
theorem exCompiled : ∃ ps c c2, ofText intFmt exVal exText.toList = .ok ps ∧
    Compiled realI exVal exRows ps exNodes exEdges c 30 c2 := by
  obtain ⟨ps, h1, h2, h3⟩ := parts_facts exNet realArith
  obtain ⟨c, k1, k2, k3⟩ := graphCore_eq h2 h3.ratios
  obtain ⟨c2, hc2⟩ := exCore k2 (law realI ps)
  refine ⟨ps, c, c2, ?_, h1, k1, ?_, by decide, ?_, hc2⟩
  · unfold ofText
    rw [exRead]
    exact h1
  · rw [graphEdges_eq h2 h3.ratios]; exact List.Perm.refl _
  · intro n
    simp only [exNodes, exEdges, exDevices, devEdges, List.flatMap_cons, List.flatMap_nil, List.append_nil,
      List.cons_append, List.nil_append, List.mem_cons, List.not_mem_nil, or_false]
    constructor
    · rintro (rfl | rfl | rfl | rfl)
      · exact ⟨_, .inl rfl, .inl rfl⟩
      · exact ⟨_, .inl rfl, .inr rfl⟩
      · exact ⟨_, .inr (.inr (.inl rfl)), .inl rfl⟩
      · exact ⟨_, .inr (.inr (.inr (.inl rfl))), .inr rfl⟩
    · rintro ⟨d, rfl | rfl | rfl | rfl | rfl, rfl | rfl⟩ <;> simp

/-- The theorems apply to the netlist: there is a simulation of it, and its energy decreases when the
source gives nothing. -/
example : ∃ ps c c2 m, ofText intFmt exVal exText.toList = .ok ps ∧
    Compiled realI exVal exRows ps exNodes exEdges c 30 c2 ∧
    toMethod exSympy ⟨true, .discret, 0, 1 / 1000, 48000⟩ c2 = some m ∧
    ∀ n : Num, n.m = m → n.p = [] → n.o = [] → n.obs = [] → n.eps = 0 → 1 ≤ n.maxit →
    ∀ s0 : Numeric.St Nm ℝ, s0.args.length = n.all.length → ∀ nt,
    ∃ st, st 0 = s0 ∧ Run n nt ((List.range nt).map fun _ => m.u.map fun _ => 0) (List.replicate nt []) st ∧
      ∀ k, k + 1 < nt → (n.E (st (k + 2)) "xC1") ^ 2 ≤ (n.E (st (k + 1)) "xC1") ^ 2 := by
  obtain ⟨ps, c, c2, h1, h2⟩ := exCompiled
  have ht : (0 : ℝ) < 1 / 1000 := by norm_num
  have hf : (0 : ℝ) < 48000 := by norm_num
  obtain ⟨ec, -, q⟩ := C84_simulation h2 exNet realArith
  obtain ⟨ec', -, q'⟩ := C84_energy h2 exNet realArith
  obtain ⟨m, hm, hs⟩ := q exSympy exSympy_ok ⟨true, .discret, 0, 1 / 1000, 48000⟩ hf (by simp) ht
  obtain ⟨m', hm', he⟩ := q' exSympy exSympy_ok ⟨true, .discret, 0, 1 / 1000, 48000⟩ hf (by simp) ht
  obtain rfl : m = m' := Option.some.inj (hm.symm.trans hm')
  refine ⟨ps, c, c2, m, h1, h2, hm, fun n e1 e2 e3 e4 e5 e6 s0 l0 nt => ?_⟩
  obtain ⟨⟨st, r0, hr⟩, -⟩ := hs n e1 e2 e3 e4 (le_of_eq e5.symm) (by rw [e5]; norm_num) e6 nt (fun _ _ => 0) s0 l0
  refine ⟨st, r0, hr, fun k hk => ?_⟩
  obtain ⟨E, F, -, hD, hbal⟩ := he n e1 e2 e3 e4 e5 e6 nt _ st hr
  have := hbal k 1 hk
  have hd := hD (k + 0)
  simp [sources, exDevices, stored, Device.energy, exVal] at this hd
  linarith

/-! ### Disagreements -/

/-- A line with two nodes. -/
def line (dict comp : String) (args : List (String × Netlist.Lit ℤ)) : Row ℤ :=
  ⟨dict.toList, comp.toList, "L".toList, .tuple [.str "A".toList, .str "#".toList],
    args.map fun p => (p.1.toList, p.2)⟩

/-- **C84**, disagreement: the documented defaults of these classes are not used, the lines are rejected
(`KeyError`). -/
theorem C84_default_counterexample :
    ∀ p ∈ [("electronics", "resistor"), ("electronics", "inductor"), ("electronics", "source"),
        ("mechanics_dual", "stiffness"), ("mechanics_dual", "source")],
      (device exVal (line p.1 p.2 [])).isSome = true ∧
      buildParts exVal [line p.1 p.2 []] = .error .key := by
  intro p hp
  simp only [List.mem_cons, List.not_mem_nil, or_false] at hp
  rcases hp with rfl | rfl | rfl | rfl | rfl <;> exact ⟨rfl, rfl⟩

/-- **C84**, disagreement: the default of the electronic capacitor is the name `1e-9` and not the number: its
energy depends on a parameter without value. -/
theorem C84_capacitor_counterexample :
    device exVal (line "electronics" "capacitor" []) =
      some (.fluxStorage ⟨"L", "A", "#"⟩ (1 / 1000000000)⁻¹) ∧
    ∃ ps, buildParts exVal [line "electronics" "capacitor" []] = .ok ps ∧
      ∃ e, energy realI ps e ≠ stored [.fluxStorage ⟨"L", "A", "#"⟩ (1 / 1000000000)⁻¹] fun i => e ("x" ++ i) := by
  refine ⟨rfl, _, rfl, fun s => if s = "xL" then 1 else 2, ?_⟩
  have h : ∀ e : String → ℝ, energy realI [.storage "L" "A" "#" (.str "1e-9") true .f] e =
      0 + ((e "1e-9")⁻¹ * (e "xL" * e "xL")) / 2 := fun e => rfl
  intro hh
  have := (h _).symm.trans hh
  simp [stored, Device.energy] at this
  norm_num at this

/-- **C84**, disagreement: the documented name of the magnetic source of flux variation is rejected
(`AssertionError`). -/
theorem C84_mfv_counterexample :
    (device exVal (line "magnetics" "source" [("type", .elem (.str "mfv".toList))])).isSome = true ∧
    buildParts exVal [line "magnetics" "source" [("type", .elem (.str "mfv".toList))]] = .error .assertion :=
  ⟨rfl, rfl⟩

/-- A resistor whose resistance is `None` has the resistance zero, as in `C84_none`. -/
example : (line "electronics" "resistor" [("R", .none)]).args.lookup "R".toList = some .none ∧
    rowPart exVal (line "electronics" "resistor" [("R", .none)]) =
      rowPart exVal (line "electronics" "resistor" [("R", .elem (.num 0))]) :=
  ⟨rfl, C84_none exVal _ _ "R" 1000 0 (by simp [exVal]) rfl (by decide) rfl rfl⟩

end System
end Pyphs
