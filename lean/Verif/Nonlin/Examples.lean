/-
C86: a netlist to which the theorems apply, and lines that do not work as documented.
-/
import Verif.Nonlin.Exists
import Verif.Netlist.Examples
import Verif.Circuit.Examples

namespace Pyphs
namespace Nonlin
open Scheme Core Graph Params Circuit Numeric Record
open _root_.Pyphs.System (Branch Device devEdges devX devW devPorts devConns Declares Works)
open Netlist (Row intFmt)

/-- A source of current, a capacitor, a cubic spring and a diode. -/
def exText : String :=
  "electronics.source src ('#', 'A'): type=current;\nelectronics.Capacitor C1 ('A', '#'): C=4;\nmechanics.springcubic K ('A', '#'): F1=2; F3=('cube', 3); xref=1;\nelectronics.diode D ('A', '#'): Is=1; mu=1; R=1; v0=1;"

def exRows : List (Row ℤ) :=
  [⟨"electronics".toList, "source".toList, "src".toList, .tuple [.str "#".toList, .str "A".toList],
      [("type".toList, .elem (.str "current".toList))]⟩,
   ⟨"electronics".toList, "Capacitor".toList, "C1".toList, .tuple [.str "A".toList, .str "#".toList],
      [("C".toList, .elem (.num 4))]⟩,
   ⟨"mechanics".toList, "springcubic".toList, "K".toList, .tuple [.str "A".toList, .str "#".toList],
      [("F1".toList, .elem (.num 2)), ("F3".toList, .tuple [.str "cube".toList, .num 3]),
        ("xref".toList, .elem (.num 1))]⟩,
   ⟨"electronics".toList, "diode".toList, "D".toList, .tuple [.str "A".toList, .str "#".toList],
      [("Is".toList, .elem (.num 1)), ("mu".toList, .elem (.num 1)), ("R".toList, .elem (.num 1)),
        ("v0".toList, .elem (.num 1))]⟩]

theorem exRead : Netlist.read intFmt exText.toList = .ok exRows := by decide +kernel

noncomputable def exVal (n : ℤ) : ℝ := n

noncomputable def exComponents : List (List Component) :=
  [[.linear (.fluxSource ⟨"src", "#", "A"⟩)],
   [.linear (.fluxStorage ⟨"C1", "A", "#"⟩ (exVal 4)⁻¹)],
   [.effortStorage ⟨"K", "A", "#"⟩ (cubicEnergy (exVal 2) (exVal 3) (exVal 1))
      (cubicForce (exVal 2) (exVal 3) (exVal 1)) Set.univ],
   [.conductor ⟨"D", "A", "#D"⟩ (shockley (exVal 1) (exVal 1) (exVal 1)),
      .linear (.resistance ⟨"D_R", "#D", "#"⟩ (exVal 1)),
      .linear (.resistance ⟨"D_gmin", "A", "#D"⟩ 1e12)]]

theorem exMeans : List.Forall₂ (fun r l => components exVal r = some l) exRows exComponents := by
  refine .cons ?_ (.cons ?_ (.cons ?_ (.cons ?_ .nil)))
  · rfl
  · rfl
  · rfl
  · rfl

theorem exParams : exRows.flatMap (paramsOf exVal) = [("C1coeff", exVal 4), ("K_F1", exVal 2), ("cube", exVal 3),
    ("K_xref", exVal 1), ("D_Is", exVal 1), ("D_mu", exVal 1), ("D_R", exVal 1), ("D_v0", exVal 1),
    ("gmin", 1e-12)] := rfl

theorem exNet : NetOK exVal exRows exComponents where
  means := exMeans
  works := by
    intro r hr
    simp only [exRows, List.mem_cons, List.not_mem_nil, or_false] at hr
    rcases hr with rfl | rfl | rfl | rfl
    · intro _
      exact ⟨by decide, by decide, by decide, by decide, fun h => absurd h (by decide), by decide, by decide⟩
    · intro _
      refine ⟨by decide, by decide, by decide, by decide, fun _ k d hk => ?_, by decide, by decide⟩
      have hk : some ("C", (1 / 1000000000 : ℝ)) = some (k, d) := hk
      simp only [Option.some.injEq, Prod.mk.injEq] at hk
      rw [← hk.1]; decide
    · intro h; cases h
    · intro h; cases h
  worksNl := by
    intro r hr
    simp only [exRows, List.mem_cons, List.not_mem_nil, or_false] at hr
    rcases hr with rfl | rfl | rfl | rfl
    · intro ps h; cases h
    · intro ps h; cases h
    · intro ps h
      cases h
      refine ⟨by decide, by decide, ?_, by decide, fun h => absurd h (by decide)⟩
      intro p hp s v hg
      simp only [List.mem_cons, List.not_mem_nil, or_false] at hp
      rcases hp with rfl | rfl | rfl
      · cases hg
      · have hg : some (some "cube", exVal 3) = some (some s, v) := hg
        simp only [Option.some.injEq, Prod.mk.injEq] at hg
        rw [← hg.1]
        exact .inr (by decide)
      · cases hg
    · intro ps h
      cases h
      refine ⟨by decide, by decide, ?_, by decide, fun h => absurd h (by decide)⟩
      intro p hp s v hg
      simp only [List.mem_cons, List.not_mem_nil, or_false] at hp
      rcases hp with rfl | rfl | rfl | rfl <;> cases hg
  physical := by
    intro c hc
    obtain ⟨l, hl, hc⟩ := List.mem_flatten.1 hc
    simp only [exComponents, List.mem_cons, List.not_mem_nil, or_false] at hl
    rcases hl with rfl | rfl | rfl | rfl
    · cases List.mem_singleton.1 hc; trivial
    · cases List.mem_singleton.1 hc; show 0 < (exVal 4)⁻¹; norm_num [exVal]
    · exact C86_laws (dict := "mechanics") (comp := "springcubic") (l := "K") (ns := ["A", "#"])
        (vs := [exVal 2, exVal 3, exVal 1]) rfl trivial c hc
    · exact C86_laws (dict := "electronics") (comp := "diode") (l := "D") (ns := ["A", "#"])
        (vs := [exVal 1, exVal 1, exVal 1, exVal 1]) rfl (by simp [Sound, exVal]) c hc
  ids := by show ["src", "C1", "K", "D", "D_R", "D_gmin"].Nodup; decide
  values := by
    rw [exParams]
    simp
  names := by
    rw [exParams]
    intro p hp
    simp only [List.mem_cons, List.not_mem_nil, or_false] at hp
    rcases hp with rfl | rfl | rfl | rfl | rfl | rfl | rfl | rfl | rfl
    · show "C1coeff" ∉ symbolsOf exComponents.flatten; decide
    · show "K_F1" ∉ symbolsOf exComponents.flatten; decide
    · show "cube" ∉ symbolsOf exComponents.flatten; decide
    · show "K_xref" ∉ symbolsOf exComponents.flatten; decide
    · show "D_Is" ∉ symbolsOf exComponents.flatten; decide
    · show "D_mu" ∉ symbolsOf exComponents.flatten; decide
    · show "D_R" ∉ symbolsOf exComponents.flatten; decide
    · show "D_v0" ∉ symbolsOf exComponents.flatten; decide
    · show "gmin" ∉ symbolsOf exComponents.flatten; decide
  ground := ⟨⟨"src", "#", "A"⟩, List.mem_cons_self, .inl rfl⟩

/-- A meaning of the operations over the reals. -/
noncomputable def realNl : Sym.Interp ℝ :=
  ⟨fun f a => if f = "inv" then a⁻¹ else if f = "sq" then a * a else if f = "exp" then Real.exp a
      else if f = "log" then Real.log a else if f = "cos" then Real.cos a else a,
    fun f a b => if f = "+" then a + b else if f = "*" then a * b else if f = "/" then a / b
      else if f = "-" then a - b else if f = "**" then a ^ b else 0⟩

theorem realArith : ArithNl realNl :=
  ⟨⟨fun _ _ => rfl, fun _ _ => rfl, fun _ _ => rfl, fun _ => rfl⟩, fun _ _ => rfl, fun _ _ => rfl, fun _ => rfl,
    fun _ => rfl, fun _ => rfl⟩

def exNodes : List String := ["#", "A", "#D"]

noncomputable def exDevices : List Device := exComponents.flatten.map Component.shadow

noncomputable def exEdges : List (Edge ℝ) := exDevices.flatMap devEdges

noncomputable def exSt : Graph.St ℝ :=
  ⟨exNodes, [exEdges[4]'(by decide), exEdges[3]'(by decide), exEdges[2]'(by decide), exEdges[0]'(by decide),
    exEdges[1]'(by decide), exEdges[5]'(by decide)],
   [[-1, 0, 1], [0, 1, -1], [-1, 1, 0], [1, -1, 0], [-1, 1, 0], [0, 1, -1]],
   [[0, 0, 0], [0, 0, 0], [0, 0, 0], [0, 0, 0], [0, 1, 0], [0, 0, 1]], [0, 1, 2, 3], [], [4, 5], []⟩

set_option smartUnfolding false in
set_option maxHeartbeats 2000000 in
theorem exAnalyse : analyse 30 exNodes exEdges = .ok exSt := rfl

theorem exInv : ∃ B, iGammaFc exSt = some B ∧ B.r = 2 ∧ B.c = 2 := by
  unfold iGammaFc
  refine inv_some (A := gammaFc exSt) rfl ?_
  show Mat.detN 2 _ ≠ 0
  norm_num [Mat.detN, Mat.minor, gammaFc, gammaMat, Mat.slice, exSt, Finset.sum_range_succ]

theorem exCore {c : Core ℝ} (hd : Declares c exDevices) (law : String → Env ℝ → ℝ) :
    ∃ c2, toCore law 30 exNodes exEdges c = some c2 ∧ c2.w = ["wD_R", "wD", "wD_gmin"] ∧
      c2.z = [law "e:wD_R", law "e:wD", law "f:wD_gmin"] := by
  unfold toCore
  rw [exAnalyse]
  dsimp only
  obtain ⟨⟨r, c, f⟩, hB, hr, hc⟩ := exInv
  dsimp only at hr hc
  subst hr hc
  have hJ : ∃ J : Mat ℝ, structureMatrix exSt = some J ∧ J.r = 6 ∧ J.c = 6 := by
    unfold structureMatrix
    rw [hB]
    exact ⟨_, rfl, rfl, rfl⟩
  obtain ⟨⟨r, cc, g⟩, hJ, hr, hcc⟩ := hJ
  dsimp only at hr hcc
  subst hr hcc
  unfold buildCore
  rw [hJ]
  show ∃ c2, (setCore law exSt ⟨6, 6, g⟩ c).bind connect = some c2 ∧ _
  obtain ⟨x, w, u, y, cu, cy, H, z, dxH, M, conns, xl, wl, Zl, fw⟩ := c
  obtain ⟨-, e1, e2, e3, e4, e5, e6, e7, e8, e9, e10, e11⟩ := hd
  dsimp only at e1 e2 e3 e4 e5 e6 e7 e8 e9 e10 e11
  subst e1 e2 e3 e4 e5 e6 e7 e8 e9 e10
  obtain ⟨z0, z1, z2, rfl⟩ := List.length_eq_three.1 e11
  set c1 : Core ℝ := ⟨["xK", "xC1"], ["wD_R", "wD", "wD_gmin"], ["usrc"], ["ysrc"], [], [], H,
    [law "e:wD_R", law "e:wD", law "f:wD_gmin"], none, ⟨6, 6, g⟩, [], 0, 0, Zl, fw⟩ with hc1
  have hset : setCore law exSt ⟨6, 6, g⟩ ⟨exDevices.flatMap devX, exDevices.flatMap devW,
      (exDevices.flatMap devPorts).map fun b => "u" ++ b.id,
      (exDevices.flatMap devPorts).map fun b => "y" ++ b.id,
      (exDevices.flatMap devConns).flatMap fun q => ["u" ++ q.2.1.id, "u" ++ q.1.id],
      (exDevices.flatMap devConns).flatMap fun q => ["y" ++ q.2.1.id, "y" ++ q.1.id], H, [z0, z1, z2], none, M,
      (exDevices.flatMap devConns).map fun q =>
        ⟨"u" ++ q.1.id, "u" ++ q.2.1.id, "y" ++ q.1.id, "y" ++ q.2.1.id, q.2.2⟩, 0, 0, Zl, fw⟩ =
      some c1 := rfl
  rw [hset, Option.bind_some]
  have hl : c1.labels = ["xK", "xC1", "wD_R", "wD", "wD_gmin", "ysrc"] := rfl
  have hwf : WF c1 := ⟨rfl, rfl, rfl, rfl, rfl, fun d hd => (by cases hd), Nat.zero_le _, Nat.zero_le _,
    by rw [hl]; decide⟩
  have hconn : ConnOK c1 := by simp [ConnOK, connPairs, c1]
  cases hn : connect c1 with
  | none =>
    obtain ⟨β, α, hst, -, hα, p, hp, hne⟩ := (C08_connect_error c1 hwf hconn).1 hn
    cases hp
  | some c2 =>
    obtain ⟨-, -, qw, -, -, qz, -⟩ := C08_connect c1 c2 hwf hconn hn
    exact ⟨c2, rfl, qw, qz⟩

/-- The netlist is compiled; the diode is computed from its voltage. -/
theorem exCompiled' : ∃ ps c c2, ofText intFmt exVal exText.toList = .ok ps ∧
    Compiled realNl exVal exRows ps exNodes exEdges c 30 c2 ∧
    ("wD", fun e : Env ℝ => shockley 1 1 1 (e "wD")) ∈ c2.w.zip c2.z := by
  obtain ⟨ps, L, h1, h2, h3⟩ := parts_facts exNet realArith
  obtain ⟨c, k1, k2, k3⟩ := graphCore_eq h2 h3.ratios
  obtain ⟨c2, hc2, hw2, hz2⟩ := exCore k2 (law realNl ps)
  refine ⟨ps, c, c2, ?_, ⟨h1, k1, ?_, by decide, ?_, hc2⟩, ?_⟩
  · unfold ofText
    rw [exRead]
    exact h1
  · rw [graphEdges_eq h2 h3.ratios]; exact List.Perm.refl _
  · intro n
    simp only [exNodes, exEdges, exDevices, exComponents, Component.shadow, devEdges, List.flatten_cons,
      List.flatten_nil, List.map_cons, List.map_nil, List.flatMap_cons, List.flatMap_nil, List.append_nil,
      List.cons_append, List.nil_append, List.mem_cons, List.not_mem_nil, or_false]
    constructor
    · rintro (rfl | rfl | rfl)
      · exact ⟨_, .inl rfl, .inl rfl⟩
      · exact ⟨_, .inl rfl, .inr rfl⟩
      · exact ⟨_, .inr (.inr (.inr (.inl rfl))), .inr rfl⟩
    · rintro ⟨d, rfl | rfl | rfl | rfl | rfl | rfl, rfl | rfl⟩ <;> simp
  · obtain ⟨gi, -, hq⟩ := h3.list.conductor ⟨"D", "A", "#D"⟩ (shockley (exVal 1) (exVal 1) (exVal 1))
      (by simp [exComponents])
    have hL : (L.map (·.1)).Nodup := by rw [h3.list.ids]; exact diss_nodup exNet.ids
    have := (law_eq h3 hL hq).2
    rw [hw2, hz2]
    refine List.mem_cons_of_mem _ (List.mem_cons.2 (.inl (Prod.ext rfl ?_)))
    show _ = law realNl ps ("e:w" ++ "D")
    rw [this]
    norm_num [exVal]
    rfl

/-- The netlist is compiled. -/
theorem exCompiled : ∃ ps c c2, ofText intFmt exVal exText.toList = .ok ps ∧
    Compiled realNl exVal exRows ps exNodes exEdges c 30 c2 := by
  obtain ⟨ps, c, c2, h1, h2, -⟩ := exCompiled'
  exact ⟨ps, c, c2, h1, h2⟩

open Classical in
/-- A sympy that finds the second derivatives that vanish. -/
noncomputable def nlSympy : Sympy := { exSympy with
  nz := fun c => ⟨c.x.length - c.xl, c.x.length - c.xl, fun i j => decide
    (¬ ((∀ e, pdiff (pdiff c.H (c.x.getD (c.xl + i) "")) (c.x.getD (c.xl + j) "") e = 0) ∧
      (∀ e, pdiff (pdiff c.H (c.x.getD (c.xl + j) "")) (c.x.getD (c.xl + i) "") e = 0)))⟩ }

theorem nlSympy_ok : nlSympy.OK :=
  ⟨fun _ => ⟨rfl, rfl⟩, fun _ => ⟨rfl, rfl⟩,
    fun _ => ⟨rfl, rfl, fun _ _ _ _ => by simp only [nlSympy]; rw [decide_eq_decide, and_comm]⟩,
    fun _ => ⟨rfl, rfl⟩, fun _ _ => ⟨rfl, rfl⟩⟩

theorem nlSympy_nz : NzExact nlSympy := by
  intro c i _ j _ _ h1 h2
  simp only [nlSympy, decide_eq_false_iff_not, not_not]
  exact ⟨h1, h2⟩

noncomputable def exConfig : Config := ⟨false, .discret, 0, 1 / 1000, 48000⟩

/-- The current of the diode when the voltage of its junction is one volt. -/
noncomputable def exI : ℝ := Real.exp 1 - 1 + 1e-12

/-- The force of the spring. -/
noncomputable def exK : ℝ := (ruleOf exConfig).slope (cubicEnergy (exVal 2) (exVal 3) (exVal 1))
  (cubicForce (exVal 2) (exVal 3) (exVal 1)) 0 ((1 + exI) / 48000)

noncomputable def exE : String → ℝ
  | "src" => -(1 + exI) | "C1" => 1 + exI | "K" => 1 + exI | "D" => 1 | "D_R" => exI | "D_gmin" => 1 | _ => 0

noncomputable def exF : String → ℝ
  | "src" => exK + exI | "K" => exK | "D" => Real.exp 1 - 1 | "D_R" => exI | "D_gmin" => 1e-12 | _ => 0

open Classical in
/-- The values of the symbols. -/
noncomputable def exEnv (ec : String → Prop) : String → ℝ
  | "xC1" => 4 * (1 + exI)
  | "dxK" => (1 + exI) / 48000
  | "usrc" => exK + exI
  | "wD" => if ec "D" then 1 else Real.exp 1 - 1
  | "wD_R" => exI
  | "wD_gmin" => if ec "D_gmin" then 1 else 1e-12
  | _ => 0

theorem exStep (ec : String → Prop) :
    Step exComponents.flatten ec 48000 (ruleOf exConfig) (exEnv ec) exE exF where
  flux := by
    intro n hn
    have h : (exComponents.flatten.flatMap Component.branches) =
      [⟨"src", "#", "A"⟩, ⟨"C1", "A", "#"⟩, ⟨"K", "A", "#"⟩, ⟨"D", "A", "#D"⟩, ⟨"D_R", "#D", "#"⟩,
        ⟨"D_gmin", "A", "#D"⟩] := rfl
    have hn : ¬ ("#" = n) := fun h => hn h.symm
    rw [h]
    simp only [List.map_cons, List.map_nil, List.sum_cons, List.sum_nil, if_neg hn]
    by_cases h1 : "A" = n
    · have h2 : ¬ ("#D" = n) := by rw [← h1]; decide
      have h0 : exF "C1" = 0 := rfl
      simp only [if_pos h1, if_neg h2, h0]
      simp only [exF, exI]
      ring
    · by_cases h2 : "#D" = n
      · simp only [if_neg h1, if_pos h2, exF, exI]
        ring
      · simp [if_neg h1, if_neg h2]
  effort := by
    refine ⟨fun n => if n = "A" then 1 + exI else if n = "#D" then exI else 0, ?_⟩
    show ∀ b ∈ [(⟨"src", "#", "A"⟩ : Branch), ⟨"C1", "A", "#"⟩, ⟨"K", "A", "#"⟩, ⟨"D", "A", "#D"⟩, ⟨"D_R", "#D", "#"⟩,
        ⟨"D_gmin", "A", "#D"⟩], _
    intro b hb
    simp only [List.mem_cons, List.not_mem_nil, or_false] at hb
    rcases hb with rfl | rfl | rfl | rfl | rfl | rfl <;> simp [exE]
  laws := by
    intro c hc
    simp only [exComponents, List.flatten_cons, List.flatten_nil, List.append_nil, List.cons_append,
      List.nil_append, List.mem_cons, List.not_mem_nil, or_false] at hc
    rcases hc with rfl | rfl | rfl | rfl | rfl | rfl
    · show exK + exI = exK + exI
      rfl
    · refine ⟨show (0 : ℝ) = 48000 * 0 by simp, show 1 + exI = (exVal 4)⁻¹ * (4 * (1 + exI) + _ * 0) from ?_⟩
      norm_num [exVal]
      ring
    · refine ⟨show 1 + exI = 48000 * ((1 + exI) / 48000) by ring, rfl⟩
    · show Real.exp 1 - 1 = shockley (exVal 1) (exVal 1) (exVal 1) 1
      norm_num [shockley, exVal]
    · show exI = exVal 1 * exI
      norm_num [exVal]
    · show (1 : ℝ) = 1e12 * 1e-12
      norm_num
  diss := by
    intro c hc
    simp only [exComponents, List.flatten_cons, List.flatten_nil, List.append_nil, List.cons_append,
      List.nil_append, List.mem_cons, List.not_mem_nil, or_false] at hc
    rcases hc with rfl | rfl | rfl | rfl | rfl | rfl
    · intro b hb; cases hb
    · intro b hb; cases hb
    · intro b hb; cases hb
    · intro b hb
      cases List.mem_singleton.1 hb
      exact ⟨fun h => if_pos h, fun h => if_neg h⟩
    · intro b hb
      cases List.mem_singleton.1 hb
      exact ⟨fun h => rfl, fun h => rfl⟩
    · intro b hb
      cases List.mem_singleton.1 hb
      exact ⟨fun h => if_pos h, fun h => if_neg h⟩

theorem exDomain (ec : String → Prop) : InDomain exComponents.flatten ec (ruleOf exConfig) (exEnv ec) where
  storages := by
    intro b h f dom hb
    simp only [exComponents, List.flatten_cons, List.flatten_nil, List.append_nil, List.cons_append,
      List.nil_append, List.mem_cons, List.not_mem_nil, or_false, reduceCtorEq, false_or,
      Component.effortStorage.injEq] at hb
    obtain ⟨-, -, -, rfl⟩ := hb
    exact fun _ _ => trivial
  conductors := by
    intro b g hb hec
    simp only [exComponents, List.flatten_cons, List.flatten_nil, List.append_nil, List.cons_append,
      List.nil_append, List.mem_cons, List.not_mem_nil, or_false, reduceCtorEq, false_or,
      Component.conductor.injEq] at hb
    obtain ⟨rfl, rfl⟩ := hb
    refine ⟨1, ?_⟩
    rw [show exEnv ec ("w" ++ (⟨"D", "A", "#D"⟩ : Branch).id) = Real.exp 1 - 1 from if_neg hec]
    norm_num [shockley, exVal]

/-- The theorems apply to the netlist: its equations have a solution, with one volt on the junction of the
diode, and the output is the opposite of the voltage of the capacitor. -/
example : ∃ ps c c2 m ec, ofText intFmt exVal exText.toList = .ok ps ∧
    Compiled realNl exVal exRows ps exNodes exEdges c 30 c2 ∧ toMethod nlSympy exConfig c2 = some m ∧
    m.Solved (exEnv ec) ∧ outOf m "ysrc" (exEnv ec) = -(1 + exI) ∧ 0 < exEnv ec "usrc" - exK := by
  obtain ⟨ps, c, c2, h1, h2⟩ := exCompiled
  obtain ⟨ec, -, q⟩ := C86_equations h2 exNet realArith
  obtain ⟨m, hm, -, hq⟩ := q nlSympy nlSympy_ok exConfig (by norm_num [exConfig])
  have hf := C86_groups h2 exNet realArith nlSympy_ok hm (.inl ⟨rfl, nlSympy_nz⟩)
  obtain ⟨a, b⟩ := hq hf _ (exDomain ec)
  refine ⟨ps, c, c2, m, ec, h1, h2, hm, a.2 ⟨_, _, exStep ec⟩, (b _ _ (exStep ec)).1 ⟨"src", "#", "A"⟩ List.mem_cons_self, ?_⟩
  have : (0 : ℝ) < Real.exp 1 - 1 := by have := Real.add_one_lt_exp (one_ne_zero); linarith
  show 0 < exK + exI - exK
  rw [exI]
  norm_num
  linarith

/-- The energy does not increase when the source gives nothing, at the steps whose increments are not
small. -/
example : ∃ ps c c2 m ec, ofText intFmt exVal exText.toList = .ok ps ∧
    Compiled realNl exVal exRows ps exNodes exEdges c 30 c2 ∧ toMethod nlSympy exConfig c2 = some m ∧
    ∀ n : Num, n.m = m → n.p = [] → n.o = [] → ∀ (nt : ℕ) (st : ℕ → Numeric.St Nm ℝ),
      Run n nt ((List.range nt).map fun _ => m.u.map fun _ => 0) (List.replicate nt []) st →
      (∀ i < nt, m.Solved (n.E (st (i + 1))) ∧
        InDomain exComponents.flatten ec (ruleOf exConfig) (n.E (st (i + 1))) ∧
        1 / 1000 ≤ n.E (st (i + 1)) "dxK") → ∀ k, k + 1 < nt →
      stored exComponents.flatten (fun i => n.E (st (k + 2)) ("x" ++ i)) ≤
        stored exComponents.flatten (fun i => n.E (st (k + 1)) ("x" ++ i)) := by
  obtain ⟨ps, c, c2, h1, h2⟩ := exCompiled
  obtain ⟨ec, -, q⟩ := C86_simulation h2 exNet realArith
  obtain ⟨m, hm, hq⟩ := q nlSympy nlSympy_ok exConfig (by norm_num [exConfig]) (by norm_num [exConfig])
  have hf := C86_groups h2 exNet realArith nlSympy_ok hm (.inl ⟨rfl, nlSympy_nz⟩)
  refine ⟨ps, c, c2, m, ec, h1, h2, hm, fun n e1 e2 e3 nt st hr hs k hk => ?_⟩
  obtain ⟨E, F, -, hD, hE⟩ := hq hf n e1 e2 e3 nt (fun _ _ => 0) st hr fun i hi => ⟨(hs i hi).1, (hs i hi).2.1⟩
  have := hE (fun i hi => ⟨fun h => (nomatch h), fun b h f dom hb => ?_⟩) k 1 hk
  · rw [this]
    have hd := hD (k + 0) (by omega)
    simp only [Finset.sum_range_one, zero_mul, List.map_const', List.sum_replicate, smul_zero, add_zero]
    have : 0 ≤ dissipated exComponents.flatten (E (k + 0)) (F (k + 0)) / exConfig.fs :=
      div_nonneg hd (by norm_num [exConfig])
    simp only [add_zero] at this
    linarith
  · simp only [exComponents, List.flatten_cons, List.flatten_nil, List.append_nil, List.cons_append,
      List.nil_append, List.mem_cons, List.not_mem_nil, or_false, reduceCtorEq, false_or,
      Component.effortStorage.injEq] at hb
    obtain ⟨rfl, -⟩ := hb
    exact ⟨rfl, .inr (.inr (hs i hi).2.2)⟩

/-- With the theta-scheme, the solution of the equations is unique. -/
example : ∃ ps c c2 m ec, ofText intFmt exVal exText.toList = .ok ps ∧
    Compiled realNl exVal exRows ps exNodes exEdges c 30 c2 ∧
    toMethod nlSympy ⟨true, .theta, 1, 1 / 1000, 48000⟩ c2 = some m ∧
    ∀ e e', m.Solved e → m.Solved e' → InDomain exComponents.flatten ec ⟨.theta, 1, 1 / 1000⟩ e →
      InDomain exComponents.flatten ec ⟨.theta, 1, 1 / 1000⟩ e' →
      (∀ x ∈ m.g.x, e' x = e x) → (∀ u ∈ m.u, e' u = e u) →
      (∀ x ∈ m.g.x, e' (dn x) = e (dn x)) ∧ ∀ w ∈ m.w, e' w = e w := by
  obtain ⟨ps, c, c2, h1, h2⟩ := exCompiled
  obtain ⟨ec, -, q⟩ := C86_unique h2 exNet realArith
  obtain ⟨m, hm, hq⟩ := q nlSympy nlSympy_ok ⟨true, .theta, 1, 1 / 1000, 48000⟩ (by norm_num) (by norm_num)
  have hf := C86_groups h2 exNet realArith nlSympy_ok hm (.inr (.inl (by decide)))
  refine ⟨ps, c, c2, m, ec, h1, h2, hm, fun e e' s1 s2 d1 d2 hx hu => hq hf e e' s1 s2 d1 d2 ⟨fun _ => one_pos, ?_⟩ hx hu⟩
  intro b h f dom hb
  simp only [exComponents, List.flatten_cons, List.flatten_nil, List.append_nil, List.cons_append,
    List.nil_append, List.mem_cons, List.not_mem_nil, or_false, reduceCtorEq, false_or,
    Component.effortStorage.injEq] at hb
  obtain ⟨-, -, rfl, -⟩ := hb
  intro a _ b _ hab
  show cubicForce _ _ _ (_ + 1 * a) < cubicForce _ _ _ (_ + 1 * b)
  set y := e ("x" ++ _)
  have h3 : (y + 1 * a) ^ 3 < (y + 1 * b) ^ 3 := Odd.strictMono_pow (by decide) (by linarith)
  norm_num [cubicForce, exVal] at h3 ⊢
  linarith

theorem exSmooth {c2 : Core ℝ} {ec : String → Prop}
    (h : ("wD", fun e : Env ℝ => shockley 1 1 1 (e "wD")) ∈ c2.w.zip c2.z)
    (hz : ∀ p ∈ c2.w.zip c2.z, Chosen exComponents.flatten ec p) : Smooth exComponents.flatten ec where
  conductors := by
    intro b g hb
    simp only [exComponents, List.flatten_cons, List.flatten_nil, List.append_nil, List.cons_append,
      List.nil_append, List.mem_cons, List.not_mem_nil, or_false, reduceCtorEq, false_or,
      Component.conductor.injEq] at hb
    obtain ⟨rfl, rfl⟩ := hb
    refine ⟨?_, by unfold shockley; fun_prop⟩
    obtain ⟨b, hb, ⟨r, h1, -⟩ | ⟨g, h1, -, h2⟩⟩ := hz _ h
    · exfalso
      have hb : "wD" = "w" ++ b.id := hb
      simp only [exComponents, List.flatten_cons, List.flatten_nil, List.append_nil, List.cons_append,
        List.nil_append, List.mem_cons, List.not_mem_nil, or_false, reduceCtorEq, false_or,
        Component.linear.injEq, Device.resistance.injEq] at h1
      rcases h1 with ⟨rfl, -⟩ | ⟨rfl, -⟩ <;> exact absurd hb (by decide)
    · simp only [exComponents, List.flatten_cons, List.flatten_nil, List.append_nil, List.cons_append,
        List.nil_append, List.mem_cons, List.not_mem_nil, or_false, reduceCtorEq, false_or,
        Component.conductor.injEq] at h1
      obtain ⟨rfl, rfl⟩ := h1
      by_contra hec
      obtain ⟨gi, hi, he⟩ := h2 hec
      have e1 : ∀ t : ℝ, shockley 1 1 1 t = gi t := fun t => congrFun he fun _ => t
      have e2 := hi 1
      rw [show exVal 1 = 1 by norm_num [exVal], ← e1] at e2
      have lt : ∀ v : ℝ, v ≠ 0 → v < shockley 1 1 1 v := fun v hv => by
        have := Real.add_one_lt_exp hv
        simp only [shockley, mul_one, div_one, one_mul]
        linarith
      have l1 := lt 1 one_ne_zero
      have l2 := lt (shockley 1 1 1 1) (by linarith)
      linarith
  storages := by
    intro b h f dom hb
    simp only [exComponents, List.flatten_cons, List.flatten_nil, List.append_nil, List.cons_append,
      List.nil_append, List.mem_cons, List.not_mem_nil, or_false, reduceCtorEq, false_or,
      Component.effortStorage.injEq] at hb
    obtain ⟨-, -, rfl, rfl⟩ := hb
    refine ⟨rfl, by unfold cubicForce; fun_prop, fun a b hab => ?_⟩
    have h3 : a ^ 3 ≤ b ^ 3 := (Odd.strictMono_pow (by decide)).monotone hab
    norm_num [cubicForce, exVal] at h3 ⊢
    linarith

/-- With the theta-scheme or the trapezoidal rule, the equations of each step have exactly one solution. -/
example (o : Config) (ho : o.split = false) (hfs : 0 < o.fs) (ht : 0 < o.epsdg) (hθ : 0 ≤ o.θ)
    (hk : o.kind ≠ .discret) : ∃ ps c c2 m ec, ofText intFmt exVal exText.toList = .ok ps ∧
    Compiled realNl exVal exRows ps exNodes exEdges c 30 c2 ∧ toMethod nlSympy o c2 = some m ∧
    ∀ e : Env ℝ, ∃! e' : Env ℝ,
      (∀ q, q ∉ ["dxC1", "dxK", "wD", "wD_R", "wD_gmin"] → e' q = e q) ∧
      ∃ E F, Step exComponents.flatten ec o.fs (ruleOf o) e' E F := by
  obtain ⟨ps, c, c2, h1, h2, h3⟩ := exCompiled'
  obtain ⟨ec, -, hz, q⟩ := C86_exists h2 exNet realArith
  obtain ⟨m, hm, hq⟩ := q (exSmooth h3 hz) nlSympy nlSympy_ok o (fun h => by rw [ho] at h; cases h) hfs ht
    (fun _ => hθ) (.inl hk)
  refine ⟨ps, c, c2, m, ec, h1, h2, hm, fun e => ?_⟩
  have hoff : ∀ q, (∀ a ∈ exComponents.flatten, (∀ b ∈ a.storing, q ≠ "dx" ++ b.id) ∧
      ∀ b ∈ a.dissipative, q ≠ "w" ++ b.id) ↔ q ∉ ["dxC1", "dxK", "wD", "wD_R", "wD_gmin"] := by
    intro q
    simp [exComponents, Component.storing, Component.dissipative]
  obtain ⟨e', ⟨a1, a2⟩, a3⟩ := hq e
  exact ⟨e', ⟨fun q hq => a1 q ((hoff q).2 hq), a2⟩, fun e'' h => a3 e'' ⟨fun q hq => h.1 q ((hoff q).1 hq), h.2⟩⟩

/-! ### Disagreements -/

/-- A line with two nodes. -/
def line (dict comp label : String) (args : List (String × Netlist.Lit ℤ)) : Row ℤ :=
  ⟨dict.toList, comp.toList, label.toList, .tuple [.str "A".toList, .str "#".toList],
    args.map fun p => (p.1.toList, p.2)⟩

/-- **C86**, disagreement: the state of a cubic spring called `ref` has the name of its parameter `xref`: the
energy of the system is a constant. -/
theorem C86_label_counterexample :
    (∃ cs, components exVal (line "mechanics" "springcubic" "ref" []) = some cs ∧ ∀ a b : ℝ, a ^ 2 < b ^ 2 →
      stored cs (fun _ => a) < stored cs fun _ => b) ∧
    ∃ ps, buildParts exVal [line "mechanics" "springcubic" "ref" []] = .ok ps ∧
      ∀ e e', energy realNl ps e = energy realNl ps e' := by
  refine ⟨⟨_, rfl, fun a b hab => ?_⟩, _, rfl, fun e e' => rfl⟩
  have h4 : a ^ 4 ≤ b ^ 4 := by nlinarith [sq_nonneg a, sq_nonneg b]
  norm_num [stored, Component.energy, cubicEnergy]
  linarith

/-- **C86**, disagreement: if the name given to a parameter is the key of another one, it takes the value of
the other one. -/
theorem C86_names_counterexample :
    ∃ r : Row ℤ, r = line "mechanics" "springcubic" "K"
        [("F1", .tuple [.str "F3".toList, .num 2]), ("F3", .elem (.num 5)), ("xref", .elem (.num 1))] ∧
      components exVal r = some [.effortStorage ⟨"K", "A", "#"⟩ (cubicEnergy 2 5 1) (cubicForce 2 5 1) Set.univ] ∧
      ∃ ps, buildParts exVal [r] = .ok ps ∧ ∀ e, energy realNl ps e = cubicEnergy 5 5 1 (e "xK") := by
  refine ⟨_, rfl, ?_, _, rfl, fun e => Eq.trans (b := 0 + (((5 : ℤ) : ℝ) * e "xK" ^ (2 : ℝ) / (2 * ((1 : ℤ) : ℝ)) +
    ((5 : ℤ) : ℝ) * e "xK" ^ (4 : ℝ) / (4 * ((1 : ℤ) : ℝ) ^ (3 : ℝ)))) rfl ?_⟩
  · show some [Component.effortStorage ⟨"K", "A", "#"⟩ (cubicEnergy (exVal 2) (exVal 5) (exVal 1))
      (cubicForce (exVal 2) (exVal 5) (exVal 1)) _] = _
    norm_num [exVal]
  · rw [cubicEnergy]
    norm_num

end Nonlin
end Pyphs
