/-
C82: instances of the hypotheses. A pickup over a mass of given velocity, with a given voltage.
-/
import Verif.Pickup.Props
import Verif.Pickup.Observe
import Verif.Record.Examples
import Verif.Circuit.Examples

namespace Pyphs
namespace Pickup
open Graph Frac Finset

def xNodes : List String := ["#", "M", "E", "NpMagnet", "NpCcoil"]

/-- The names are written out. -/
def xMmf (l a b : String) : Edge ℝ := ⟨a, b, l, .port, .f, none, .gyrator, none, "", ""⟩
def xS (l a b : String) (c : Ctrl) : Edge ℝ := ⟨a, b, l, .storage, c, none, .gyrator, none, "", ""⟩
def xG (l l' a b : String) (k : Option ℝ) : Edge ℝ :=
  ⟨a, b, l, .connector, .unknown, some l', .gyrator, k, "", ""⟩

noncomputable def xEdges (f N : ℝ) : List (Edge ℝ) :=
  [xMmf "ypMagnet" "#" "NpMagnet", xS "xpOBS" "#" "M" .e,
   xG "ypMecToMag1" "ypMecToMag2" "#" "NpCcoil" (some f⁻¹),
   xG "ypMecToMag2" "ypMecToMag1" "#" "NpMagnet" none, xS "xpCcoil" "#" "NpCcoil" .f,
   xG "ypMagToElec1" "ypMagToElec2" "#" "NpCcoil" (some N),
   xG "ypMagToElec2" "ypMagToElec1" "#" "E" none, xMmf "yF" "#" "M", xMmf "yV" "#" "E"]

theorem xEdges_eq (f N : ℝ) : xEdges f N = edges "p" "M" "#" "E" f N ++ [mmf "F" "#" "M", mmf "V" "#" "E"] := by
  simp only [xEdges, edges, xMmf, xS, xG, mmf, edgeS, gyrA, gyrB, nMagnet, nCcoil, datum, List.cons_append,
    List.nil_append]
  congr 1

noncomputable def xCore (f N : ℝ) : Core ℝ :=
  ⟨["xpOBS", "xpCcoil"], [], ["upMagnet", "uF", "uV"], ["ypMagnet", "yF", "yV"],
    ["c1", "c2", "c3", "c4"], ["ypMecToMag1", "ypMecToMag2", "ypMagToElec1", "ypMagToElec2"],
    fun _ => 0, [], none, Mat.zeros 0 0,
    [⟨"c1", "c2", "ypMecToMag1", "ypMecToMag2", f⁻¹⟩, ⟨"c3", "c4", "ypMagToElec1", "ypMagToElec2", N⟩],
    0, 0, Mat.zeros 0 0, []⟩

noncomputable def xSt (f N : ℝ) : St ℝ :=
  ⟨xNodes, [xG "ypMagToElec2" "ypMagToElec1" "#" "E" none,
    xG "ypMagToElec1" "ypMagToElec2" "#" "NpCcoil" (some N⁻¹),
    xG "ypMecToMag2" "ypMecToMag1" "#" "NpMagnet" none,
    xG "ypMecToMag1" "ypMecToMag2" "#" "NpCcoil" (some f⁻¹⁻¹), xS "xpOBS" "#" "M" .e,
    xMmf "ypMagnet" "#" "NpMagnet", xS "xpCcoil" "#" "NpCcoil" .f, xMmf "yF" "#" "M", xMmf "yV" "#" "E"],
   [[1, 0, -1, 0, 0], [1, 0, 0, 0, -1], [1, 0, 0, -1, 0], [1, 0, 0, 0, -1], [1, -1, 0, 0, 0],
    [1, 0, 0, -1, 0], [1, 0, 0, 0, -1], [1, -1, 0, 0, 0], [1, 0, -1, 0, 0]],
   [[0, 0, 0, 0, 0], [0, 0, 0, 0, 0], [0, 0, 0, 0, 0], [0, 0, 0, 0, 0], [0, 0, 0, 0, 0],
    [0, 0, 0, 1, 0], [0, 0, 0, 0, 1], [0, 1, 0, 0, 0], [0, 0, 1, 0, 0]],
   [0, 1, 2, 3, 4], [], [5, 6, 7, 8], []⟩

set_option maxHeartbeats 2000000 in
set_option smartUnfolding false in
theorem xAnalyse (f N : ℝ) : analyse 60 xNodes (xEdges f N) = .ok (xSt f N) := rfl

theorem xInv (f N : ℝ) : ∃ B, iGammaFc (xSt f N) = some B ∧ B.r = 4 ∧ B.c = 4 := by
  unfold iGammaFc
  refine Circuit.inv_some (A := gammaFc (xSt f N)) rfl ?_
  show Mat.detN 4 _ ≠ 0
  norm_num [Mat.detN, Mat.minor, gammaFc, gammaMat, Mat.slice, xSt, Finset.sum_range_succ]

theorem xBuilt (f N : ℝ) : ∃ c', buildCore (fun _ _ => 0) (xSt f N) (xCore f N) = some c' ∧
    c'.connectors = [⟨"c1", "c2", "ypMecToMag1", "ypMecToMag2", f⁻¹⁻¹⟩,
      ⟨"c3", "c4", "ypMagToElec1", "ypMagToElec2", N⁻¹⟩] := by
  obtain ⟨⟨r, c, g⟩, hB, hr, hc⟩ := xInv f N
  dsimp only at hr hc
  subst hr hc
  have ha : allEdges (xSt f N) = [4, 6, 5, 7, 8, 0, 1, 2, 3] := rfl
  have hJ : ∃ J : Mat ℝ, structureMatrix (xSt f N) = some J := by
    unfold structureMatrix
    rw [hB, ha]
    exact ⟨_, rfl⟩
  obtain ⟨J, hJ⟩ := hJ
  unfold buildCore
  rw [hJ]
  exact ⟨_, rfl, rfl⟩

theorem xAssembled (f N : ℝ) : ∃ c', Assembled (fun _ _ => 0) xNodes (xEdges f N) 60 (xSt f N) (xCore f N) c' ∧
    c'.connectors = [⟨"c1", "c2", "ypMecToMag1", "ypMecToMag2", f⁻¹⁻¹⟩,
      ⟨"c3", "c4", "ypMagToElec1", "ypMagToElec2", N⁻¹⟩] := by
  obtain ⟨c', hb, hc⟩ := xBuilt f N
  refine ⟨c', ⟨by decide, by decide, ?_, ?_, ?_, ?_, xAnalyse f N, hb⟩, hc⟩
  · simp [xEdges, xMmf, xS, xG, xNodes]
  · simp [xEdges, xMmf, xS, xG]
  · simp [LinksUnique, xEdges, xMmf, xS, xG]
  · simp [xEdges, xMmf, xS, xG]

theorem xPlugged (f N : ℝ) : Plugged xNodes (xEdges f N) (xCore f N) "p" "M" "#" "E" f N := by
  refine ⟨⟨_, by rw [xEdges_eq], ?_⟩, ?_, ?_, ⟨0, ⟨"c1", "c2", "ypMecToMag1", "ypMecToMag2", f⁻¹⟩, ?_⟩,
    ⟨1, ⟨"c3", "c4", "ypMagToElec1", "ypMagToElec2", N⟩, ?_⟩⟩
  · intro v hv d hd
    simp only [List.mem_cons, List.not_mem_nil, or_false] at hv hd
    rcases hv with rfl | rfl <;> rcases hd with rfl | rfl <;> simp only [mmf] <;> decide
  · decide
  · decide
  · refine ⟨by rw [xEdges_eq]; simp [edges], by rw [xEdges_eq]; simp [edges], rfl, rfl, rfl, rfl, rfl, rfl, rfl,
      rfl, rfl, rfl, ?_⟩
    intro j hj; omega
  · refine ⟨by rw [xEdges_eq]; simp [edges], by rw [xEdges_eq]; simp [edges], rfl, rfl, rfl, rfl, rfl, rfl, rfl,
      rfl, rfl, rfl, ?_⟩
    intro j hj k' hk
    obtain rfl : j = 0 := by omega
    obtain rfl := Option.some.inj hk
    have e : (gyrA ("p" ++ "MagToElec") datum (nCcoil "p") N).label = "ypMagToElec1" := rfl
    rw [e]
    exact ⟨by show "ypMecToMag1" ≠ _; decide, by show "ypMecToMag2" ≠ _; decide⟩

/-- Efforts and flows for a position `q`, a velocity `v`, a force `h` of the magnet, the flux `φ` and its
rate `d`. -/
noncomputable def xE (f N C h v φ d : ℝ) : String → ℝ := fun s =>
  if s = "ypMagnet" ∨ s = "ypMecToMag2" then h else if s = "xpOBS" ∨ s = "yF" then v else
  if s = "ypMecToMag1" ∨ s = "xpCcoil" ∨ s = "ypMagToElec1" then φ / C else N * (d - f * h)
noncomputable def xF (eps f N C h q φ d : ℝ) : String → ℝ := fun s =>
  if s = "ypMagnet" then -(f * (φ / C)) else if s = "ypMecToMag2" then f * (φ / C) else
  if s = "xpOBS" then eps * q else if s = "yF" then -(eps * q) else
  if s = "ypMecToMag1" then -(f * h) else if s = "xpCcoil" then d else
  if s = "ypMagToElec1" then f * h - d else if s = "ypMagToElec2" then φ / C / N else -(φ / C / N)
noncomputable def xX (q φ : ℝ) : String → ℝ := fun s => if s = "xpOBS" then q else φ
noncomputable def xD (v d : ℝ) : String → ℝ := fun s => if s = "xpOBS" then v else d
noncomputable def xP (f N C h v φ d : ℝ) : String → ℝ := fun s =>
  if s = "#" then 0 else if s = "M" then -v else if s = "E" then -(N * (d - f * h)) else
  if s = "NpMagnet" then -h else -(φ / C)

theorem xSolution (f N C eps h q v φ d : ℝ) (hN : N ≠ 0) {c' : Core ℝ}
    (ha : Assembled (fun _ _ => 0) xNodes (xEdges f N) 60 (xSt f N) (xCore f N) c')
    (hc : c'.connectors = [⟨"c1", "c2", "ypMecToMag1", "ypMecToMag2", f⁻¹⁻¹⟩,
      ⟨"c3", "c4", "ypMagToElec1", "ypMagToElec2", N⁻¹⟩]) :
    CoreSolution (xSt f N) c' (storages "p" "M" eps C) (xE f N C h v φ d) (xF eps f N C h q φ d)
      (xX q φ) (xD v d) := by
  have hst : storages "p" "M" eps C = [.stor "pOBS" "#" "M" eps .e, .stor "pCcoil" "#" "NpCcoil" C⁻¹ .f] := rfl
  refine ha.coreSolution ?_ ?_ ?_ ?_ ?_ ⟨xP f N C h v φ d, ?_⟩ ?_ ?_
  · intro d hd
    refine (xPlugged f N).mem ?_
    simp only [storages, edgesOf, List.flatMap_cons, List.flatMap_nil, Frac.Part.edges,
      List.cons_append, List.nil_append, List.mem_cons, List.not_mem_nil, or_false] at hd
    rcases hd with rfl | rfl <;> simp [edges]
  · intro d hd ht
    simp only [xEdges, List.mem_cons, List.not_mem_nil, or_false] at hd
    rcases hd with rfl | rfl | rfl | rfl | rfl | rfl | rfl | rfl | rfl <;> exact absurd ht (by simp [xMmf, xS, xG])
  · rw [hst]; intro p hp
    simp only [List.mem_cons, List.not_mem_nil, or_false] at hp
    rcases hp with rfl | rfl <;> simp [Frac.Part.Good]
  · intro l n1 n2 k i hm
    simp [storages] at hm
  · intro w hw hne
    simp only [xNodes, List.mem_cons, List.not_mem_nil, or_false] at hw
    rcases hw with rfl | rfl | rfl | rfl | rfl
    · exact absurd rfl hne
    · simp [xEdges, xMmf, xS, xG, sign, xF]
    · simp [xEdges, xMmf, xS, xG, sign, xF]
    · simp [xEdges, xMmf, xS, xG, sign, xF]
    · simp [xEdges, xMmf, xS, xG, sign, xF]
      ring
  · simp [xEdges, xMmf, xS, xG, xE, xP]
  · rw [hst]; intro p hp
    simp only [List.mem_cons, List.not_mem_nil, or_false] at hp
    rcases hp with rfl | rfl
    · simp only [Frac.Part.Law, reduceCtorEq, if_false]
      constructor <;> simp [xE, xF, xX, xD]
    · simp only [Frac.Part.Law, if_true]
      constructor <;> simp [xE, xF, xX, xD]
      ring
  · rw [hc]
    intro k hk β α hsd
    have l0 : lab (xSt f N) 0 = "ypMagToElec2" := rfl
    have l1 : lab (xSt f N) 1 = "ypMagToElec1" := rfl
    have l2 : lab (xSt f N) 2 = "ypMecToMag2" := rfl
    have l3 : lab (xSt f N) 3 = "ypMecToMag1" := rfl
    have m : (xSt f N).ec = [0, 1, 2, 3, 4] := rfl
    obtain ⟨b0, a0⟩ := hsd.ec 0 (by simp [m])
    obtain ⟨b1, a1⟩ := hsd.ec 1 (by simp [m])
    obtain ⟨b2, a2⟩ := hsd.ec 2 (by simp [m])
    obtain ⟨b3, a3⟩ := hsd.ec 3 (by simp [m])
    rw [l0] at b0 a0; rw [l1] at b1 a1; rw [l2] at b2 a2; rw [l3] at b3 a3
    simp only [List.mem_cons, List.not_mem_nil, or_false] at hk
    rcases hk with rfl | rfl
    · constructor
      · show α "ypMecToMag1" = -f⁻¹⁻¹ * β "ypMecToMag2"
        rw [a3, b2, inv_inv]; simp [xE, xF]
      · show α "ypMecToMag2" = f⁻¹⁻¹ * β "ypMecToMag1"
        rw [a2, b3, inv_inv]; simp [xE, xF]
    · constructor
      · show α "ypMagToElec1" = -N⁻¹ * β "ypMagToElec2"
        rw [a1, b0]; simp [xE, xF]; field_simp; ring
      · show α "ypMagToElec2" = N⁻¹ * β "ypMagToElec1"
        rw [a0, b1]; simp [xE, xF]; field_simp

/-- The hypotheses of `C82_pickup`, for any coupling. -/
example (f : ℝ) : ∃ c', Assembled (fun _ _ => 0) xNodes (xEdges f 3) 60 (xSt f 3) (xCore f 3) c' ∧
    Plugged xNodes (xEdges f 3) (xCore f 3) "p" "M" "#" "E" f 3 ∧
    CoreSolution (xSt f 3) c' (storages "p" "M" (1 / 10) (1 / 2)) (xE f 3 (1 / 2) 5 4 6 7)
      (xF (1 / 10) f 3 (1 / 2) 5 3 6 7) (xX 3 6) (xD 4 7) := by
  obtain ⟨c', h, hc⟩ := xAssembled f 3
  exact ⟨c', h, xPlugged f 3, xSolution f 3 (1 / 2) (1 / 10) 5 3 4 6 7 (by norm_num) h hc⟩

/-- The hypotheses of `C82_induction`: the ball falls at the velocity 1 and the current increases. -/
example (t : ℝ) : HasDerivAt (fun t => 3 ^ 2 * (1 / 2) * (2 * t / (1 / 2) / 3) - 3 * 5 * flux 1 1 1 1 t)
    (3 * (2 - coupling 1 1 1 1 t 1 * 5)) t := by
  have h := C82_induction (label := "p") (mass := "M") (el1 := "#") (el2 := "E") (Rb := 1) (Rp := 1)
    (Lh := 1) (Lv := 1) (N := 3) (C := 1 / 2) (eps := 1 / 10) (h := 5) (by norm_num) (by norm_num)
    (by norm_num) (E := fun t => xE (coupling 1 1 1 1 t 1) 3 (1 / 2) 5 1 (2 * t) 2)
    (F := fun t => xF (1 / 10) (coupling 1 1 1 1 t 1) 3 (1 / 2) 5 t (2 * t) 2)
    (X := fun t => xX t (2 * t)) (dX := fun t => xD 1 2) ?_ ?_ ?_ t
  · have e1 : "x" ++ ("p" ++ "OBS") = "xpOBS" := rfl
    have e2 : "y" ++ ("p" ++ "MagToElec") ++ "2" = "ypMagToElec2" := rfl
    rw [e1, e2] at h
    simpa [xE, xF, xX] using h
  · intro t s hs
    have e1 : "x" ++ ("p" ++ "OBS") = "xpOBS" := rfl
    have e2 : "x" ++ ("p" ++ "Ccoil") = "xpCcoil" := rfl
    rw [e1, e2] at hs
    simp only [List.mem_cons, List.not_mem_nil, or_false] at hs
    rcases hs with rfl | rfl
    · simpa [xX, xD] using hasDerivAt_id' t
    · simpa [xX, xD] using (hasDerivAt_id t).const_mul 2
  · intro t; rfl
  · intro t
    obtain ⟨c', h, hc⟩ := xAssembled (coupling 1 1 1 1 t 1) 3
    exact ⟨_, _, _, _, _, _, c', h, xPlugged _ _, xSolution _ _ _ _ _ _ _ _ _ (by norm_num) h hc⟩

/-- The hypotheses of `C82_observers` and `C82_motion`: the capacitor of the example of C65 observed. -/
noncomputable def obsN : Numeric.Num where
  m := Record.rc
  p := []
  o := ["q_a", "dtq_a"]
  obs := [fun e => e "a", fun e => e "da" * e "F_S"]
  base := fun _ => 1
  eps := 0
  maxit := 0

example (u : ℝ) (st : Numeric.St Numeric.Nm ℝ) (hl : st.args.length = 6) :
    ∃ st', obsN.update (some [u]) (some []) st = some st' ∧ obsN.E st' "q_a" = obsN.E st' "a" ∧
      obsN.E st' "dtq_a" = obsN.E st' "a" - obsN.E st "a" := by
  have hwf : obsN.WF := ⟨by decide, rfl⟩
  obtain ⟨st', h⟩ := Record.linear_runs (n := obsN) hwf (by decide) (by decide) Record.rc_inv rfl
    (u := [u]) (p := []) rfl rfl hl
  have hob : Numeric.HasObserver obsN "q_a" "dtq_a" "a" 0 1 :=
    ⟨rfl, rfl, rfl, rfl, by decide, by decide, rfl⟩
  obtain ⟨h1, h2⟩ := Numeric.C82_motion hwf rfl hob hl rfl rfl h
  refine ⟨st', h, h1, h2.trans ?_⟩
  show (1 : ℝ) * _ = _
  rw [one_mul]

end Pickup
end Pyphs
