/-
Circuits to which C63 and C64 apply, and a circuit for which passivity fails.
-/
import Verif.Circuit.Passive
import Mathlib.Analysis.Calculus.Deriv.Pow

namespace Pyphs
namespace Circuit
open Scheme Core Graph

/-! ### A source, a gyrator, a resistor and a capacitor -/

def gEdge (t h l : String) (ty : EType) (ct : Ctrl) (ze zf : String) : Edge ℝ :=
  ⟨t, h, l, ty, ct, none, .gyrator, none, ze, zf⟩

noncomputable def gEdges : List (Edge ℝ) :=
  [gEdge "#" "A" "i" .port .e "" "",
   ⟨"A", "#", "g1", .connector, .unknown, some "g2", .gyrator, some 2, "", ""⟩,
   ⟨"B", "#", "g2", .connector, .unknown, some "g1", .gyrator, none, "", ""⟩,
   gEdge "B" "C" "w" .dissipative .unknown "ze" "zf",
   gEdge "C" "#" "q" .storage .f "" ""]

def gNodes : List String := ["#", "A", "B", "C"]

noncomputable def gCore (H : Sc) : Core ℝ :=
  ⟨["q"], ["w"], ["vi"], ["i"], ["cu1", "cu2"], ["g1", "g2"], H, [fun _ => 0], none, Mat.zeros 0 0,
    [⟨"cu1", "cu2", "g1", "g2", 2⟩], 0, 0, Mat.zeros 0 0, []⟩

/-- A resistance of 3. -/
noncomputable def gLaw (s : String) (e : Env ℝ) : ℝ := if s = "ze" then e "w" / 3 else if s = "zf" then 3 * e "w" else 0

theorem gOK (H : Sc) : CircuitOK gNodes gEdges (gCore H) where
  datum := by decide
  distinct := by decide
  ends := by simp [gEdges, gEdge, gNodes]
  labels := by show ["i", "g1", "g2", "w", "q"].Nodup; decide
  links := by simp [LinksUnique, gEdges, gEdge]
  free := by simp [gEdges, gEdge]
  dxH := rfl
  xl := rfl
  wl := rfl
  cy := by simp [gCore, ofType, gEdges, gEdge]
  cu := rfl
  conn := by simp [ConnOK, connPairs, gCore]
  kind := by
    intro i k hk
    match i with
    | 0 =>
      obtain rfl := Option.some.inj hk
      exact ⟨gEdges[1], gEdges[2], 2, by norm_num, by simp [gEdges], by simp [gEdges], rfl, rfl, rfl,
        rfl, rfl, rfl, rfl, rfl, rfl, rfl, fun j hj => absurd hj (by omega)⟩
    | i + 1 => simp [gCore] at hk

theorem gStatic : StaticLaws gLaw gEdges := by
  intro d hd ht
  have hs : (ofType .storage gEdges).map (·.label) = ["q"] := by simp [ofType, gEdges, gEdge]
  rw [hs]
  simp only [gEdges, List.mem_cons, List.not_mem_nil, or_false] at hd
  rcases hd with rfl | rfl | rfl | rfl | rfl <;> simp [gEdge] at ht
  have hw : ∀ e e' : Env ℝ, (∀ s, s ∉ ["q"] → s ∉ ["q"].map gn → e s = e' s) → e "w" = e' "w" :=
    fun e e' h => h "w" (by decide) (by decide)
  exact ⟨fun e e' h => by simp [gEdge, gLaw, hw e e' h], fun e e' h => by simp [gEdge, gLaw, hw e e' h]⟩

theorem gPassive : PassiveLaws gLaw gEdges := by
  intro d hd ht e
  simp only [gEdges, List.mem_cons, List.not_mem_nil, or_false] at hd
  rcases hd with rfl | rfl | rfl | rfl | rfl <;> simp [gEdge] at ht
  refine ⟨?_, ?_⟩
  · show 0 ≤ e "w" * (if "ze" = "ze" then _ else _)
    rw [if_pos rfl]; nlinarith [sq_nonneg (e "w")]
  · show 0 ≤ e "w" * (if "zf" = "ze" then _ else if "zf" = "zf" then _ else _)
    rw [if_neg (by decide), if_pos rfl]; nlinarith [sq_nonneg (e "w")]

theorem inv_some {A : Mat ℝ} (h : A.r = A.c) (hd : Mat.detN A.r A.e ≠ 0) : ∃ B, A.inv = some B ∧ B.r = A.r ∧ B.c = A.r := by
  unfold Mat.inv
  rw [if_neg (not_not.2 h), if_neg hd]
  exact ⟨_, rfl, rfl, rfl⟩

noncomputable def gSt : St ℝ :=
  ⟨gNodes, [gEdges[3], gEdges[0], gEdges[4], gEdges[1], gEdges[2]],
   [[0, 0, 1, -1], [1, -1, 0, 0], [-1, 0, 0, 1], [-1, 1, 0, 0], [-1, 0, 1, 0]],
   [[0, 0, 0, 0], [0, 0, 0, 0], [0, 0, 0, 1], [0, 1, 0, 0], [0, 0, 1, 0]], [0, 1], [], [2, 3, 4], []⟩

theorem gAnalyse : analyse 30 gNodes gEdges = .ok gSt := rfl

theorem gInv : ∃ B, iGammaFc gSt = some B ∧ B.r = 3 ∧ B.c = 3 := by
  unfold iGammaFc
  refine inv_some (A := gammaFc gSt) rfl ?_
  show Mat.detN 3 _ ≠ 0
  norm_num [Mat.detN, Mat.minor, gammaFc, gammaMat, Mat.slice, gSt, Finset.sum_range_succ]

theorem gCore_any (law : String → Env ℝ → ℝ) (H : Sc) :
    ∃ c2, toCore law 30 gNodes gEdges (gCore H) = some c2 := by
  unfold toCore
  rw [gAnalyse]
  dsimp only
  obtain ⟨⟨r, c, f⟩, hB, hr, hc⟩ := gInv
  dsimp only at hr hc
  subst hr hc
  have ha : allEdges gSt = [2, 0, 1, 3, 4] := rfl
  have hJ : ∃ J : Mat ℝ, structureMatrix gSt = some J ∧ J.r = 5 ∧ J.c = 5 ∧
      ∀ i j, 3 ≤ i → 3 ≤ j → i < 5 → j < 5 → J.e i j = 0 := by
    unfold structureMatrix
    rw [hB, ha]
    refine ⟨_, rfl, rfl, rfl, ?_⟩
    intro i j hi hj hi' hj'
    have h1 : i = 3 ∨ i = 4 := by omega
    have h2 : j = 3 ∨ j = 4 := by omega
    rcases h1 with rfl | rfl <;> rcases h2 with rfl | rfl <;> rfl
  obtain ⟨⟨r, c, g⟩, hJ, hr, hc, hz⟩ := hJ
  dsimp only at hr hc hz
  subst hr hc
  unfold buildCore
  rw [hJ]
  have hset : setCore law gSt ⟨5, 5, g⟩ (gCore H) = some { gCore H with z := [law "ze"], M := ⟨5, 5, g⟩ } := rfl
  show ∃ c2, (setCore law gSt ⟨5, 5, g⟩ (gCore H)).bind connect = some c2
  rw [hset, Option.bind_some]
  set c1 : Core ℝ := { gCore H with z := [law "ze"], M := ⟨5, 5, g⟩ } with hc1
  have hl : c1.labels = ["q", "w", "i", "g1", "g2"] := rfl
  have hwf : WF c1 := ⟨rfl, rfl, rfl, rfl, rfl, fun d hd => (by cases hd), Nat.zero_le _, Nat.zero_le _,
    by rw [hl]; decide⟩
  refine Option.ne_none_iff_exists'.1 fun hn => ?_
  obtain ⟨β, α, hst, -, hα, p, hp, hne⟩ := (C08_connect_error c1 hwf (gOK H).conn).1 hn
  have h0 := hα "q" (by simp [c1, gCore])
  have h1 := hα "w" (by simp [c1, gCore])
  have h2 := hα "i" (by simp [c1, gCore])
  have r3 := hst 3 (by rw [hl]; decide)
  have r4 := hst 4 (by rw [hl]; decide)
  rw [hl] at r3 r4
  have z33 := hz 3 3 (by decide) (by decide) (by decide) (by decide)
  have z34 := hz 3 4 (by decide) (by decide) (by decide) (by decide)
  have z43 := hz 4 3 (by decide) (by decide) (by decide) (by decide)
  have z44 := hz 4 4 (by decide) (by decide) (by decide) (by decide)
  have hM : c1.M.e = g := rfl
  simp [Finset.sum_range_succ, hM, h0, h1, h2, z33, z34, z43, z44] at r3 r4
  have : p = "g1" ∨ p = "g2" := by simpa [c1, gCore] using hp
  rcases this with rfl | rfl
  · exact hne r3
  · exact hne r4

theorem gCore_some (H : Sc) : ∃ c2, toCore gLaw 30 gNodes gEdges (gCore H) = some c2 :=
  gCore_any gLaw H

/-- Answers of sympy in which every entry contains every symbol. -/
noncomputable def exSympy : Sympy where
  hess c := ⟨c.x.length, c.x.length, fun _ _ => c.x⟩
  jacz c := ⟨c.w.length, c.w.length, fun _ _ => c.w⟩
  nz c := ⟨c.x.length - c.xl, c.x.length - c.xl, fun _ _ => true⟩
  jacF c := ⟨c.x.length + c.w.length, c.x.length + c.w.length, fun _ _ => vars c⟩
  jac zs ws := ⟨zs.length, ws.length, fun _ _ => 0⟩

theorem exSympy_ok : exSympy.OK :=
  ⟨fun _ => ⟨rfl, rfl⟩, fun _ => ⟨rfl, rfl⟩, fun _ => ⟨rfl, rfl, fun _ _ _ _ => rfl⟩,
    fun _ => ⟨rfl, rfl⟩, fun _ _ => ⟨rfl, rfl⟩⟩

theorem exSympy_nz : NzSound exSympy := by
  intro c i _ j _ _ h
  cases h

/-- A linear capacitor. -/
noncomputable def linH : Sc := fun e => e "q" ^ 2 / 2
/-- A nonlinear capacitor. -/
noncomputable def nlH : Sc := fun e => e "q" ^ 4 / 4

theorem linH_d : pdiff linH "q" = fun e => e "q" := by
  funext e; simp [pdiff, linH, Function.update]
theorem nlH_d : pdiff nlH "q" = fun e => e "q" ^ 3 := by
  funext e; simp [pdiff, nlH, Function.update]
theorem nlH_dd : pdiff (pdiff nlH "q") "q" = fun e => 3 * e "q" ^ 2 := by
  funext e; rw [nlH_d]; simp [pdiff, Function.update]

theorem linH_quad : QuadEnergy linH ["q"] where
  smooth := by
    constructor
    · intro i hi e
      obtain rfl := List.mem_singleton.1 hi
      simp [linH, Function.update]
    · intro i hi j hj e
      obtain rfl := List.mem_singleton.1 hi
      obtain rfl := List.mem_singleton.1 hj
      simp [linH_d, Function.update]
  const := by
    intro i hi j hj k hk e t
    obtain rfl := List.mem_singleton.1 hi
    obtain rfl := List.mem_singleton.1 hj
    rw [linH_d]; simp [pdiff, Function.update]
  cross := by
    intro i hi j hj hij
    exact absurd ((List.mem_singleton.1 hi).trans (List.mem_singleton.1 hj).symm) hij

theorem nlH_smooth : Smooth2 nlH ["q"] := by
  constructor
  · intro i hi e
    obtain rfl := List.mem_singleton.1 hi
    simp [nlH, Function.update]
  · intro i hi j hj e
    obtain rfl := List.mem_singleton.1 hi
    obtain rfl := List.mem_singleton.1 hj
    simp [nlH_d, Function.update]

theorem gStor : (ofType .storage gEdges).map (·.label) = ["q"] := by
  simp [ofType, gEdges, gEdge]

/-- The hypotheses of C63 and C64 are met by the circuit, for any options. -/
example (o : Config) : ∃ c2, toCore gLaw 30 gNodes gEdges (gCore linH) = some c2 ∧
    ∃ m, toMethod exSympy o c2 = some m := by
  obtain ⟨c2, h⟩ := gCore_some linH
  obtain ⟨m, -, hm, -⟩ := C63_step (gOK linH) gStatic h exSympy exSympy_ok o
  exact ⟨c2, h, m, hm⟩

example (o : Config) (hfs : 0 < o.fs) (hθ : o.kind = .theta → o.θ = 1 / 2) :=
  fun c2 (h : toCore gLaw 30 gNodes gEdges (gCore linH) = some c2) =>
    C64_quadratic (gOK linH) gStatic gPassive (by rw [gStor]; exact linH_quad) h exSympy exSympy_ok o
      hfs hθ

example (o : Config) (hfs : 0 < o.fs) (hsp : o.split = false) (hk : o.kind = .discret)
    (ht : 0 < o.epsdg) :=
  fun c2 (h : toCore gLaw 30 gNodes gEdges (gCore nlH) = some c2) =>
    C64_nosplit (gOK nlH) gStatic gPassive (by rw [gStor]; exact nlH_smooth) h exSympy exSympy_ok
      exSympy_nz o hfs hsp hk ht

/-! ### A capacitor and a source of current -/

noncomputable def iEdges : List (Edge ℝ) :=
  [gEdge "#" "A" "i" .port .e "" "", gEdge "A" "#" "q" .storage .f "" ""]

def iNodes : List String := ["#", "A"]

noncomputable def iCore (H : Sc) : Core ℝ :=
  ⟨["q"], [], ["vi"], ["i"], [], [], H, [], none, Mat.zeros 0 0, [], 0, 0, Mat.zeros 0 0, []⟩

theorem iOK (H : Sc) : CircuitOK iNodes iEdges (iCore H) where
  datum := by decide
  distinct := by decide
  ends := by simp [iEdges, gEdge, iNodes]
  labels := by show ["i", "q"].Nodup; decide
  links := by simp [LinksUnique, iEdges, gEdge]
  free := by simp [iEdges, gEdge]
  dxH := rfl
  xl := rfl
  wl := rfl
  cy := by simp [iCore, ofType, iEdges, gEdge]
  cu := rfl
  conn := by simp [ConnOK, connPairs, iCore]
  kind := by intro i k hk; simp [iCore] at hk

theorem iStatic : StaticLaws gLaw iEdges := by
  intro d hd ht
  simp only [iEdges, List.mem_cons, List.not_mem_nil, or_false] at hd
  rcases hd with rfl | rfl <;> simp [gEdge] at ht

theorem iPassive : PassiveLaws gLaw iEdges := by
  intro d hd ht e
  simp only [iEdges, List.mem_cons, List.not_mem_nil, or_false] at hd
  rcases hd with rfl | rfl <;> simp [gEdge] at ht

noncomputable def iSt : St ℝ :=
  ⟨iNodes, iEdges, [[1, -1], [-1, 1]], [[0, 0], [0, 1]], [0], [], [1], []⟩

theorem iAnalyse : analyse 30 iNodes iEdges = .ok iSt := rfl

theorem iInv : ∃ B, iGammaFc iSt = some B ∧ B.r = 1 ∧ B.c = 1 := by
  unfold iGammaFc
  refine inv_some (A := gammaFc iSt) rfl ?_
  show Mat.detN 1 _ ≠ 0
  norm_num [Mat.detN, Mat.minor, gammaFc, gammaMat, Mat.slice, iSt, Finset.sum_range_succ]

theorem iCore_some (H : Sc) : ∃ c2, toCore gLaw 30 iNodes iEdges (iCore H) = some c2 := by
  unfold toCore
  rw [iAnalyse]
  dsimp only
  obtain ⟨⟨r, c, f⟩, hB, hr, hc⟩ := iInv
  dsimp only at hr hc
  subst hr hc
  have ha : allEdges iSt = [1, 0] := rfl
  have hJ : ∃ J : Mat ℝ, structureMatrix iSt = some J ∧ J.r = 2 ∧ J.c = 2 := by
    unfold structureMatrix
    rw [hB, ha]
    exact ⟨_, rfl, rfl, rfl⟩
  obtain ⟨⟨r, c, g⟩, hJ, hr, hc⟩ := hJ
  dsimp only at hr hc
  subst hr hc
  unfold buildCore
  rw [hJ]
  have hset : setCore gLaw iSt ⟨2, 2, g⟩ (iCore H) = some { iCore H with M := ⟨2, 2, g⟩ } := rfl
  show ∃ c2, (setCore gLaw iSt ⟨2, 2, g⟩ (iCore H)).bind connect = some c2
  rw [hset, Option.bind_some]
  set c1 : Core ℝ := { iCore H with M := ⟨2, 2, g⟩ } with hc1
  have hl : c1.labels = ["q", "i"] := rfl
  have hwf : WF c1 := ⟨rfl, rfl, rfl, rfl, rfl, fun d hd => (by cases hd), Nat.zero_le _, Nat.zero_le _,
    by rw [hl]; decide⟩
  refine Option.ne_none_iff_exists'.1 fun hn => ?_
  obtain ⟨β, α, -, -, -, p, hp, -⟩ := (C08_connect_error c1 hwf (iOK H).conn).1 hn
  simp [c1, iCore] at hp

theorem splitLoop_stay {S : Type} {test : ℕ → S → Bool} {move : ℕ → S → Option S} {s : S}
    (h : ∀ k, test k s = true) (m : ℕ) : ∀ k, splitLoop test move m k s = some (s, k + m) := by
  induction m with
  | zero => intro k; rfl
  | succ m ih =>
    intro k
    rw [splitLoop, if_pos (h k), ih]
    congr 2; omega

/-- If no equation is implicit, all states are taken as linear. -/
theorem all_explicit {s : Sympy} (hs : s.OK) (hfree : ∀ c i j, (s.jacF c).e i j = []) {o : Config}
    (hsp : o.split = true) {c : Core ℝ} {m : Meth} (hm : toMethod s o c = some m) :
    m.g = ⟨m.g.x, [], []⟩ := by
  unfold toMethod at hm
  obtain ⟨c1, -, hm⟩ := Option.bind_eq_some_iff.1 hm
  obtain ⟨⟨c2, n⟩, -, hm⟩ := Option.bind_eq_some_iff.1 hm
  obtain ⟨c3, h3, rfl⟩ := Option.map_eq_some_iff.1 hm
  dsimp only at h3 ⊢
  unfold lastSplit at h3
  rw [if_pos hsp] at h3
  obtain ⟨c4, h4, rfl⟩ := Option.map_eq_some_iff.1 h3
  generalize buildEval o n c2 = c5 at h4
  unfold explicitImplicit linearNonlinear at h4
  have hcol : ∀ a b k arg, colFree ((s.jacF c5).slice 0 (s.jacF c5).r a b) arg k = true := by
    intro a b k arg
    simp [colFree, Mat.slice, hfree]
  obtain ⟨⟨s1, n1⟩, e1, h4⟩ := Option.bind_eq_some_iff.1 h4
  have e1' := (splitLoop_stay (test := fun k (s : Core ℝ × Mat FS) => colFree s.2 (vars c5) k)
    (s := (c5, (s.jacF c5).slice 0 (s.jacF c5).r 0 c5.x.length)) (fun k => hcol _ _ k _) _ 0).symm.trans e1
  obtain ⟨rfl, rfl⟩ := Prod.mk.inj (Option.some.inj e1')
  obtain ⟨⟨s2, n2⟩, e2, h4⟩ := Option.bind_eq_some_iff.1 h4
  have e2' := (splitLoop_stay (test := fun k (s : Core ℝ × Mat FS) => colFree s.2 (vars c5) k)
    (s := (c5, (s.jacF c5).slice 0 (s.jacF c5).r c5.x.length (s.jacF c5).c))
    (fun k => hcol _ _ k _) _ 0).symm.trans e2
  obtain ⟨rfl, rfl⟩ := Prod.mk.inj (Option.some.inj e2')
  obtain rfl := Option.some.inj h4
  have hx : ((s.jacF c5).slice 0 (s.jacF c5).r 0 c5.x.length).c = c5.x.length := by
    show min _ _ - 0 = _
    rw [(hs.jacF c5).2]; omega
  simp [groups, Groups.x, buildEval, asMeth, hx]

/-- Answers of sympy for the capacitor: the energy is nonlinear, the Jacobian of the implicit
equation `fs*dq - vi` contains no unknown. -/
noncomputable def iSympy : Sympy := { exSympy with jacF := fun c => ⟨c.x.length + c.w.length, c.x.length + c.w.length, fun _ _ => []⟩ }

theorem iSympy_ok : iSympy.OK :=
  ⟨fun _ => ⟨rfl, rfl⟩, fun _ => ⟨rfl, rfl⟩, fun _ => ⟨rfl, rfl, fun _ _ _ _ => rfl⟩,
    fun _ => ⟨rfl, rfl⟩, fun _ _ => ⟨rfl, rfl⟩⟩

theorem iSympy_nz : NzSound iSympy := by
  intro c i _ j _ _ h
  cases h

/-- The default options, at a sample rate of 1 Hz. -/
noncomputable def iConfig : Config := ⟨true, .discret, 0, 1 / 10, 1⟩

/-- A constant current: the charge is `n` at step `n`. -/
noncomputable def iX (n : ℕ) : Env ℝ := fun s =>
  if s = "q" then n else if s = "dq" then 1 else if s = "vi" then 1 else 0

theorem dn_q : dn "q" = "dq" := by decide

theorem iRun : CircuitRun iEdges [] iX := by
  refine ⟨fun n d hd ht => ?_, fun n s hs => by cases hs⟩
  simp only [iEdges, List.mem_cons, List.not_mem_nil, or_false] at hd
  rcases hd with rfl | rfl <;> simp [gEdge] at ht
  show iX (n + 1) "q" = iX n "q" + iX n (dn "q")
  rw [dn_q]; simp [iX]

theorem nl_energy : EnergyIn nlH iEdges [] := by
  refine ⟨fun s hs => (by cases hs), fun e e' h _ => ?_⟩
  have := h (gEdge "A" "#" "q" .storage .f "" "") (by simp [iEdges]) rfl
  have : e "q" = e' "q" := this
  simp [nlH, this]

theorem i_eqs {m : Meth} {ec : String → Prop} {e : Env ℝ} (hm : m.fs = 1) (h1 : ec "i")
    (h2 : ¬ ec "q") (he : e "dq" = e "vi") :
    InputEqs gLaw iNodes iEdges (iCore nlH) m ec e
      (fun l => if l = "q" then gradOf m "q" e else - gradOf m "q" e) (fun _ => e "vi") := by
  refine ⟨⟨?_, ?_, ?_⟩, ?_, ?_, ?_⟩
  · intro v hv hne
    simp only [iNodes, List.mem_cons, List.not_mem_nil, or_false] at hv
    rcases hv with rfl | rfl
    · exact absurd rfl hne
    · simp [iEdges, gEdge, sign]
  · refine ⟨fun v => if v = "A" then gradOf m "q" e else 0, ?_⟩
    intro d hd
    simp only [iEdges, List.mem_cons, List.not_mem_nil, or_false] at hd
    rcases hd with rfl | rfl <;> simp [gEdge]
  · intro d1 h1 d2 _ a ht
    simp only [iEdges, List.mem_cons, List.not_mem_nil, or_false] at h1
    rcases h1 with rfl | rfl <;> simp [gEdge] at ht
  · intro d hd ht
    simp only [iEdges, List.mem_cons, List.not_mem_nil, or_false] at hd
    rcases hd with rfl | rfl <;> simp [gEdge] at ht
    refine ⟨fun h => absurd h h2, fun _ => ⟨?_, ?_⟩⟩
    · show m.fs * e (dn "q") = _
      rw [dn_q, hm, he, one_mul]
    · simp [gEdge]
  · intro d hd ht
    simp only [iEdges, List.mem_cons, List.not_mem_nil, or_false] at hd
    rcases hd with rfl | rfl <;> simp [gEdge] at ht
  · intro d hd ht
    simp only [iEdges, List.mem_cons, List.not_mem_nil, or_false] at hd
    rcases hd with rfl | rfl <;> simp [gEdge] at ht
    exact ⟨fun _ => rfl, fun h => absurd h1 h⟩

/-- C64. The code does not satisfy the property with its default options (`split=True`, discrete
gradient): a nonlinear capacitor and a source of current. The Jacobian of the implicit equation
`fs*dq - vi` contains no unknown, so that the capacitor is taken as linear. Along a run in which
every equation is solved, the energy increases although no power is received. -/
theorem C64_counterexample :
    ∃ c2 m, CircuitOK iNodes iEdges (iCore nlH) ∧ StaticLaws gLaw iEdges ∧
      PassiveLaws gLaw iEdges ∧ Smooth2 nlH ["q"] ∧ iSympy.OK ∧ NzSound iSympy ∧
      toCore gLaw 30 iNodes iEdges (iCore nlH) = some c2 ∧ toMethod iSympy iConfig c2 = some m ∧
      -- the Jacobian of the equation contains no unknown
      (∀ e : Env ℝ, m.F .all 0 e = e "dq" - e "vi") ∧
      CircuitRun iEdges [] iX ∧ EnergyIn nlH iEdges [] ∧ (∀ n, m.Solved (iX n)) ∧
      ¬ nlH (iX 1) ≤ nlH (iX 0) + received m (iCore nlH) iEdges (iX 0) / iConfig.fs := by
  obtain ⟨c2, hc⟩ := iCore_some nlH
  obtain ⟨m, ec, h1, h2, h3, h4, h5, h6, ⟨M, hM, hMe, pw, py⟩, h7, h8, h9⟩ :=
    step_facts (iOK nlH) iStatic hc iSympy iSympy_ok iConfig
  have hfs : m.fs = 1 := h4
  have hi : ec "i" := (h7 (gEdge "#" "A" "i" .port .e "" "") (by simp [iEdges])).1 rfl
  have hq : ¬ ec "q" := (h7 (gEdge "A" "#" "q" .storage .f "" "") (by simp [iEdges])).2 rfl
  have hg := all_explicit iSympy_ok (fun _ _ _ => rfl) rfl h1
  have hx : m.g.x = ["q"] := by
    have : (ofType .storage iEdges).map (·.label) = ["q"] := by simp [ofType, iEdges, gEdge]
    rw [this] at h5
    exact List.perm_singleton.1 h5
  rw [hx] at hg
  have hgrad : gradOf m "q" (iX 0) = 0 := by
    unfold gradOf
    rw [h6, h3, hg]
    have hlin : gradLin nlH ⟨["q"], [], []⟩ =
        [fun e => e "q" ^ 3 + 1 / 2 * (3 * e "q" ^ 2 * e "dq")] := by
      rw [gradLin_eq]
      simp only [List.map_cons, List.map_nil, nlH_d, dn_q]
      congr 1; funext e
      have := congrFun nlH_dd e
      rw [nlH_d] at this
      simp [this]
    show (List.getD (buildGradient nlH ⟨["q"], [], []⟩ .discret 0 (1 / 10)) _ _) _ = 0
    rw [show buildGradient nlH ⟨["q"], [], []⟩ .discret 0 (1 / 10) =
      gradLin nlH ⟨["q"], [], []⟩ by simp [buildGradient, gradMono, gradMulti, gradTheta, gradient], hlin]
    simp [Groups.x, iX]
  have hst : ∀ n, StepEqs gLaw iNodes iEdges (iCore nlH) m ec (iX n)
      (fun l => if l = "q" then gradOf m "q" (iX n) else - gradOf m "q" (iX n))
      (fun _ => iX n "vi") :=
    fun n => (h9 (iX n)).2 _ _ (i_eqs hfs hi hq (by simp [iX]))
  refine ⟨c2, m, iOK _, iStatic, iPassive, nlH_smooth, iSympy_ok, iSympy_nz, hc, h1, ?_, iRun,
    nl_energy, fun n => (h8 _).2 ⟨_, _, hst n⟩, ?_⟩
  · have hw : m.w = [] := by
      have : (ofType .dissipative iEdges).map (·.label) = [] := by simp [ofType, iEdges, gEdge]
      rw [this] at pw
      exact pw.eq_nil
    have hyu : m.y.zip m.u = [("i", "vi")] := by
      have : ((ofType .port iEdges).map fun d => (d.label, inputOf (iCore nlH) d.label)) =
        [("i", "vi")] := by simp [ofType, iEdges, gEdge, inputOf, iCore]
      rw [this] at py
      exact List.perm_singleton.1 py
    have hy : m.y = ["i"] := by
      have := congrArg (List.map Prod.fst) hyu
      rwa [List.map_fst_zip h2.uy.ge] at this
    have hu : m.u = ["vi"] := by
      have := congrArg (List.map Prod.snd) hyu
      rwa [List.map_snd_zip h2.uy.le] at this
    have hr : M.r = 2 := by
      have := h2.Mr (iX 0)
      rwa [hMe, hx, hw, hy] at this
    have h00 : M.e 0 0 = 0 := by
      have := hM.2 0 (by omega) 0 (by omega)
      linarith
    have hv : ∀ e, 0 < (m.v .all).length := fun e => by
      rw [v_length h2 e .all, show (m.core e).dim Sfx.all.x = m.g.x.length from rfl, hx]
      simp
    have hF : ∀ e, m.F .all 0 e = e "dq" - M.e 0 1 * e "vi" := by
      intro e
      rw [F_eq_res h2 e .all (hv e), row_all]
      unfold Meth.res
      rw [hx, hw, hy, hfs]
      simp [hMe, dn_q, svals, hu, h00]
    have h01 : M.e 0 1 = 1 := by
      have := (h8 (iX 0)).2 ⟨_, _, hst 0⟩ 0 (hv (iX 0))
      rw [hF] at this
      simp [iX] at this
      linarith
    intro e
    rw [hF, h01, one_mul]
  · have hport := port_power (hst 0)
    have hr : received m (iCore nlH) iEdges (iX 0) = 0 := by
      have : power .port iEdges
          (fun l => if l = "q" then gradOf m "q" (iX 0) else - gradOf m "q" (iX 0))
          (fun _ => iX 0 "vi") = 0 := by
        simp [power, ofType, iEdges, gEdge, hgrad]
      rw [this] at hport
      linarith
    rw [hr]
    simp [nlH, iX]

end Circuit
end Pyphs
