/-
Property C82: the pickup.
-/
import Verif.Pickup.Net
import Verif.Pickup.Spec
import Mathlib.Analysis.Calculus.Deriv.Inv
import Mathlib.Analysis.Calculus.Deriv.Pow
import Mathlib.Analysis.Calculus.Deriv.Add
import Mathlib.Analysis.Calculus.Deriv.Mul
import Mathlib.Analysis.Calculus.Deriv.Comp

namespace Pyphs
namespace Pickup
open Graph Frac Beam

section
variable {K : Type} [Field K] [DecidableEq K]

/-- **C82**. A pickup inside any graph is a coil with `Ncoil` turns: its voltage is that of the flux of its
core and of the flux that the motion of the mass brings to it, for all values of the coupling, zero
included. The velocity seen by the observer is that of every component between the reference and the mass,
on which it acts by the force `eps * q` only; the electrical power is stored in the core or comes from the
magnet. -/
theorem C82_pickup {law : String → Env K → K} {nodes : List String} {es : List (Edge K)} {fuel : ℕ}
    {st : St K} {c c' : Core K} {label mass el1 el2 : String} {f N C eps : K}
    (h : Assembled law nodes es fuel st c c') (hp : Plugged nodes es c label mass el1 el2 f N)
    (hN : N ≠ 0) {E F X dX : String → K}
    (hs : CoreSolution st c' (storages label mass eps C) E F X dX) :
    Coil N C f (E ("y" ++ (label ++ "Magnet"))) (E ("y" ++ (label ++ "MagToElec") ++ "2"))
      (F ("y" ++ (label ++ "MagToElec") ++ "2")) (X ("x" ++ (label ++ "Ccoil")))
      (dX ("x" ++ (label ++ "Ccoil"))) (F ("y" ++ (label ++ "Magnet"))) ∧
    (∀ d ∈ es, d.tail = datum → d.head = mass → E d.label = dX ("x" ++ (label ++ "OBS"))) ∧
    F ("x" ++ (label ++ "OBS")) = eps * X ("x" ++ (label ++ "OBS")) ∧
    E ("y" ++ (label ++ "MagToElec") ++ "2") * F ("y" ++ (label ++ "MagToElec") ++ "2") =
      X ("x" ++ (label ++ "Ccoil")) / C * dX ("x" ++ (label ++ "Ccoil")) +
        E ("y" ++ (label ++ "Magnet")) * F ("y" ++ (label ++ "Magnet")) := by
  have hss : Solution st c' (storages label mass eps C) E F X dX := by
    refine h.solution ?_ ?_ ?_ hs
    · intro d hd
      refine hp.mem ?_
      simp only [storages, edgesOf, List.flatMap_cons, List.flatMap_nil, Frac.Part.edges,
        List.cons_append, List.nil_append, List.mem_cons, List.not_mem_nil, or_false] at hd
      rcases hd with rfl | rfl <;> simp [edges]
    · intro p hm
      simp only [storages, List.mem_cons, List.not_mem_nil, or_false] at hm
      rcases hm with rfl | rfl <;> simp [Frac.Part.Good]
    · intro l n1 n2 k i hm
      simp [storages] at hm
  obtain ⟨hfb, p, hpot⟩ := h.kirchhoff hss
  have lo := hss.laws (.stor (label ++ "OBS") datum mass eps .e) (by simp [storages])
  have lc := hss.laws (.stor (label ++ "Ccoil") datum (nCcoil label) C⁻¹ .f) (by simp [storages])
  simp only [Frac.Part.Law, reduceCtorEq, if_false, if_true] at lo lc
  -- controls
  have mC : (edgeS (label ++ "Ccoil") datum (nCcoil label) .f : Edge K) ∈ es := hp.mem (by simp [edges])
  have mG1 : gyrA (label ++ "MecToMag") datum (nCcoil label) f⁻¹ ∈ es := hp.mem (by simp [edges])
  have mG2 : gyrA (label ++ "MagToElec") datum (nCcoil label) N ∈ es := hp.mem (by simp [edges])
  have fC := ((C60_prescribed h.datum h.labels h.free h.analysed mC).2 rfl).1
  have ecOf : ∀ d ∈ es, d.type = .connector → d.tail = datum → d.head = nCcoil label →
      d.label ∈ st.ec.map (lab st) := by
    intro d hd ht h1 h2
    refine (h.split hd).resolve_right (not_both_in h mC hd ?_ rfl h2 rfl h1 fC)
    intro e
    have := List.inj_on_of_nodup_map h.labels mC hd e
    rw [← this] at ht
    exact absurd ht (by simp [edgeS])
  obtain ⟨i1, k1, hk1⟩ := hp.conn1
  obtain ⟨i2, k2, hk2⟩ := hp.conn2
  obtain ⟨a1, a2⟩ := gyr_ec h hss hk1 rfl (ecOf _ mG1 rfl rfl rfl)
  obtain ⟨b1, b2⟩ := gyr_ec h hss hk2 rfl (ecOf _ mG2 rfl rfl rfl)
  rw [inv_inv] at a1 a2
  -- potentials
  have e1 := hpot _ mC
  have e2 := hpot _ mG1
  have e3 := hpot _ mG2
  have e4 := hpot (mmf (label ++ "Magnet") datum (nMagnet label)) (hp.mem (by simp [edges]))
  have e5 := hpot (gyrB (label ++ "MecToMag") datum (nMagnet label)) (hp.mem (by simp [edges]))
  have e6 := hpot (edgeS (label ++ "OBS") datum mass .e) (hp.mem (by simp [edges]))
  simp only [edgeS, gyrA, gyrB, mmf] at e1 e2 e3 e4 e5 e6 a1 a2 b1 b2
  -- flows
  obtain ⟨-, hd1⟩ := hp.known (nMagnet label) (by simp)
  obtain ⟨-, hd2⟩ := hp.known (nCcoil label) (by simp)
  obtain ⟨t1, t2⟩ := hp.terminals mass (by simp)
  obtain ⟨t3, t4⟩ := hp.terminals el1 (by simp)
  obtain ⟨t5, t6⟩ := hp.terminals el2 (by simp)
  have q1 := hp.balance hfb (v := nMagnet label) (by simp)
  have q2 := hp.balance hfb (v := nCcoil label) (by simp)
  simp [leaving, edges, sign, edgeS, gyrA, gyrB, mmf, inner_ne, inner_ne.symm, hd1, hd2, t1.symm, t2.symm,
    t3.symm, t4.symm, t5.symm, t6.symm] at q1 q2
  have hh : E ("y" ++ (label ++ "MecToMag") ++ "2") = E ("y" ++ (label ++ "Magnet")) := by rw [e4, e5]
  have ha : E ("y" ++ (label ++ "MecToMag") ++ "1") = X ("x" ++ (label ++ "Ccoil")) / C := by
    rw [e2, ← e1, lc.2]; ring
  have hb : E ("y" ++ (label ++ "MagToElec") ++ "1") = X ("x" ++ (label ++ "Ccoil")) / C := by
    rw [e3, ← e1, lc.2]; ring
  have c1 : N * F ("y" ++ (label ++ "MagToElec") ++ "2") = X ("x" ++ (label ++ "Ccoil")) / C := by
    rw [b2, hb]; field_simp
  have c2 : E ("y" ++ (label ++ "MagToElec") ++ "2") =
      N * (dX ("x" ++ (label ++ "Ccoil")) - f * E ("y" ++ (label ++ "Magnet"))) := by
    have : F ("y" ++ (label ++ "MagToElec") ++ "1") =
        f * E ("y" ++ (label ++ "Magnet")) - dX ("x" ++ (label ++ "Ccoil")) := by
      rw [lc.1, ← hh]; rw [a1] at q2; linear_combination -q2
    rw [b1] at this
    have h2 : E ("y" ++ (label ++ "MagToElec") ++ "2") =
        -(N * (-N⁻¹ * E ("y" ++ (label ++ "MagToElec") ++ "2"))) := by field_simp
    rw [h2, this]; ring
  have c3 : F ("y" ++ (label ++ "Magnet")) =
      -(f * (N * F ("y" ++ (label ++ "MagToElec") ++ "2"))) := by
    rw [a2, ha] at q1
    rw [c1]; linear_combination -q1
  refine ⟨⟨c1, c2, c3⟩, ?_, lo.2, ?_⟩
  · intro d hd h1 h2
    rw [hpot d hd, h1, h2, lo.1, e6]
  · rw [c3, c2, ← c1]; ring

end

/-- The flux of the ball has the slope of `f`. -/
theorem flux_slope {Rb Rp Lh Lv q : ℝ} (hL : Lh ≠ 0) :
    HasDerivAt (flux Rb Rp Lh Lv) (slope Rb Rp Lh Lv q) q := by
  have key : ∀ a : ℝ, HasDerivAt (fun q => (q + a) / ((q + a) ^ 2 + Lh ^ 2))
      ((Lh ^ 2 - (q + a) ^ 2) / ((q + a) ^ 2 + Lh ^ 2) ^ 2) q := by
    intro a
    have h1 : HasDerivAt (fun q => q + a) 1 q := (hasDerivAt_id q).add_const a
    have h2 : HasDerivAt (fun q => (q + a) ^ 2 + Lh ^ 2) (2 * (q + a)) q := by
      have := (h1.pow 2).add_const (Lh ^ 2)
      exact this.congr_deriv (by simp)
    have h0 : (q + a) ^ 2 + Lh ^ 2 ≠ 0 := by positivity
    exact (h1.div h2 h0).congr_deriv (by congr 1; ring)
  have h1 := key (Rp + Lv)
  have h2 := key (-Rp + Lv)
  have h := (h1.sub h2).const_mul (2 * Rb ^ 2 * Rp)
  have e : flux Rb Rp Lh Lv = fun q => 2 * Rb ^ 2 * Rp *
      ((q + (Rp + Lv)) / ((q + (Rp + Lv)) ^ 2 + Lh ^ 2) -
        (q + (-Rp + Lv)) / ((q + (-Rp + Lv)) ^ 2 + Lh ^ 2)) := by
    funext q
    unfold flux
    rw [← add_assoc, ← add_assoc, ← sub_eq_add_neg]
  rw [e]
  refine h.congr_deriv ?_
  unfold slope
  rw [← add_assoc, ← add_assoc, ← sub_eq_add_neg]
  ring

/-- **C82**. Induction: along any motion, with a constant magnet, the voltage of the pickup is the
derivative of the flux linked by its coil: its own flux less that which the ball takes to the magnet at its
present position. -/
theorem C82_induction {label mass el1 el2 : String} {Rb Rp Lh Lv N C eps h : ℝ} (hN : N ≠ 0)
    (hC : C ≠ 0) (hL : Lh ≠ 0) {E F X dX : ℝ → String → ℝ}
    (hx : ∀ t, ∀ s ∈ ["x" ++ (label ++ "OBS"), "x" ++ (label ++ "Ccoil")],
      HasDerivAt (fun t => X t s) (dX t s) t)
    (hh : ∀ t, E t ("y" ++ (label ++ "Magnet")) = h)
    (hs : ∀ t, ∃ law nodes es fuel, ∃ (st : St ℝ) (c c' : Core ℝ), Assembled law nodes es fuel st c c' ∧
      Plugged nodes es c label mass el1 el2 (coupling Rb Rp Lh Lv (X t ("x" ++ (label ++ "OBS")))
        (dX t ("x" ++ (label ++ "OBS")))) N ∧
      CoreSolution st c' (storages label mass eps C) (E t) (F t) (X t) (dX t)) (t : ℝ) :
    HasDerivAt (fun t => N ^ 2 * C * F t ("y" ++ (label ++ "MagToElec") ++ "2") -
      N * h * flux Rb Rp Lh Lv (X t ("x" ++ (label ++ "OBS"))))
      (E t ("y" ++ (label ++ "MagToElec") ++ "2")) t := by
  have hc : ∀ t, Coil N C _ _ _ _ _ _ _ := fun t => by
    obtain ⟨law, nodes, es, fuel, st, c, c', h1, h2, h3⟩ := hs t
    exact (C82_pickup h1 h2 hN h3).1
  have e : (fun t => N ^ 2 * C * F t ("y" ++ (label ++ "MagToElec") ++ "2") -
      N * h * flux Rb Rp Lh Lv (X t ("x" ++ (label ++ "OBS")))) =
      fun t => N * X t ("x" ++ (label ++ "Ccoil")) -
        N * h * flux Rb Rp Lh Lv (X t ("x" ++ (label ++ "OBS"))) := by
    funext t
    have := (hc t).ampere
    rw [eq_div_iff hC] at this
    rw [← this]; ring
  rw [e, (hc t).faraday, hh]
  have d1 := (hx t _ (List.mem_cons_of_mem _ (List.mem_singleton_self _))).const_mul N
  have d2 := ((flux_slope (Rb := Rb) (Rp := Rp) (Lv := Lv) hL).comp t
    (hx t _ List.mem_cons_self)).const_mul (N * h)
  refine (d1.sub d2).congr_deriv ?_
  unfold coupling
  ring

end Pickup
end Pyphs
