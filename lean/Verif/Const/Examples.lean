/-
Examples for C83: the circuit of C65, with a constant source.
-/
import Verif.Const.File
import Verif.Record.Examples

namespace Pyphs
namespace Record
open Scheme Numeric H5 Mat Finset

/-- The simulation of a linear system with constants exists. -/
theorem const_run {n : Num} (hn : n.WF) (hl : 0 < n.l) (hnl : n.nl = 0)
    (hinv : ∀ e, ∃ B, (n.m.J .l .l e).inv = some B) (hobs : n.obs.length = n.o.length)
    {fix : List (String × ℝ)} (hk : ∀ q ∈ fix, q.1 ∈ n.m.u ++ n.p) {nt : ℕ}
    {sequ seqp : List (List ℝ)} (lu : sequ.length = nt) (lp : seqp.length = nt)
    (du : ∀ r ∈ sequ, r.length = n.m.u.length) (dp : ∀ r ∈ seqp, r.length = n.p.length)
    {s0 : St Nm ℝ} (h0 : s0.args.length = n.all.length) :
    ∃ st, st 0 = s0 ∧ ConstRun n fix nt sequ seqp st := by
  let st : ℕ → St Nm ℝ := fun i => Nat.rec s0
    (fun i s => (n.constUpdate fix (some (sequ.getD i [])) (some (seqp.getD i [])) s).getD s) i
  have key : ∀ i ≤ nt, (st i).args.length = n.all.length ∧ ∀ j < i,
      n.constUpdate fix (some (sequ.getD j [])) (some (seqp.getD j [])) (st j) = some (st (j + 1)) := by
    intro i
    induction i with
    | zero => intro _; exact ⟨h0, fun j hj => absurd hj (by omega)⟩
    | succ i ih =>
      intro hi
      obtain ⟨a1, a2⟩ := ih (by omega)
      have hu := getD_len lu du (show i < nt by omega)
      have hp := getD_len lp dp (show i < nt by omega)
      obtain ⟨s', hs'⟩ := linear_runs hn hl hnl hinv hobs (constIn_length fix hu) (constIn_length fix hp)
        (st := hold n fix (st i)) (by show (mask _ _).length = _; rw [mask_length, a1])
      rw [C83_update hn hk a1 hu hp] at hs'
      obtain ⟨s2, h2, -⟩ := Option.map_eq_some_iff.1 hs'
      have e : st (i + 1) = s2 := by
        show (n.constUpdate fix _ _ (st i)).getD (st i) = s2
        rw [h2]; rfl
      refine ⟨?_, fun j hj => ?_⟩
      · rw [e, constUpdate_length h2, a1]
      · rcases Nat.lt_succ_iff_lt_or_eq.1 hj with hj | rfl
        · exact a2 j hj
        · rw [e]; exact h2
  exact ⟨st, rfl, lu, lp, du, dp, h0, fun i hi => (key nt (le_refl _)).2 i hi⟩

/-- The output of the circuit: the voltage of the capacitor. -/
theorem rc_out (e : Env ℝ) : rc.out e = [e "a" + 1 / 2 * e "da"] := by
  have hd : ∀ a b c, (rc.core e).output a b c = [(∑ j ∈ range 1, (1 : ℝ) * a j) +
      (∑ j ∈ range 1, (0 : ℝ) * b j) + (∑ j ∈ range 1, (0 : ℝ) * c j)] := fun a b c => rfl
  have hv : vals rc.dxH e 0 = e "a" + 1 / 2 * e "da" := rfl
  unfold Meth.out
  rw [hd]
  simp only [sum_range_one, one_mul, zero_mul, add_zero, hv]

/-- The port of the circuit is a source of constant value `c`; nothing is given as input (zeros). From the
state at rest, the sum of the powers `dtE`, `pd` and `ps` of the data file is `c ^ 2 / 4` at the first step:
`C65_balance` does not extend to constant sources; and the hypotheses of `C83_update`, `C83_run`,
`C83_file` and `C83_balance` hold together. -/
example (b : Env ℝ) (c : ℝ) (nt : ℕ) (hnt : 0 < nt) :
    ∃ ds dn sN, initFile (layout (rcN b)) nt (List.replicate nt [0]) (List.replicate nt []) = .ok ds ∧
      process (layout (rcN b)) ⟨0, nt, 1⟩ (constMachine (rcN b) [("v", c)]) nt
        ⟨[0, 0, 0, 0], fun _ => none⟩ ds = .ok (sN, dn) ∧
      ∃ D P S : ℕ → ℝ, readDtE (layout (rcN b)) ⟨0, nt, 1⟩ dn 1 .none = .ok ((samples 0 nt 1).map D) ∧
        readExpr (layout (rcN b)) ⟨0, nt, 1⟩ dn (.vector [] [])
          (.scalar (List.range 4) fun a => pdExpr rc (over [("v", c)] ((rcN b).env a))) .none =
          .ok (.rows ((samples 0 nt 1).map fun i => [P i])) ∧
        readPs (layout (rcN b)) ⟨0, nt, 1⟩ dn .none = .ok ((samples 0 nt 1).map S) ∧
        D 0 + P 0 + S 0 = c ^ 2 / 4 := by
  have hk : ∀ q ∈ [("v", c)], q.1 ∈ (rcN b).m.u ++ (rcN b).p := by
    intro q hq
    rw [List.mem_singleton.1 hq]
    show "v" ∈ ["v"] ++ []
    simp
  obtain ⟨st, e0, hr⟩ := const_run (n := rcN b) (rcN_wf b) (by rw [rcN_l]; omega) (rcN_nl b) rc_inv
    rfl hk (nt := nt) (sequ := List.replicate nt [0]) (seqp := List.replicate nt [])
    (by simp) (by simp)
    (by intro r hr; rw [List.eq_of_mem_replicate hr]; rfl)
    (by intro r hr; rw [List.eq_of_mem_replicate hr]; rfl)
    (s0 := ⟨[0, 0, 0, 0], fun _ => none⟩) (by rw [rcN_all b]; rfl)
  obtain ⟨ds, dn', a1, a2, a3⟩ := C83_balance (n := rcN b) (rcN_wf b) rc_wf rc_ok rfl (le_refl _) hk hr
    (w := ⟨0, nt, 1⟩) rfl (le_refl _)
    (evaluates (rcN b) fun e => pdExpr (rcN b).m (over [("v", c)] e))
  rw [e0] at a2
  refine ⟨ds, dn', st nt, a1, a2, ?_⟩
  obtain ⟨D, P, S, b1, b2, b3, b4⟩ := a3 ⟨0, nt, 1⟩ .none 0 nt 1
    ⟨by exact ⟨rfl, rfl, rfl⟩, Nat.zero_le _, le_refl _, le_refl _⟩ hnt (one_dvd _)
  refine ⟨D, P, S, b1, b2, b3, ?_⟩
  have h := b4 0 (mem_samples.2 ⟨hnt, Nat.zero_le _, rfl⟩) (Or.inl (rcN_nl b))
  have hs : ∀ e, slack (rcN b) e = 0 := fun e => by
    unfold slack
    rw [show (rcN b).tol = 0 from if_pos rfl, zero_mul]
  rw [hs, abs_le] at h
  have hka : ∀ q ∈ [("v", c)], q.1 ∈ (rcN b).all := by
    intro q hq
    rw [List.mem_singleton.1 hq, rcN_all b]
    simp
  have run := C83_run (rcN_wf b) hk hr
  have hst1 := run.step 0 hnt
  have lu0 := getD_len run.lu run.du hnt
  have lp0 := getD_len run.lp run.dp hnt
  have E1 := hold_E hka (hr.facts 1 hnt)
  have E0 := hold_E hka (hr.facts 0 (Nat.zero_le _))
  have step := C24_step (rcN_wf b) (run.facts (rcN_wf b) 0 (Nat.zero_le _)) lu0 lp0 hst1
  have cons := (C59_consistent (rcN_wf b) rc_wf rc_ok (run.facts (rcN_wf b) 0 (Nat.zero_le _)) hst1).1
  simp only [Nat.zero_add] at h step cons
  have c0 := cons 0 (by rw [rcN_l]; omega)
  have c1 := cons 1 (by rw [rcN_l]; omega)
  rw [show (rcN b).m = rc from rfl, E1] at c0 c1
  rw [rc_F0] at c0
  rw [rc_F1] at c1
  have ha := step.2.1 "a" (by show "a" ∈ ["a"]; simp)
  rw [E1, E0, e0] at ha
  have hz : (rcN b).E (⟨[0, 0, 0, 0], fun _ => none⟩ : St Nm ℝ) = (rcN b).env [0, 0, 0, 0] := rfl
  have za : (rcN b).env [0, 0, 0, 0] "a" = 0 := by
    unfold Num.env
    rw [envOf_mem (all := (rcN b).all) (args := [0, 0, 0, 0]) (s := "a") (by rw [rcN_all b]; simp)
      (by rw [rcN_all b]; rfl), rcN_all b]
    rfl
  have zda : (rcN b).env [0, 0, 0, 0] "da" = 0 := by
    unfold Num.env
    rw [envOf_mem (all := (rcN b).all) (args := [0, 0, 0, 0]) (s := "da") (by rw [rcN_all b]; simp)
      (by rw [rcN_all b]; rfl), rcN_all b]
    rfl
  have hdn : dn "a" = "da" := by decide
  have ov : ∀ (e : Env ℝ) s, s ≠ "v" → over [("v", c)] e s = e s := by
    intro e s hs
    unfold over
    rw [lookup_none (by simpa using hs)]; rfl
  rw [hdn, hz, ov _ _ (by decide), ov _ _ (by decide), ov _ _ (by decide), za, zda, add_zero] at ha
  have hv : over [("v", c)] ((rcN b).E (st 1)) "v" = c := by simp [over]
  simp only [hv] at c0
  generalize hX : over [("v", c)] ((rcN b).E (st 1)) = X at *
  have hXa : X "a" = 0 := by rw [← hX, ov _ _ (by decide)]; exact ha
  have hout : (rcN b).m.out X = [X "a" + 1 / 2 * X "da"] := rc_out X
  rw [hout] at h
  have hg : (List.replicate nt [(0 : ℝ)]).getD 0 [] = [0] := by
    rw [List.getD_eq_getElem?_getD, List.getElem?_replicate, if_pos hnt]; rfl
  rw [hg] at h
  have hm : missing [("v", c)] (rcN b).m.u [0] [X "a" + 1 / 2 * X "da"] = c * (X "a" + 1 / 2 * X "da") := by
    show missing [("v", c)] ["v"] [0] _ = _
    simp [missing]
  rw [hm] at h
  simp only [hXa] at h c1
  have e1 : X "da" = - c / 2 := by linarith
  rw [e1] at h
  have h1 := h.1
  have h2 := h.2
  ring_nf at h1 h2 ⊢
  linarith

end Record
end Pyphs
