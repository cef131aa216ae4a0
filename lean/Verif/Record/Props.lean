/-
Property C65: the powers and energies read in the data file of a simulation.
-/
import Verif.Record.Model
import Verif.H5.RunProps
import Verif.H5.ReadProps
import Verif.Numeric.StepProps

namespace Pyphs
namespace Record
open Scheme Numeric H5 Finset

/-! ### The content of the file -/

/-- The rows of a data file hold the values `X i` of the symbols at the end of step `i`. -/
structure Recorded (n : Num) (ds : Ds ℝ) (X : ℕ → Env ℝ) (nt : ℕ) : Prop where
  r : ds.r = nt
  c : ds.c = (layout n).dim
  x : ∀ i < nt, rowOf (layout n) ds i "x" = n.m.g.x.map (X i)
  dx : ∀ i < nt, rowOf (layout n) ds i "dx" = n.m.g.x.map fun s => X i (dn s)
  w : ∀ i < nt, rowOf (layout n) ds i "w" = n.m.w.map (X i)
  u : ∀ i < nt, rowOf (layout n) ds i "u" = n.m.u.map (X i)
  p : ∀ i < nt, rowOf (layout n) ds i "p" = n.p.map (X i)
  dxH : ∀ i < nt, rowOf (layout n) ds i "dxH" = n.m.dxH.map fun f => f (X i)
  z : ∀ i < nt, rowOf (layout n) ds i "z" = n.m.z.map fun f => f (X i)
  y : ∀ i < nt, rowOf (layout n) ds i "y" = n.m.out (X i)
  other : ∀ i, ∀ s, s ∉ n.all → X i s = n.base s

theorem names_nodup (n : Num) : (layout n).names.Nodup := by
  show List.Nodup ["u", "p", "x", "dx", "dxH", "w", "z", "y"]
  decide

theorem sub_x (n : Num) : n.m.g.x.Sublist n.all := by
  unfold Num.all
  simp only [List.append_assoc]
  exact List.sublist_append_left _ _

theorem sub_dx (n : Num) : (n.m.g.x.map dn).Sublist n.all := by
  unfold Num.all
  simp only [List.append_assoc]
  exact (List.sublist_append_left _ _).trans (List.sublist_append_right _ _)

theorem sub_w (n : Num) : n.m.w.Sublist n.all := by
  unfold Num.all
  simp only [List.append_assoc]
  exact ((List.sublist_append_left _ _).trans (List.sublist_append_right _ _)).trans
    (List.sublist_append_right _ _)

theorem vec_arg {n : Num} (h : n.WF) {st : St Nm ℝ} (hl : st.args.length = n.all.length) {k : Nm}
    {l : List String} (hs : n.syms k = some l) (hsub : l.Sublist n.all) :
    vec n st k = l.map (n.E st) := by
  unfold vec
  rw [get_arg (laidOut n) h.nodup (base := n.base) hl hs hsub]
  rfl

theorem vec_val {n : Num} {st : St Nm ℝ} {k : Nm} {l : List ℝ} (hs : n.syms k = none)
    (hv : st.vals k = some (.v l)) : vec n st k = l := by
  unfold vec Prog.get
  rw [show n.prog.argInds k = none by simp [Num.prog, hs], hv]

/-- The vectors written after a successful update. -/
theorem vecs_eq {n : Num} (hn : n.WF) (hw : MethWF n.m) (hs : SplitOK n.m)
    {u p : List ℝ} {st st' : St Nm ℝ} (hl : st.args.length = n.all.length)
    (hlu : u.length = n.m.u.length) (hlp : p.length = n.p.length)
    (hu : n.update (some u) (some p) st = some st') :
    (machine n).vecs st' = [("x", n.m.g.x.map (n.E st')),
      ("dx", n.m.g.x.map fun s => n.E st' (dn s)), ("dxH", n.m.dxH.map fun f => f (n.E st')),
      ("w", n.m.w.map (n.E st')), ("z", n.m.z.map fun f => f (n.E st')),
      ("y", n.m.out (n.E st'))] := by
  obtain ⟨h1, -⟩ := C24_step hn hl hlu hlp hu
  obtain ⟨-, -, h2, h3, h4⟩ := C59_consistent hn hw hs hl hu
  unfold machine
  simp only
  rw [vec_arg hn h1 (k := .x) rfl (sub_x n), vec_arg hn h1 (k := .dx) rfl (sub_dx n),
    vec_arg hn h1 (k := .w) rfl (sub_w n), vec_val rfl h2, vec_val rfl h3, vec_val rfl h4,
    List.map_map]
  rfl

theorem fits {n : Num} (hw : MethWF n.m) (e : Env ℝ) : Fits (layout n) [("x", n.m.g.x.map e),
      ("dx", n.m.g.x.map fun s => e (dn s)), ("dxH", n.m.dxH.map fun f => f e),
      ("w", n.m.w.map e), ("z", n.m.z.map fun f => f e), ("y", n.m.out e)] := by
  refine ⟨by simp, by simp [layout], ?_⟩
  have hy : (n.m.out e).length = n.m.y.length := out_length ..
  simp [layout, hw.gx, hw.wz, hy]

/-- The successful updates of a simulation of `nt` steps. -/
structure Run (n : Num) (nt : ℕ) (sequ seqp : List (List ℝ)) (st : ℕ → St Nm ℝ) : Prop where
  lu : sequ.length = nt
  lp : seqp.length = nt
  du : ∀ r ∈ sequ, r.length = n.m.u.length
  dp : ∀ r ∈ seqp, r.length = n.p.length
  init : (st 0).args.length = n.all.length
  step : ∀ i < nt, n.update (some (sequ.getD i [])) (some (seqp.getD i [])) (st i) =
    some (st (i + 1))

theorem getD_len {l : List (List ℝ)} {i k nt : ℕ} (hl : l.length = nt) (h : ∀ r ∈ l, r.length = k)
    (hi : i < nt) : (l.getD i []).length = k := by
  apply h
  rw [List.getD_eq_getElem?_getD, List.getElem?_eq_getElem (by omega)]
  exact List.getElem_mem _

theorem Run.facts {n : Num} (hn : n.WF) {nt : ℕ} {sequ seqp : List (List ℝ)}
    {st : ℕ → St Nm ℝ} (h : Run n nt sequ seqp st) : ∀ i ≤ nt,
    (st i).args.length = n.all.length := by
  intro i
  induction i with
  | zero => intro _; exact h.init
  | succ i ih =>
    intro hi
    exact (C24_step hn (ih (by omega)) (getD_len h.lu h.du (by omega))
      (getD_len h.lp h.dp (by omega)) (h.step i (by omega))).1

/-- C65. The simulation writes a file in which row `i` holds the values at the end of the update
number `i`: states, increments, dissipation variables, inputs, parameters, and the values of the gradient,
of the laws and of the outputs for these values. -/
theorem C65_file {n : Num} (hn : n.WF) (hw : MethWF n.m) (hs : SplitOK n.m) {nt : ℕ}
    {sequ seqp : List (List ℝ)} {st : ℕ → St Nm ℝ} (h : Run n nt sequ seqp st) {w : Window}
    (hst : w.stop = nt) (hw1 : 1 ≤ w.step) :
    ∃ ds dn, initFile (layout n) nt sequ seqp = .ok ds ∧
      process (layout n) w (machine n) nt (st 0) ds = .ok (st nt, dn) ∧
      Recorded n dn (fun i => n.E (st (i + 1))) nt := by
  have nd := names_nodup n
  obtain ⟨ds, a1, a2, a3, a4, a5, a6⟩ := C33_init nd (by simp [layout]) (by simp [layout]) h.lu h.lp
    (by intro r hr; rw [h.du r hr, hw.uy]; simp [layout]) (by
      intro r hr; rw [h.dp r hr]; simp [layout])
  have get : ∀ {l : List (List ℝ)} {i : ℕ} {r : List ℝ}, some r = l[i]? → l.getD i [] = r := by
    intro l i r e
    rw [List.getD_eq_getElem?_getD, ← e]; rfl
  have tr : ∀ i ≤ nt, traj (machine n) (st 0) (inputs (layout n) ds) i = st i := by
    intro i
    induction i with
    | zero => intro _; rfl
    | succ i ih =>
      intro hi
      show (machine n).upd (traj _ _ _ i) _ _ = _
      rw [ih (by omega)]
      show (n.update (some (rowOf _ ds i "u")) (some (rowOf _ ds i "p")) (st i)).getD (st i) = _
      rw [← get (a4 i (by omega)), ← get (a5 i (by omega)), h.step i (by omega)]
      rfl
  have len := h.facts hn
  have ve : ∀ i < nt, _ := fun i hi => vecs_eq hn hw hs (len i (by omega))
    (getD_len h.lu h.du hi) (getD_len h.lp h.dp hi) (h.step i hi)
  obtain ⟨dn', e1, e2, e3, e4⟩ := process_ok (m := machine n) nd (by simp [layout])
    (by simp [layout]) hw1 a3 (stop := nt) hst (by omega) (st 0) nt (by
      intro i hi
      rw [Nat.min_self] at hi
      rw [tr (i + 1) hi, ve i hi]
      exact fits hw _)
  rw [Nat.min_self] at e1 e4
  rw [tr nt (le_refl _)] at e1
  refine ⟨ds, dn', a1, e1, ?_⟩
  have key : ∀ i < nt, ∀ name ∈ (layout n).names, rowOf (layout n) dn' i name =
      (valueOf [("x", n.m.g.x.map (n.E (st (i + 1)))),
      ("dx", n.m.g.x.map fun s => n.E (st (i + 1)) (dn s)),
      ("dxH", n.m.dxH.map fun f => f (n.E (st (i + 1)))),
      ("w", n.m.w.map (n.E (st (i + 1)))), ("z", n.m.z.map fun f => f (n.E (st (i + 1)))),
      ("y", n.m.out (n.E (st (i + 1))))] name).getD (rowOf (layout n) ds i name) := by
    intro i hi name hm
    rw [e4 name hm i, if_pos hi, tr (i + 1) hi, ve i hi]
  refine ⟨e2.trans a2, e3.trans a3, ?_, ?_, ?_, ?_, ?_, ?_, ?_, ?_, ?_⟩
  · intro i hi; rw [key i hi _ (by simp [layout])]; rfl
  · intro i hi; rw [key i hi _ (by simp [layout])]; rfl
  · intro i hi; rw [key i hi _ (by simp [layout])]; rfl
  · intro i hi
    rw [key i hi _ (by simp [layout])]
    show rowOf (layout n) ds i "u" = _
    rw [← get (a4 i hi)]
    exact (C24_step hn (len i (by omega)) (getD_len h.lu h.du hi) (getD_len h.lp h.dp hi)
      (h.step i hi)).2.2.1.symm
  · intro i hi
    rw [key i hi _ (by simp [layout])]
    show rowOf (layout n) ds i "p" = _
    rw [← get (a5 i hi)]
    exact (C24_step hn (len i (by omega)) (getD_len h.lu h.du hi) (getD_len h.lp h.dp hi)
      (h.step i hi)).2.2.2.symm
  · intro i hi; rw [key i hi _ (by simp [layout])]; rfl
  · intro i hi; rw [key i hi _ (by simp [layout])]; rfl
  · intro i hi; rw [key i hi _ (by simp [layout])]; rfl
  · intro i s hs'
    exact envOf_not_mem hs'

end Record
end Pyphs
