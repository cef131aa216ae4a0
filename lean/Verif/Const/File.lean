/-
Property C83: the data file of a simulation with constant sources.
-/
import Verif.Const.Props

namespace Pyphs
namespace Record
open Scheme Numeric H5 Finset

/-- The successful updates of a simulation with constants. -/
structure ConstRun (n : Num) (fix : List (String × ℝ)) (nt : ℕ) (sequ seqp : List (List ℝ))
    (st : ℕ → St Nm ℝ) : Prop where
  lu : sequ.length = nt
  lp : seqp.length = nt
  du : ∀ r ∈ sequ, r.length = n.m.u.length
  dp : ∀ r ∈ seqp, r.length = n.p.length
  init : (st 0).args.length = n.all.length
  step : ∀ i < nt, n.constUpdate fix (some (sequ.getD i [])) (some (seqp.getD i [])) (st i) =
    some (st (i + 1))

theorem constIn_length (fix : List (String × ℝ)) {l : List String} {v : List ℝ} (h : v.length = l.length) :
    (constIn fix l v).length = l.length := by
  simp [constIn, h]

theorem ConstRun.facts {n : Num} {fix : List (String × ℝ)} {nt : ℕ} {sequ seqp : List (List ℝ)}
    {st : ℕ → St Nm ℝ} (h : ConstRun n fix nt sequ seqp st) : ∀ i ≤ nt,
    (st i).args.length = n.all.length := by
  intro i
  induction i with
  | zero => intro _; exact h.init
  | succ i ih => intro hi; rw [constUpdate_length (h.step i (by omega)), ih (by omega)]

theorem getD_map_const (fix : List (String × ℝ)) (l : List String) (s : List (List ℝ)) (i : ℕ) :
    (s.map (constIn fix l)).getD i [] = constIn fix l (s.getD i []) := by
  rw [List.getD_eq_getElem?_getD, List.getD_eq_getElem?_getD, List.getElem?_map]
  cases s[i]? with
  | none => simp [constIn]
  | some v => rfl

/-- C83. A simulation with constants is a simulation without constants in which the constants are given
as inputs (or parameters) at each step, up to the slots of the constants. All the theorems about runs apply
to the states `hold n fix (st i)`. -/
theorem C83_run {n : Num} (hn : n.WF) {fix : List (String × ℝ)} (hk : ∀ q ∈ fix, q.1 ∈ n.m.u ++ n.p)
    {nt : ℕ} {sequ seqp : List (List ℝ)} {st : ℕ → St Nm ℝ} (h : ConstRun n fix nt sequ seqp st) :
    Run n nt (sequ.map (constIn fix n.m.u)) (seqp.map (constIn fix n.p)) (fun i => hold n fix (st i)) where
  lu := by simp [h.lu]
  lp := by simp [h.lp]
  du := by
    intro r hr
    obtain ⟨v, hv, rfl⟩ := List.mem_map.1 hr
    exact constIn_length fix (h.du v hv)
  dp := by
    intro r hr
    obtain ⟨v, hv, rfl⟩ := List.mem_map.1 hr
    exact constIn_length fix (h.dp v hv)
  init := by
    show (mask _ _).length = _
    rw [mask_length, h.init]
  step := by
    intro i hi
    rw [getD_map_const, getD_map_const, C83_update hn hk (h.facts i (by omega))
      (getD_len h.lu h.du hi) (getD_len h.lp h.dp hi), h.step i hi]
    rfl

theorem vecs_hold {n : Num} (hn : n.WF) {fix : List (String × ℝ)} (hk : ∀ q ∈ fix, q.1 ∈ n.m.u ++ n.p)
    (st : St Nm ℝ) : (machine n).vecs (hold n fix st) = (machine n).vecs st := by
  have key : ∀ k, k ∉ [Nm.u, Nm.p] → vec n (hold n fix st) k = vec n st k := by
    intro k hkX
    unfold vec hold
    rw [get_mask ((masked hn hk).free k hkX)]
  unfold machine
  simp only
  rw [key .x (by decide), key .dx (by decide), key .dxH (by decide), key .w (by decide), key .z (by decide),
    key .y (by decide)]

/-- The vectors that are written, for the values `e` of the symbols. -/
noncomputable def written (n : Num) (e : Env ℝ) : List (String × List ℝ) :=
  [("x", n.m.g.x.map e), ("dx", n.m.g.x.map fun s => e (dn s)), ("dxH", n.m.dxH.map fun f => f e),
    ("w", n.m.w.map e), ("z", n.m.z.map fun f => f e), ("y", n.m.out e)]

/-- The rows of a data file: inputs and parameters as given, other values for the values `X i` of the
symbols. -/
structure ConstRecorded (n : Num) (ds : Ds ℝ) (X : ℕ → Env ℝ) (U P : ℕ → List ℝ) (nt : ℕ) : Prop where
  r : ds.r = nt
  c : ds.c = (layout n).dim
  x : ∀ i < nt, rowOf (layout n) ds i "x" = n.m.g.x.map (X i)
  dx : ∀ i < nt, rowOf (layout n) ds i "dx" = n.m.g.x.map fun s => X i (dn s)
  w : ∀ i < nt, rowOf (layout n) ds i "w" = n.m.w.map (X i)
  u : ∀ i < nt, rowOf (layout n) ds i "u" = U i
  p : ∀ i < nt, rowOf (layout n) ds i "p" = P i
  dxH : ∀ i < nt, rowOf (layout n) ds i "dxH" = n.m.dxH.map fun f => f (X i)
  z : ∀ i < nt, rowOf (layout n) ds i "z" = n.m.z.map fun f => f (X i)
  y : ∀ i < nt, rowOf (layout n) ds i "y" = n.m.out (X i)

/-- C83. The file of a simulation with constants holds the states and outputs of the simulation in which
the constants are the inputs, but its columns `u` and `p` hold what was given, not the constants. -/
theorem C83_file {n : Num} (hn : n.WF) (hw : MethWF n.m) (hs : SplitOK n.m) {fix : List (String × ℝ)}
    (hk : ∀ q ∈ fix, q.1 ∈ n.m.u ++ n.p) {nt : ℕ}
    {sequ seqp : List (List ℝ)} {st : ℕ → St Nm ℝ} (h : ConstRun n fix nt sequ seqp st) {w : Window}
    (hst : w.stop = nt) (hw1 : 1 ≤ w.step) :
    ∃ ds dn, initFile (layout n) nt sequ seqp = .ok ds ∧
      process (layout n) w (constMachine n fix) nt (st 0) ds = .ok (st nt, dn) ∧
      ConstRecorded n dn (fun i => over fix (n.E (st (i + 1)))) (fun i => sequ.getD i [])
        (fun i => seqp.getD i []) nt := by
  have nd := names_nodup n
  have hr := C83_run hn hk h
  have hka : ∀ q ∈ fix, q.1 ∈ n.all := by
    intro q hq
    have := hk q hq
    unfold Num.all
    simp only [List.mem_append] at this ⊢
    tauto
  obtain ⟨ds, a1, a2, a3, a4, a5, a6⟩ := C33_init nd (by simp [layout]) (by simp [layout]) h.lu h.lp
    (by intro r hr; rw [h.du r hr, hw.uy]; simp [layout]) (by
      intro r hr; rw [h.dp r hr]; simp [layout])
  have get : ∀ {l : List (List ℝ)} {i : ℕ} {r : List ℝ}, some r = l[i]? → l.getD i [] = r := by
    intro l i r e
    rw [List.getD_eq_getElem?_getD, ← e]; rfl
  have tr : ∀ i ≤ nt, traj (constMachine n fix) (st 0) (inputs (layout n) ds) i = st i := by
    intro i
    induction i with
    | zero => intro _; rfl
    | succ i ih =>
      intro hi
      show (constMachine n fix).upd (traj _ _ _ i) _ _ = _
      rw [ih (by omega)]
      show (n.constUpdate fix (some (rowOf _ ds i "u")) (some (rowOf _ ds i "p")) (st i)).getD (st i) = _
      rw [← get (a4 i (by omega)), ← get (a5 i (by omega)), h.step i (by omega)]
      rfl
  have len := h.facts
  have ve : ∀ i < nt, (constMachine n fix).vecs (st (i + 1)) =
      written n (over fix (n.E (st (i + 1)))) := fun i hi => by
    have := vecs_eq hn hw hs (hr.facts hn i (by omega)) (getD_len hr.lu hr.du hi) (getD_len hr.lp hr.dp hi)
      (hr.step i hi)
    rw [hold_E hka (len (i + 1) hi), vecs_hold hn hk] at this
    exact this
  obtain ⟨dn', e1, e2, e3, e4⟩ := process_ok (m := constMachine n fix) nd (by simp [layout])
    (by simp [layout]) hw1 a3 (stop := nt) hst (by omega) (st 0) nt (by
      intro i hi
      rw [Nat.min_self] at hi
      rw [tr (i + 1) hi, ve i hi]
      exact fits hw _)
  rw [Nat.min_self] at e1 e4
  rw [tr nt (le_refl _)] at e1
  refine ⟨ds, dn', a1, e1, ?_⟩
  have key : ∀ i < nt, ∀ name ∈ (layout n).names, rowOf (layout n) dn' i name =
      (valueOf (written n (over fix (n.E (st (i + 1))))) name).getD (rowOf (layout n) ds i name) := by
    intro i hi name hm
    rw [e4 name hm i, if_pos hi, tr (i + 1) hi, ve i hi]
  refine ⟨e2.trans a2, e3.trans a3, ?_, ?_, ?_, ?_, ?_, ?_, ?_, ?_⟩
  · intro i hi; rw [key i hi _ (by simp [layout])]; rfl
  · intro i hi; rw [key i hi _ (by simp [layout])]; rfl
  · intro i hi; rw [key i hi _ (by simp [layout])]; rfl
  · intro i hi; rw [key i hi _ (by simp [layout]), get (a4 i hi)]; rfl
  · intro i hi; rw [key i hi _ (by simp [layout]), get (a5 i hi)]; rfl
  · intro i hi; rw [key i hi _ (by simp [layout])]; rfl
  · intro i hi; rw [key i hi _ (by simp [layout])]; rfl
  · intro i hi; rw [key i hi _ (by simp [layout])]; rfl

/-- The power that the constants of the inputs bring beyond the given inputs: `(c - u) y`. -/
def missing (fix : List (String × ℝ)) (us : List String) (u y : List ℝ) : ℝ :=
  (List.zipWith (· * ·) (List.zipWith (fun s v => ((fix.lookup s).map (· - v)).getD 0) us u) y).sum

theorem constIn_dot (fix : List (String × ℝ)) : ∀ (us : List String) (u y : List ℝ),
    u.length = us.length → (List.zipWith (· * ·) (constIn fix us u) y).sum =
      (List.zipWith (· * ·) u y).sum + missing fix us u y
  | [], [], y, _ => by simp [constIn, missing]
  | s :: us, v :: u, [], _ => by simp [constIn, missing]
  | s :: us, v :: u, b :: y, h => by
    have ih := constIn_dot fix us u y (by simpa using h)
    unfold constIn missing at ih ⊢
    simp only [List.zipWith_cons_cons, List.sum_cons, ih]
    cases fix.lookup s with
    | none => simp; ring
    | some c => simp; ring

/-- The reader of a scalar expression of the arguments, constant or not, without observers. -/
theorem const_expr {n : Num} (hn : n.WF) (ho : n.o = []) {ds : Ds ℝ} {nt : ℕ} (hr : ds.r = nt)
    (hc : ds.c = (layout n).dim) {ev : Eval ℝ} {f : Sc} (he : Evaluates n ev f) {w : Window} {t : TSel}
    {a b c : ℕ} (hs : Selects w t nt a b c) (hab : a < b) (hd : c ∣ b - a) :
    readExpr (layout n) w ds (.vector [] []) ev t =
      .ok (.rows ((samples a b c).map fun i => [f (n.env (rowsOf (layout n) ds i argNames))])) := by
  have hs' : Selects w t ds.r a b c := by rw [hr]; exact hs
  obtain @⟨inds, g, _, hi, hg⟩ := he
  by_cases hne : inds = []
  · subst hne
    obtain ⟨k, h1, h2⟩ := C35_constant hs' (.vector [] []) g (L := layout n)
    rw [h1, h2.2 hd]
    refine congrArg _ (congrArg _ ?_)
    rw [eq_comm, List.eq_replicate_iff]
    refine ⟨by simp, fun r hr => ?_⟩
    obtain ⟨i, hi', rfl⟩ := List.mem_map.1 hr
    have := hg (rowsOf (layout n) ds i argNames) (args_length hn ho ds i)
    simp only [List.map_nil] at this
    rw [this]
  · rw [C35_expression (names_nodup n) hc hs' hab (args_names n) [] hne 0
      (by
        intro k hk i
        have := args_length hn ho ds i
        simp only [fullRow, List.map_nil, List.append_nil]
        rw [this]; exact hi k hk) g, if_pos hd]
    refine congrArg _ (congrArg _ (List.map_congr_left fun i hi' => ?_))
    simp only [fullRow, List.map_nil, List.append_nil]
    rw [hg _ (args_length hn ho ds i)]

theorem mask_constIn (n : Num) (fix : List (String × ℝ)) {a : List ℝ} (h : a.length = n.all.length) :
    mask (slots n fix) a = constIn fix n.all a := by
  apply List.ext_getElem?
  intro i
  rw [mask_getElem?]
  unfold constIn
  rw [List.getElem?_zipWith]
  by_cases hi : i < a.length
  · rw [List.getElem?_eq_getElem hi, List.getElem?_eq_getElem (by omega)]
    simp only [Option.map_some, Option.bind_some, slots]
    rw [List.getElem?_eq_getElem (by omega)]
    rfl
  · rw [List.getElem?_eq_none (by omega), List.getElem?_eq_none (by omega)]
    rfl

theorem constIn_append (fix : List (String × ℝ)) {l l' : List String} {v : List ℝ} (v' : List ℝ)
    (h : v.length = l.length) : constIn fix (l ++ l') (v ++ v') = constIn fix l v ++ constIn fix l' v' :=
  List.zipWith_append h.symm

theorem constIn_map (fix : List (String × ℝ)) (l : List String) (e : Env ℝ) :
    constIn fix l (l.map (over fix e)) = l.map (over fix e) := by
  unfold constIn
  rw [List.zipWith_map_right]
  induction l with
  | nil => rfl
  | cons s l ih =>
    rw [List.zipWith_cons_cons, ih, List.map_cons]
    congr 1
    unfold over
    cases fix.lookup s <;> rfl

/-- C83. The power balance read in the data file of a simulation with constants: the sum of `dtE`, `pd` and
`ps` is not zero, it is the power of the constants, up to the tolerance of the solver. -/
theorem C83_balance {n : Num} (hn : n.WF) (hw : MethWF n.m) (hsp : SplitOK n.m) (ho : n.o = [])
    (heps : 0 ≤ n.eps) {fix : List (String × ℝ)} (hk : ∀ q ∈ fix, q.1 ∈ n.m.u ++ n.p) {nt : ℕ}
    {sequ seqp : List (List ℝ)} {st : ℕ → St Nm ℝ} (h : ConstRun n fix nt sequ seqp st) {w : Window}
    (hst : w.stop = nt) (hw1 : 1 ≤ w.step) {ev : Eval ℝ}
    (he : Evaluates n ev fun e => pdExpr n.m (over fix e)) :
    ∃ ds dn, initFile (layout n) nt sequ seqp = .ok ds ∧
      process (layout n) w (constMachine n fix) nt (st 0) ds = .ok (st nt, dn) ∧
      ∀ (w' : Window) (t : TSel) (a b c : ℕ), Selects w' t nt a b c → a < b → c ∣ b - a →
      ∃ D P S : ℕ → ℝ, readDtE (layout n) w' dn n.m.fs t = .ok ((samples a b c).map D) ∧
        readExpr (layout n) w' dn (.vector [] []) ev t =
          .ok (.rows ((samples a b c).map fun i => [P i])) ∧
        readPs (layout n) w' dn t = .ok ((samples a b c).map S) ∧
        ∀ i ∈ samples a b c, Converged n (st (i + 1)) →
          |D i + P i + S i + missing fix n.m.u (sequ.getD i []) (n.m.out (over fix (n.E (st (i + 1)))))| ≤
            slack n (over fix (n.E (st (i + 1)))) := by
  have hr := C83_run hn hk h
  have hka : ∀ q ∈ fix, q.1 ∈ n.all := by
    intro q hq
    have := hk q hq
    unfold Num.all
    simp only [List.mem_append] at this ⊢
    tauto
  obtain ⟨ds, dn', h1, h2, h3⟩ := C83_file hn hw hsp hk h hst hw1
  refine ⟨ds, dn', h1, h2, fun w' t a b c hs hab hd => ?_⟩
  have hs' : Selects w' t dn'.r a b c := by rw [h3.r]; exact hs
  obtain ⟨q1, q2⟩ := C35_powers (names_nodup n) h3.c hs' (by simp [layout]) n.m.fs
  refine ⟨_, _, _, q2, const_expr hn ho h3.r h3.c he hs hab hd, q1, fun i hi hcv => ?_⟩
  have hlt : i < nt := lt_of_lt_of_le (mem_samples.1 hi).1 hs.bn
  have hE := hold_E hka (h.facts (i + 1) hlt)
  obtain ⟨pd, e1, e2⟩ := C59_balance hn hw hsp (hr.facts hn i (by omega)) (hr.step i hlt) heps hcv
  rw [hE] at e1 e2
  -- the inputs are the constants
  have hu : n.m.u.map (over fix (n.E (st (i + 1)))) = constIn fix n.m.u (sequ.getD i []) := by
    have := (C24_step hn (hr.facts hn i (by omega)) (getD_len hr.lu hr.du hlt) (getD_len hr.lp hr.dp hlt)
      (hr.step i hlt)).2.2.1
    rwa [hE, getD_map_const] at this
  have hp : n.p.map (over fix (n.E (st (i + 1)))) = constIn fix n.p (seqp.getD i []) := by
    have := (C24_step hn (hr.facts hn i (by omega)) (getD_len hr.lu hr.du hlt) (getD_len hr.lp hr.dp hlt)
      (hr.step i hlt)).2.2.2
    rwa [hE, getD_map_const] at this
  -- the expression reads the arguments of the file
  have henv : over fix (n.env (rowsOf (layout n) dn' i argNames)) = over fix (n.E (st (i + 1))) := by
    have hrow : rowsOf (layout n) dn' i argNames = n.m.g.x.map (over fix (n.E (st (i + 1)))) ++
        (n.m.g.x.map (fun s => over fix (n.E (st (i + 1))) (dn s)) ++
        (n.m.w.map (over fix (n.E (st (i + 1)))) ++ (sequ.getD i [] ++ seqp.getD i []))) := by
      unfold rowsOf argNames
      simp only [List.map_cons, List.map_nil, List.flatten_cons, List.flatten_nil, List.append_nil]
      rw [h3.x i hlt, h3.dx i hlt, h3.w i hlt, h3.u i hlt, h3.p i hlt]
    have hlen := args_length hn ho dn' i
    rw [← env_mask n fix hka hlen, ← hE]
    show n.env _ = n.env _
    congr 1
    have hal : (hold n fix (st (i + 1))).args.length = n.all.length := hr.facts hn (i + 1) hlt
    have hall : n.all = n.m.g.x ++ (n.m.g.x.map dn ++ (n.m.w ++ (n.m.u ++ n.p))) := by
      simp [Num.all, ho]
    rw [args_eq hn.nodup hal (base := n.base), mask_constIn n fix hlen]
    show _ = n.all.map (n.E (hold n fix (st (i + 1))))
    rw [hE, hrow, hall, constIn_append _ _ (by simp), constIn_append _ _ (by simp),
      constIn_append _ _ (by simp), constIn_append _ _ (getD_len h.lu h.du hlt), ← hu, ← hp,
      constIn_map, constIn_map]
    simp only [List.map_append]
    congr 2
    have := constIn_map fix (n.m.g.x.map dn) (n.E (st (i + 1)))
    rw [List.map_map] at this ⊢
    exact this
  have hP : pdExpr n.m (over fix (n.E (st (i + 1)))) = pd := by unfold pdExpr; rw [e1]; rfl
  have hS : n.m.psVal (over fix (n.E (st (i + 1)))) =
      (List.zipWith (· * ·) (sequ.getD i []) (n.m.out (over fix (n.E (st (i + 1)))))).sum +
      missing fix n.m.u (sequ.getD i []) (n.m.out (over fix (n.E (st (i + 1))))) := by
    rw [← constIn_dot fix _ _ _ (getD_len h.lu h.du hlt), ← hu]
    rfl
  rw [henv, hP, h3.dxH i hlt, h3.dx i hlt, zip_gdot, h3.u i hlt, h3.y i hlt]
  rw [hS] at e2
  rw [mul_comm, add_assoc]
  exact e2

end Record
end Pyphs
