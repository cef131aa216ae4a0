/-
Property C65: the power balance and the energy read in the data file of a simulation.
-/
import Verif.Record.Props
import Mathlib.Algebra.Field.Rat

namespace Pyphs
namespace Record
open Scheme Numeric H5 Finset

/-! ### Expressions of the arguments -/

/-- The evaluation object of a scalar expression `f` (C25): positions in the list of arguments, and
a function of the values found there. -/
inductive Evaluates (n : Num) : Eval ℝ → Sc → Prop
  | intro {inds : List ℕ} {g : List ℝ → ℝ} {f : Sc} (hi : ∀ k ∈ inds, k < n.all.length)
      (hg : ∀ a : List ℝ, a.length = n.all.length →
        g (inds.map fun k => a.getD k 0) = f (n.env a)) : Evaluates n (.scalar inds g) f

theorem row_length {n : Num} {ds : Ds ℝ} {name : String} (hm : name ∈ (layout n).names) (i : ℕ) :
    (rowOf (layout n) ds i name).length = (layout n).dimOf name := by
  obtain ⟨a, h1, -⟩ := (layout n).inds_mem (names_nodup n) hm
  unfold rowOf
  rw [(layout n).seg_eq h1, List.length_map, seg_length]

theorem args_names (n : Num) : ∀ m ∈ argNames, m ∈ (layout n).names := by
  simp [argNames, layout]

theorem args_length {n : Num} (hn : n.WF) (ho : n.o = []) (ds : Ds ℝ) (i : ℕ) :
    (rowsOf (layout n) ds i argNames).length = n.all.length := by
  have h := fun name hm => row_length (n := n) (ds := ds) (name := name) hm i
  unfold rowsOf argNames
  simp only [List.map_cons, List.map_nil, List.flatten_cons, List.flatten_nil, List.length_append,
    List.length_nil]
  rw [h "x" (by simp [layout]), h "dx" (by simp [layout]), h "w" (by simp [layout]),
    h "u" (by simp [layout]), h "p" (by simp [layout])]
  simp [layout, Num.all, ho, hn.uy]

theorem args_row {n : Num} (ho : n.o = []) {ds : Ds ℝ} {X : ℕ → Env ℝ} {nt : ℕ}
    (h : Recorded n ds X nt) {i : ℕ} (hi : i < nt) :
    rowsOf (layout n) ds i argNames = n.all.map (X i) := by
  unfold rowsOf argNames
  simp only [List.map_cons, List.map_nil, List.flatten_cons, List.flatten_nil, List.append_nil]
  rw [h.x i hi, h.dx i hi, h.w i hi, h.u i hi, h.p i hi]
  simp [Num.all, ho]

theorem env_args {n : Num} (hn : n.WF) {ds : Ds ℝ} {X : ℕ → Env ℝ} {nt : ℕ}
    (h : Recorded n ds X nt) (i : ℕ) : n.env (n.all.map (X i)) = X i := by
  funext s
  unfold Num.env
  by_cases hs : s ∈ n.all
  · rw [envOf_mem hs (by simp)]
    obtain ⟨k, hk, rfl⟩ := List.getElem_of_mem hs
    rw [hn.nodup.idxOf_getElem k hk, List.getD_eq_getElem?_getD]
    simp [hk]
  · rw [envOf_not_mem hs, h.other i s hs]

/-- The reader of a scalar expression, constant or not, without observers. -/
theorem expr_ok {n : Num} (hn : n.WF) (ho : n.o = []) {ds : Ds ℝ} {X : ℕ → Env ℝ} {nt : ℕ}
    (h : Recorded n ds X nt) {ev : Eval ℝ} {f : Sc} (he : Evaluates n ev f) {w : Window} {t : TSel}
    {a b c : ℕ} (hs : Selects w t nt a b c) (hab : a < b) (hd : c ∣ b - a) :
    readExpr (layout n) w ds (.vector [] []) ev t =
      .ok (.rows ((samples a b c).map fun i => [f (X i)])) := by
  have hs' : Selects w t ds.r a b c := by rw [h.r]; exact hs
  have hlt : ∀ i ∈ samples a b c, i < nt := fun i hi =>
    lt_of_lt_of_le (mem_samples.1 hi).1 hs.bn
  obtain @⟨inds, g, _, hi, hg⟩ := he
  by_cases hne : inds = []
  · subst hne
    obtain ⟨k, h1, h2⟩ := C35_constant hs' (.vector [] []) g (L := layout n)
    rw [h1, h2.2 hd]
    refine congrArg _ (congrArg _ ?_)
    rw [eq_comm, List.eq_replicate_iff]
    refine ⟨by simp, fun r hr => ?_⟩
    obtain ⟨i, hi', rfl⟩ := List.mem_map.1 hr
    have := hg (n.all.map (X i)) (by simp)
    rw [env_args hn h] at this
    simp only [List.map_nil] at this
    rw [this]
  · rw [C35_expression (names_nodup n) h.c hs' hab (args_names n) [] hne 0
      (by
        intro k hk i
        have := args_length hn ho ds i
        simp only [fullRow, List.map_nil, List.append_nil]
        rw [this]; exact hi k hk) g, if_pos hd]
    refine congrArg _ (congrArg _ (List.map_congr_left fun i hi' => ?_))
    simp only [fullRow, List.map_nil, List.append_nil]
    rw [args_row ho h (hlt i hi'), hg _ (by simp), env_args hn h]

/-! ### The power balance -/

/-- The dissipated power as an expression. -/
noncomputable def pdExpr (m : Meth) : Sc := fun e => (m.pdVal e).getD 0

theorem zip_gdot (gs : List Sc) (xs : List String) (e : Env ℝ) :
    (List.zipWith (· * ·) (gs.map fun f => f e) (xs.map fun s => e (dn s))).sum = gdot gs xs e := by
  unfold gdot
  induction gs generalizing xs with
  | nil => simp
  | cons g gs ih =>
    cases xs with
    | nil => simp
    | cons x xs =>
      simp only [List.map_cons, List.zipWith_cons_cons, List.zip_cons_cons, List.sum_cons, ih]

/-- The powers read in the file, at the selected samples. -/
theorem powers_ok {n : Num} (hn : n.WF) (ho : n.o = []) {ds : Ds ℝ} {X : ℕ → Env ℝ} {nt : ℕ}
    (h : Recorded n ds X nt) {ev : Eval ℝ} (he : Evaluates n ev (pdExpr n.m)) {w : Window} {t : TSel}
    {a b c : ℕ} (hs : Selects w t nt a b c) (hab : a < b) (hd : c ∣ b - a) :
    readDtE (layout n) w ds n.m.fs t =
      .ok ((samples a b c).map fun i => n.m.fs * gdot n.m.dxH n.m.g.x (X i)) ∧
    readExpr (layout n) w ds (.vector [] []) ev t =
      .ok (.rows ((samples a b c).map fun i => [pdExpr n.m (X i)])) ∧
    readPs (layout n) w ds t = .ok ((samples a b c).map fun i => n.m.psVal (X i)) := by
  have hs' : Selects w t ds.r a b c := by rw [h.r]; exact hs
  have hlt : ∀ i ∈ samples a b c, i < nt := fun i hi =>
    lt_of_lt_of_le (mem_samples.1 hi).1 hs.bn
  obtain ⟨h1, h2⟩ := C35_powers (names_nodup n) h.c hs' (by simp [layout]) n.m.fs
  refine ⟨?_, expr_ok hn ho h he hs hab hd, ?_⟩
  · rw [h2]
    refine congrArg _ (List.map_congr_left fun i hi => ?_)
    rw [h.dxH i (hlt i hi), h.dx i (hlt i hi), zip_gdot, mul_comm]
  · rw [h1]
    refine congrArg _ (List.map_congr_left fun i hi => ?_)
    rw [h.u i (hlt i hi), h.y i (hlt i hi)]
    rfl

/-- The tolerance on the power balance of a step: tolerance of the solver (zero if there is nothing to
iterate), times the efforts and flows of the step. -/
noncomputable def slack (n : Num) (e : Env ℝ) : ℝ :=
  n.tol * (∑ i ∈ range n.m.g.x.length, |vals n.m.dxH e i| +
    ∑ i ∈ range n.m.w.length, |vals n.m.z e i|)

/-- The solver of an update stopped since the residual is small (or there is nothing to iterate). -/
def Converged (n : Num) (st : St Nm ℝ) : Prop :=
  n.nl = 0 ∨ ∃ r, st.vals .res_Fnl = some (.s r) ∧ r ≤ n.eps

/-- C65. The power balance read in the data file of a simulation. For every selection of samples whose
step divides its length, the readers `dtE`, `pd` and `ps` return one value per selected sample, and the sum
of the three values is zero up to the tolerance of the solver, at each sample at which the solver
converged. -/
theorem C65_balance {n : Num} (hn : n.WF) (hw : MethWF n.m) (hsp : SplitOK n.m) (ho : n.o = [])
    (heps : 0 ≤ n.eps) {nt : ℕ} {sequ seqp : List (List ℝ)} {st : ℕ → St Nm ℝ}
    (h : Run n nt sequ seqp st) {w : Window} (hst : w.stop = nt) (hw1 : 1 ≤ w.step) {ev : Eval ℝ}
    (he : Evaluates n ev (pdExpr n.m)) :
    ∃ ds dn, initFile (layout n) nt sequ seqp = .ok ds ∧
      process (layout n) w (machine n) nt (st 0) ds = .ok (st nt, dn) ∧
      ∀ (w' : Window) (t : TSel) (a b c : ℕ), Selects w' t nt a b c → a < b → c ∣ b - a →
      ∃ D P S : ℕ → ℝ, readDtE (layout n) w' dn n.m.fs t = .ok ((samples a b c).map D) ∧
        readExpr (layout n) w' dn (.vector [] []) ev t =
          .ok (.rows ((samples a b c).map fun i => [P i])) ∧
        readPs (layout n) w' dn t = .ok ((samples a b c).map S) ∧
        ∀ i ∈ samples a b c, Converged n (st (i + 1)) →
          |D i + P i + S i| ≤ slack n (n.E (st (i + 1))) := by
  obtain ⟨ds, dn', h1, h2, h3⟩ := C65_file hn hw hsp h hst hw1
  refine ⟨ds, dn', h1, h2, fun w' t a b c hs hab hd => ?_⟩
  obtain ⟨p1, p2, p3⟩ := powers_ok hn ho h3 he hs hab hd
  refine ⟨_, _, _, p1, p2, p3, fun i hi hcv => ?_⟩
  have hlt : i < nt := lt_of_lt_of_le (mem_samples.1 hi).1 hs.bn
  obtain ⟨pd, e1, e2⟩ := C59_balance hn hw hsp (h.facts hn i (by omega)) (h.step i hlt) heps hcv
  have : pdExpr n.m (n.E (st (i + 1))) = pd := by unfold pdExpr; rw [e1]; rfl
  show |n.m.fs * gdot n.m.dxH n.m.g.x (n.E (st (i + 1))) + pdExpr n.m (n.E (st (i + 1))) +
    n.m.psVal (n.E (st (i + 1)))| ≤ _
  rw [this]
  exact e2

/-! ### The variation of the energy -/

theorem diff_range (g : ℕ → ℝ) (K : ℕ) :
    List.zipWith (fun a b => b - a) ((List.range (K + 1)).map g) ((List.range (K + 1)).map g).tail =
      (List.range K).map fun k => g (k + 1) - g k := by
  apply List.ext_getElem
  · simp
  · intro i h1 h2
    simp

/-- What the option `'deltaH'` of `dtE` returns: for every selected sample but the last one, the
increase of the energy until the next selected sample, divided by the time in between; and for the last
one, the power `dxH.dtx` of the last sample before the end of the selection, divided by the step. -/
theorem deltaH_ok {n : Num} (hn : n.WF) (ho : n.o = []) {ds : Ds ℝ} {X : ℕ → Env ℝ} {nt : ℕ}
    (h : Recorded n ds X nt) {ev : Eval ℝ} (he : Evaluates n ev n.m.H) (hfs : n.m.fs ≠ 0)
    {w : Window} (hw1 : 1 ≤ w.step) {t : TSel}
    {a b c : ℕ} (hs : Selects w t nt a b c) (hab : a < b) (hd : c ∣ b - a) :
    readDeltaH (layout n) w ds (.vector [] []) ev n.m.fs t =
      .ok ((samples a b c).map fun i =>
        if i + c < b then (n.m.H (X (i + c)) - n.m.H (X i)) / (c / n.m.fs)
        else n.m.fs * gdot n.m.dxH n.m.g.x (X (b - 1)) / c) := by
  have hc1 := hs.c1
  have hb : b - 1 < nt := by have := hs.bn; omega
  unfold readDeltaH
  rw [hs.eq]
  simp only
  rw [show ((b : ℤ) - 1) = ((b - 1 : ℕ) : ℤ) by omega,
    read_idx (names_nodup n) (by simp [layout]) h.c (by rw [h.r]; exact hb) hw1]
  show (read (layout n) w ds "dx" (.idx ((b - 1 : ℕ) : ℤ)) .none).bind _ = _
  rw [read_idx (names_nodup n) (by simp [layout]) h.c (by rw [h.r]; exact hb) hw1]
  show (readExpr (layout n) w ds (.vector [] []) ev (full w t)).bind _ = _
  rw [expr_ok hn ho h he hs.full hab hd]
  show Except.ok _ = _
  refine congrArg _ ?_
  obtain ⟨K, hK⟩ := hd
  have hKpos : 0 < K := by
    rcases Nat.eq_zero_or_pos K with h0 | h0
    · subst h0; omega
    · exact h0
  obtain ⟨K, rfl⟩ : ∃ K', K = K' + 1 := ⟨K - 1, by omega⟩
  have hsam : samples a b c = (List.range (K + 1)).map fun k => a + k * c := by
    rw [← samples_eq hc1, hK]
    congr 2
    rw [Nat.add_sub_assoc hc1, Nat.mul_add_div (by omega), Nat.div_eq_of_lt (by omega), Nat.add_zero]
  have hcr : (c : ℝ) ≠ 0 := by exact_mod_cast (by omega : c ≠ 0)
  rw [hsam, List.map_map, List.map_map]
  have hflat : ∀ l : List ℕ, (l.map ((fun i => [n.m.H (X i)]) ∘ fun k => a + k * c)).flatten =
      l.map fun k => n.m.H (X (a + k * c)) := by
    intro l
    induction l with
    | nil => rfl
    | cons k l ih => simp [ih]
  rw [hflat]
  unfold ediff1d
  rw [diff_range, List.range_succ, List.map_append, List.map_append, List.map_map]
  congr 1
  · refine List.map_congr_left fun k hk => ?_
    have hk' := List.mem_range.1 hk
    have hlt : a + k * c + c < b := by
      have : (k + 1) * c < (K + 1) * c := Nat.mul_lt_mul_of_pos_right (by omega) (by omega)
      rw [mul_comm (K + 1) c] at this
      have e : (k + 1) * c = k * c + c := by ring
      omega
    simp only [Function.comp]
    rw [if_pos hlt, show a + (k + 1) * c = a + k * c + c by ring]
    push_cast
    field_simp
  · simp only [Function.comp, List.map_cons, List.map_nil]
    have hge : ¬ a + K * c + c < b := by
      have e : c * (K + 1) = K * c + c := by ring
      omega
    rw [if_neg hge]
    simp only [rowDots, List.zipWith_cons_cons, List.zipWith_nil_left, List.map_cons, List.map_nil]
    rw [h.dxH _ hb, h.dx _ hb]
    have : ∀ (gs : List Sc) (xs : List String) (e : Env ℝ),
        (List.zipWith (· * ·) (gs.map fun f => f e)
          ((xs.map fun s => e (dn s)).map (· * n.m.fs))).foldr (· + ·) 0 =
        n.m.fs * gdot gs xs e := by
      intro gs xs e
      unfold gdot
      induction gs generalizing xs with
      | nil => simp
      | cons g gs ih =>
        cases xs with
        | nil => simp
        | cons x xs =>
          simp only [List.map_cons, List.zipWith_cons_cons, List.zip_cons_cons, List.sum_cons,
            List.foldr_cons, ih]
          ring
    rw [this]
    push_cast
    field_simp

/-- The energy reads the states, the parameters, and symbols with a fixed value. -/
def EnergyReads (n : Num) : Prop := ∀ e e' : Env ℝ, (∀ s ∈ n.m.g.x, e s = e' s) →
  (∀ s ∈ n.p, e s = e' s) → (∀ s, s ∉ n.all → e s = e' s) → n.m.H e = n.m.H e'

theorem x_apart {n : Num} (hn : n.WF) {s : String} (hs : s ∈ n.p) : s ∉ n.m.g.x := by
  have := hn.nodup
  unfold Num.all at this
  intro hx
  have h1 := (List.nodup_append.1 (List.nodup_append.1 this).1).2.2 s (by simp [hx]) s hs
  exact h1 rfl

theorem energy_move {n : Num} (hn : n.WF) (hE : EnergyReads n) {nt : ℕ}
    {sequ seqp : List (List ℝ)} {st : ℕ → St Nm ℝ} (h : Run n nt sequ seqp st)
    (hp : ∀ i, i + 1 < nt → seqp.getD (i + 1) [] = seqp.getD i []) {i : ℕ} (hi : i + 1 < nt) :
    n.m.H (n.E (st (i + 1 + 1))) = n.m.H (next (n.E (st (i + 1))) n.m.g.x) := by
  have f := fun i hi => C24_step hn (h.facts hn i (by omega)) (getD_len h.lu h.du hi)
    (getD_len h.lp h.dp hi) (h.step i hi)
  obtain ⟨-, a2, -, a4⟩ := f (i + 1) hi
  obtain ⟨-, -, -, b4⟩ := f i (by omega)
  refine hE _ _ (fun s hs => ?_) (fun s hs => ?_) fun s hs => ?_
  · rw [a2 s hs]; simp [Scheme.next, hs]
  · rw [hp i hi, ← b4] at a4
    have := List.map_inj_left.1 a4 s hs
    simp [Scheme.next, x_apart hn hs, this]
  · have hx : s ∉ n.m.g.x := fun hx => hs ((sub_x n).subset hx)
    simp only [Scheme.next, hx, if_false]
    unfold Num.E Num.env
    rw [envOf_not_mem hs, envOf_not_mem hs]

/-- The gradient stored for a step is exact: it gives the increase of the energy. -/
def ExactStep (n : Num) (e : Env ℝ) : Prop :=
  gdot n.m.dxH n.m.g.x e = n.m.H (next e n.m.g.x) - n.m.H e

/-- C65. The two options of `dtE`: with parameters that do not change and a step of one sample, the
option `'deltaH'` is the increase of the energy over the sampling period for every sample but the last
one; and if the gradient is exact at the selected samples, it is equal to the option `'DxhDtx'` at all of
them. -/
theorem C65_deltaH {n : Num} (hn : n.WF) (hw : MethWF n.m) (hsp : SplitOK n.m) (ho : n.o = [])
    (hE : EnergyReads n) (hfs : n.m.fs ≠ 0) {nt : ℕ} {sequ seqp : List (List ℝ)}
    {st : ℕ → St Nm ℝ} (h : Run n nt sequ seqp st)
    (hp : ∀ i, i + 1 < nt → seqp.getD (i + 1) [] = seqp.getD i []) {w : Window} (hst : w.stop = nt)
    (hw1 : 1 ≤ w.step) {ev : Eval ℝ} (he : Evaluates n ev n.m.H) :
    ∃ ds dn, initFile (layout n) nt sequ seqp = .ok ds ∧
      process (layout n) w (machine n) nt (st 0) ds = .ok (st nt, dn) ∧
      ∀ (w' : Window) (t : TSel) (a b : ℕ), 1 ≤ w'.step → Selects w' t nt a b 1 → a < b →
      ∃ D En : ℕ → ℝ, readDeltaH (layout n) w' dn (.vector [] []) ev n.m.fs t = .ok ((samples a b 1).map D) ∧
        readExpr (layout n) w' dn (.vector [] []) ev t =
          .ok (.rows ((samples a b 1).map fun i => [En i])) ∧
        (∀ i, a ≤ i → i + 1 < b → D i = (En (i + 1) - En i) * n.m.fs) ∧
        ((∀ i, a ≤ i → i < b → ExactStep n (n.E (st (i + 1)))) →
          readDtE (layout n) w' dn n.m.fs t = .ok ((samples a b 1).map D)) := by
  obtain ⟨ds, dn', h1, h2, h3⟩ := C65_file hn hw hsp h hst hw1
  refine ⟨ds, dn', h1, h2, fun w' t a b hw1' hs hab => ?_⟩
  have e1 := deltaH_ok hn ho h3 he hfs hw1' hs hab (one_dvd _)
  have e2 := expr_ok hn ho h3 he hs hab (one_dvd _)
  refine ⟨_, _, e1, e2, fun i _ hi => ?_, fun hex => ?_⟩
  · simp only [if_pos hi]
    push_cast
    field_simp
  · have hs' : Selects w' t dn'.r a b 1 := by rw [h3.r]; exact hs
    rw [(C35_powers (names_nodup n) h3.c hs' (by simp [layout]) n.m.fs).2]
    refine congrArg _ (List.map_congr_left fun i hi => ?_)
    obtain ⟨i1, i2, -⟩ := mem_samples.1 hi
    have hlt : i < nt := lt_of_lt_of_le i1 hs.bn
    rw [h3.dxH i hlt, h3.dx i hlt, zip_gdot]
    split_ifs with hib
    · rw [hex i i2 i1, energy_move hn hE h hp (by have := hs.bn; omega)]
      push_cast
      field_simp
    · rw [show b - 1 = i by omega]
      push_cast
      ring

/-- C65. The energies read in the file of a simulation with exact gradients, converged steps, passive
laws and a passive structure: the energy at a sample is at most the energy at an earlier sample plus the
energy received by the ports in between (opposite of the sum of the values of `ps`, divided by the
sample rate), up to the tolerance of the solver. -/
theorem C65_passive {n : Num} (hn : n.WF) (hw : MethWF n.m) (hsp : SplitOK n.m) (ho : n.o = [])
    (heps : 0 ≤ n.eps) (hE : EnergyReads n) (hfs : 0 < n.m.fs) {nt : ℕ}
    {sequ seqp : List (List ℝ)} {st : ℕ → St Nm ℝ} (h : Run n nt sequ seqp st)
    (hp : ∀ i, i + 1 < nt → seqp.getD (i + 1) [] = seqp.getD i []) {w : Window} (hst : w.stop = nt)
    (hw1 : 1 ≤ w.step) {ev : Eval ℝ} (he : Evaluates n ev n.m.H)
    (hcv : ∀ i < nt, Converged n (st (i + 1)))
    (hex : ∀ i < nt, ExactStep n (n.E (st (i + 1))))
    (hM : ∀ i < nt, (n.m.M (n.E (st (i + 1)))).Passive)
    (hz : ∀ i < nt, 0 ≤ Core.ldot (n.m.w.map (n.E (st (i + 1)))) (evs n.m.z (n.E (st (i + 1))))) :
    ∃ ds dn, initFile (layout n) nt sequ seqp = .ok ds ∧
      process (layout n) w (machine n) nt (st 0) ds = .ok (st nt, dn) ∧
      ∀ (w' : Window) (t : TSel) (a b : ℕ), Selects w' t nt a b 1 → a < b →
      ∃ En S : ℕ → ℝ, readExpr (layout n) w' dn (.vector [] []) ev t =
          .ok (.rows ((samples a b 1).map fun i => [En i])) ∧
        readPs (layout n) w' dn t = .ok ((samples a b 1).map S) ∧
        ∀ k N, a ≤ k → k + N < b →
          En (k + N) ≤ En k + (∑ i ∈ range N,
            (slack n (n.E (st (k + i + 1))) - S (k + i))) / n.m.fs := by
  obtain ⟨ds, dn', h1, h2, h3⟩ := C65_file hn hw hsp h hst hw1
  refine ⟨ds, dn', h1, h2, fun w' t a b hs hab => ?_⟩
  have e2 := expr_ok hn ho h3 he hs hab (one_dvd _)
  have hs' : Selects w' t dn'.r a b 1 := by rw [h3.r]; exact hs
  refine ⟨_, fun i => n.m.psVal (n.E (st (i + 1))), e2, ?_, fun k N hak => ?_⟩
  · rw [(C35_powers (names_nodup n) h3.c hs' (by simp [layout]) n.m.fs).1]
    refine congrArg _ (List.map_congr_left fun i hi => ?_)
    have hlt : i < nt := lt_of_lt_of_le (mem_samples.1 hi).1 hs.bn
    rw [h3.u i hlt, h3.y i hlt]
    rfl
  have hbn := hs.bn
  induction N with
  | zero => intro _; simp
  | succ N ih =>
    intro hlt
    have i1 := ih (by omega)
    have hi : k + N < nt := by omega
    rw [sum_range_succ, add_div]
    obtain ⟨pd, q1, q2⟩ := C59_balance hn hw hsp (h.facts hn (k + N) (by omega)) (h.step _ hi) heps
      (hcv _ hi)
    have q3 := Core.C19_dissipated_nonneg _ (hM _ hi) _ _ _ _ pd q1 (hz _ hi)
    have q4 := hex _ hi
    unfold ExactStep at q4
    rw [q4, ← energy_move hn hE h hp (by omega)] at q2
    have q5 := (abs_le.1 q2).2
    have : n.m.H (n.E (st (k + N + 1 + 1))) - n.m.H (n.E (st (k + N + 1))) ≤
        (slack n (n.E (st (k + N + 1))) - n.m.psVal (n.E (st (k + N + 1)))) / n.m.fs := by
      rw [le_div_iff₀ hfs]
      unfold slack
      linarith
    show n.m.H (n.E (st (k + N + 1 + 1))) ≤ _
    linarith

/-- The last value of the option `'deltaH'` is divided by the step: the file of four samples of a
system whose energy is the state and grows by one at each sample, read with a step of two samples at
1 Hz. The option `'DxhDtx'` returns `[1, 1]`. -/
def rampL : Layout where
  names := ["u", "p", "x", "dx", "dxH", "w", "z", "y"]
  dimOf := fun s => if s = "x" ∨ s = "dx" ∨ s = "dxH" then 1 else 0

def ramp : Ds ℚ := ⟨4, 3, fun i j => if j = 0 then i else 1⟩

theorem C65_step_counterexample :
    readDtE rampL ⟨0, 4, 1⟩ ramp 1 (.slice (some 0) (some 4) (some 2)) = .ok [1, 1] ∧
    readDeltaH rampL ⟨0, 4, 1⟩ ramp (.vector [] []) (.scalar [0] fun a => a.getD 0 0) 1
      (.slice (some 0) (some 4) (some 2)) = .ok [1, 1 / 2] := by
  decide +kernel

end Record
end Pyphs
