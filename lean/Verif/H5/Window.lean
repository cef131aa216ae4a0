import Verif.H5.Slice
import Mathlib.Data.Rat.Floor
import Mathlib.Tactic.FieldSimp
import Mathlib.Tactic.Linarith
import Mathlib.Tactic.Positivity

/-!
# C36: the options of the reader

Model of the properties `start`, `stop` (h5data.py:103-143), `tstart`, `tstop` (148-244) and `step`
(249-261), and of the assignment of `nt` by `init_data` (332). Times are exact rational
numbers (`int(t*fs)` in floating point may differ by one sample).
-/

namespace Pyphs
namespace H5

/-- Python values given to the setters. `npint` is an integer of numpy, which compares with integers
and is not an instance of `int` or `float`; `inf` has a sign; `bad` does not compare with numbers. -/
inductive Val
  | none
  | int (n : ℤ)
  | flt (q : ℚ)
  | nan
  | inf (pos : Bool)
  | npint (n : ℤ)
  | bad

/-- Exceptions of the setters. -/
inductive WErr
  | value | type | overflow
  deriving DecidableEq

/-- `config['load']` with `config['nt']` and `config['fs']`. -/
structure Load where
  start : Option ℤ
  stop : Option ℤ
  step : ℤ
  nt : ℤ
  fs : ℚ
  deriving DecidableEq

/-- h5data.py:103-108 -/
def Load.getStart (s : Load) : ℤ := s.start.getD 0

/-- h5data.py:123-128 -/
def Load.getStop (s : Load) : ℤ := s.stop.getD s.nt

/-- h5data.py:177-204, `m='min'` -/
def Load.tstart (s : Load) : ℚ := s.getStart / s.fs

/-- h5data.py:177-204, `m='max'` -/
def Load.tstop (s : Load) : ℚ := (s.getStop - 1) / s.fs

/-- `int(q)` -/
def trunc (q : ℚ) : ℤ := if 0 ≤ q then ⌊q⌋ else ⌈q⌉

/-- A comparison `lo <= v` (or `<`) `... hi` of a value with numbers: its truth, or a TypeError. -/
def between (p : ℚ → Bool) (infs : Bool → Bool) : Val → Except WErr Bool
  | .int n => .ok (p n)
  | .npint n => .ok (p n)
  | .flt q => .ok (p q)
  | .nan => .ok false
  | .inf b => .ok (infs b)
  | .none => .error .type
  | .bad => .error .type

/-- `isinstance(v, (int, float))` -/
def Val.isNum : Val → Bool
  | .int _ => true
  | .flt _ => true
  | .nan => true
  | .inf _ => true
  | _ => false

/-- `int(v)` -/
def Val.toInt : Val → Except WErr ℤ
  | .int n => .ok n
  | .npint n => .ok n
  | .flt q => .ok (trunc q)
  | .nan => .error .value
  | .inf _ => .error .overflow
  | _ => .error .type

/-- `int(t*fs)`, h5data.py:148-175 -/
def Load.index (s : Load) : Val → Except WErr ℤ
  | .int n => .ok (trunc (n * s.fs))
  | .npint n => .ok (trunc (n * s.fs))
  | .flt q => .ok (trunc (q * s.fs))
  | .nan => .error .value
  | .inf _ => .error .overflow
  | _ => .error .type

/-- An accepted value: in the range, an instance of a number. -/
def check (v : Val) (p : ℚ → Bool) (infs : Bool → Bool) : Except WErr Unit := do
  let b ← between p infs v
  if !b then .error .value
  else if !v.isNum then .error .value
  else .ok ()

/-- A setter returns its exception and the state it leaves. -/
abbrev Res := Load × Option WErr

/-- End of a setter. -/
def finish (s : Load) (r : Except WErr Load) : Res :=
  match r with
  | .ok s' => (s', none)
  | .error e => (s, some e)

/-- h5data.py:110-119 -/
def Load.setStart (s : Load) (v : Val) : Res :=
  match v with
  | .none => ({ s with start := none }, none)
  | v => finish s do
    check v (fun q => decide (0 ≤ q ∧ q < s.getStop)) fun _ => false
    let i ← v.toInt
    .ok { s with start := some i }

/-- h5data.py:130-139 -/
def Load.setStop (s : Load) (v : Val) : Res :=
  match v with
  | .none => ({ s with stop := none }, none)
  | v => finish s do
    check v (fun q => decide ((s.getStart : ℚ) < q ∧ q ≤ s.nt)) fun _ => false
    let i ← v.toInt
    .ok { s with stop := some i }

/-- h5data.py:209-221: after `tstart = None` the conversion of None raises. -/
def Load.setTstart (s : Load) (v : Val) : Res :=
  match v with
  | .none => ({ s with start := none }, some .type)
  | v =>
    match (do
      check v (fun q => decide (0 ≤ q ∧ q ≤ s.tstop)) fun _ => false
      s.index v : Except WErr ℤ) with
    | .ok i => s.setStart (.int i)
    | .error e => (s, some e)

/-- h5data.py:229-241 -/
def Load.setTstop (s : Load) (v : Val) : Res :=
  match v with
  | .none => s.setStop .none
  | v =>
    match (do
      check v (fun q => decide (s.tstart ≤ q ∧ q ≤ ((s.nt : ℚ) - 1) / s.fs)) fun _ => false
      s.index v : Except WErr ℤ) with
    | .ok i => s.setStop (.int (i + 1))
    | .error e => (s, some e)

/-- h5data.py:252-259 -/
def Load.setStep (s : Load) (v : Val) : Res :=
  match v with
  | .none => ({ s with step := 1 }, none)
  | v => finish s do
    check v (fun q => decide (1 ≤ q)) fun b => b
    let i ← v.toInt
    .ok { s with step := i }

/-- Operations on the options; `init` is `init_data(nt)`. -/
inductive WOp
  | start (v : Val)
  | stop (v : Val)
  | tstart (v : Val)
  | tstop (v : Val)
  | step (v : Val)
  | init (nt : ℕ)

/-- One operation. -/
def Load.op (s : Load) : WOp → Res
  | .start v => s.setStart v
  | .stop v => s.setStop v
  | .tstart v => s.setTstart v
  | .tstop v => s.setTstop v
  | .step v => s.setStep v
  | .init nt => ({ s with nt := nt }, none)

/-- A history of operations, whose exceptions are caught. -/
def Load.run (s : Load) : List WOp → Load
  | [] => s
  | o :: os => (s.op o).1.run os

/-! ### Properties -/

/-- Specification: a valid window. -/
def Valid (s : Load) : Prop :=
  0 ≤ s.getStart ∧ s.getStart < s.getStop ∧ s.getStop ≤ s.nt ∧ 1 ≤ s.step

theorem trunc_nonneg {q : ℚ} (h : 0 ≤ q) : trunc q = ⌊q⌋ := if_pos h

theorem trunc_int (n : ℤ) : trunc (n : ℚ) = n := by
  unfold trunc; split <;> simp

/-- An accepted value is an integer or a finite float in the range, or an accepted infinity. -/
theorem check_ok {v : Val} {p : ℚ → Bool} {infs : Bool → Bool} (h : check v p infs = .ok ()) :
    (∃ n : ℤ, v = .int n ∧ p n = true) ∨ (∃ q, v = .flt q ∧ p q = true) ∨
      ∃ b, v = .inf b ∧ infs b = true := by
  unfold check at h
  cases v with
  | none => simp [between, bind, Except.bind] at h
  | bad => simp [between, bind, Except.bind] at h
  | nan => simp [between, bind, Except.bind] at h
  | npint n =>
    simp only [between, bind, Except.bind, Val.isNum] at h
    split at h <;> simp at h
  | int n =>
    left
    refine ⟨n, rfl, ?_⟩
    by_contra hp
    rw [Bool.not_eq_true] at hp
    simp [between, bind, Except.bind, hp] at h
  | flt q =>
    right; left
    refine ⟨q, rfl, ?_⟩
    by_contra hp
    rw [Bool.not_eq_true] at hp
    simp [between, bind, Except.bind, hp] at h
  | inf b =>
    right; right
    refine ⟨b, rfl, ?_⟩
    by_contra hp
    rw [Bool.not_eq_true] at hp
    simp [between, bind, Except.bind, hp] at h

theorem check_int {n : ℤ} {p : ℚ → Bool} {infs : Bool → Bool} (h : p n = true) :
    check (.int n) p infs = .ok () := by
  simp [check, between, bind, Except.bind, h, Val.isNum]

theorem check_flt {q : ℚ} {p : ℚ → Bool} {infs : Bool → Bool} (h : p q = true) :
    check (.flt q) p infs = .ok () := by
  simp [check, between, bind, Except.bind, h, Val.isNum]

/-- Cases of a setter. -/
theorem finish_cases {s : Load} {v : Val} {p : ℚ → Bool} {infs : Bool → Bool} {f : ℤ → Load}
    (h : ∀ i, (∃ n : ℤ, v = .int n ∧ p n = true ∧ i = n) ∨
      (∃ q, v = .flt q ∧ p q = true ∧ i = trunc q) → Valid (f i)) (hs : Valid s) :
    Valid (finish s (do check v p infs; let i ← v.toInt; .ok (f i))).1 := by
  cases hc : check v p infs with
  | error e => exact hs
  | ok u =>
    rcases check_ok hc with ⟨n, rfl, hp⟩ | ⟨q, rfl, hp⟩ | ⟨b, rfl, hp⟩
    · exact h n (.inl ⟨n, rfl, hp, rfl⟩)
    · exact h _ (.inr ⟨q, rfl, hp, rfl⟩)
    · exact hs

theorem finish_index {s : Load} {v : Val} {p : ℚ → Bool} {f : ℤ → Res}
    (h : ∀ q : ℚ, p q = true → Valid (f (trunc (q * s.fs))).1) (hs : Valid s) :
    Valid (match (do check v p fun _ => false; s.index v : Except WErr ℤ) with
      | .ok i => f i
      | .error e => (s, some e)).1 := by
  cases hc : check v p fun _ => false with
  | error e => exact hs
  | ok u =>
    rcases check_ok hc with ⟨n, rfl, hp⟩ | ⟨q, rfl, hp⟩ | ⟨b, rfl, hp⟩
    · exact h n hp
    · exact h q hp
    · exact absurd hp (by simp)

theorem valid_setStart {s : Load} (hs : Valid s) (v : Val) : Valid (s.setStart v).1 := by
  obtain ⟨h1, h2, h3, h4⟩ := hs
  unfold Load.setStart
  split
  · exact ⟨le_refl _, lt_of_le_of_lt h1 h2, h3, h4⟩
  · refine finish_cases ?_ ⟨h1, h2, h3, h4⟩
    intro i hi
    rcases hi with ⟨n, -, hp, rfl⟩ | ⟨q, -, hp, rfl⟩
    · simp only [decide_eq_true_eq] at hp
      exact ⟨by exact_mod_cast hp.1, by exact_mod_cast hp.2, h3, h4⟩
    · simp only [decide_eq_true_eq] at hp
      rw [trunc_nonneg hp.1]
      refine ⟨Int.floor_nonneg.2 hp.1, ?_, h3, h4⟩
      exact Int.floor_lt.2 hp.2

/-- Values of `stop` that keep the window: anything but a float between `start` and `start + 1`. -/
def StopOk (s : Load) : Val → Prop
  | .flt q => ¬(s.getStart < q ∧ q < s.getStart + 1)
  | _ => True

theorem valid_setStop {s : Load} (hs : Valid s) {v : Val} (hv : StopOk s v) :
    Valid (s.setStop v).1 := by
  obtain ⟨h1, h2, h3, h4⟩ := hs
  unfold Load.setStop
  split
  · exact ⟨h1, lt_of_lt_of_le h2 h3, le_refl _, h4⟩
  · refine finish_cases ?_ ⟨h1, h2, h3, h4⟩
    intro i hi
    rcases hi with ⟨n, -, hp, rfl⟩ | ⟨q, rfl, hp, rfl⟩
    · simp only [decide_eq_true_eq] at hp
      exact ⟨h1, by exact_mod_cast hp.1, by exact_mod_cast hp.2, h4⟩
    · simp only [decide_eq_true_eq] at hp
      have hq : (s.getStart : ℚ) + 1 ≤ q := by
        by_contra hx
        exact hv ⟨hp.1, by linarith⟩
      have hq0 : (0 : ℚ) ≤ q := by
        have : (0 : ℚ) ≤ s.getStart := by exact_mod_cast h1
        linarith
      rw [trunc_nonneg hq0]
      refine ⟨h1, ?_, ?_, h4⟩
      · have : s.getStart + 1 ≤ ⌊q⌋ := Int.le_floor.2 (by push_cast; exact hq)
        show s.getStart < ⌊q⌋
        omega
      · have := Int.floor_le q
        have h5 : ((⌊q⌋ : ℤ) : ℚ) ≤ s.nt := le_trans this hp.2
        exact_mod_cast h5

theorem valid_setTstart {s : Load} (hs : Valid s) (v : Val) : Valid (s.setTstart v).1 := by
  unfold Load.setTstart
  split
  · obtain ⟨h1, h2, h3, h4⟩ := hs
    exact ⟨le_refl _, lt_of_le_of_lt h1 h2, h3, h4⟩
  · exact finish_index (fun q _ => valid_setStart hs _) hs

theorem valid_setTstop {s : Load} (hs : Valid s) (v : Val) : Valid (s.setTstop v).1 := by
  unfold Load.setTstop
  split
  · exact valid_setStop hs trivial
  · exact finish_index (fun q _ => valid_setStop hs trivial) hs

theorem valid_setStep {s : Load} (hs : Valid s) (v : Val) : Valid (s.setStep v).1 := by
  obtain ⟨h1, h2, h3, h4⟩ := hs
  unfold Load.setStep
  split
  · exact ⟨h1, h2, h3, le_refl _⟩
  · refine finish_cases ?_ ⟨h1, h2, h3, h4⟩
    intro i hi
    rcases hi with ⟨n, -, hp, rfl⟩ | ⟨q, -, hp, rfl⟩
    · simp only [decide_eq_true_eq] at hp
      exact ⟨h1, h2, h3, by exact_mod_cast hp⟩
    · simp only [decide_eq_true_eq] at hp
      refine ⟨h1, h2, h3, ?_⟩
      show 1 ≤ trunc q
      rw [trunc_nonneg (by linarith)]
      exact Int.le_floor.2 (by exact_mod_cast hp)

/-- Operations of a history that keep the window: no new initialisation, no fractional `stop` just
above `start`. -/
def OpsOk : Load → List WOp → Prop
  | _, [] => True
  | s, o :: os =>
    (match o with
      | .stop v => StopOk s v
      | .init _ => False
      | _ => True) ∧ OpsOk (s.op o).1 os

/-- C36. Any history of assignments keeps a valid window, whether they raise or not, if `stop`
receives no float strictly between `start` and `start + 1`. -/
theorem C36_window {os : List WOp} : ∀ {s : Load}, Valid s → OpsOk s os → Valid (s.run os) := by
  induction os with
  | nil => intro s hs _; exact hs
  | cons o os ih =>
    intro s hs ho
    refine ih ?_ ho.2
    have h1 := ho.1
    cases o with
    | start v => exact valid_setStart hs v
    | stop v => exact valid_setStop hs h1
    | tstart v => exact valid_setTstart hs v
    | tstop v => exact valid_setTstop hs v
    | step v => exact valid_setStep hs v
    | init n => exact absurd h1 (by simp)

/-- Assignments of integers and of None only. -/
def IntOnly : WOp → Prop
  | .start v | .stop v | .tstart v | .tstop v | .step v => ∀ q, v ≠ .flt q
  | .init _ => False

theorem opsOk_of_int {os : List WOp} : ∀ {s : Load}, (∀ o ∈ os, IntOnly o) → OpsOk s os := by
  induction os with
  | nil => intro s _; exact trivial
  | cons o os ih =>
    intro s h
    refine ⟨?_, ih fun o ho => h o (by simp [ho])⟩
    have := h o (by simp)
    cases o with
    | stop v =>
      cases v with
      | flt q => exact absurd rfl (this q)
      | _ => exact trivial
    | init n => exact this
    | _ => exact trivial

/-- C36. In particular without floats, from the window of a new object (`start`, `stop` and `step`
set to None on a file of `nt ≥ 1` rows). -/
theorem C36_integers {nt : ℕ} (hn : 1 ≤ nt) (fs : ℚ) {os : List WOp} (h : ∀ o ∈ os, IntOnly o) :
    Valid (Load.run ⟨none, none, 1, nt, fs⟩ os) :=
  C36_window ⟨le_refl _, by show (0 : ℤ) < (nt : ℤ); omega, le_refl _, le_refl _⟩ (opsOk_of_int h)

/-- C36. A setter that raises leaves the options unchanged, except `tstart = None`, which
resets `start`. -/
theorem C36_raise {s : Load} {o : WOp} {e : WErr} (h : (s.op o).2 = some e) :
    (s.op o).1 = s ∨ (o = .tstart .none ∧ (s.op o).1 = { s with start := none }) := by
  have fin : ∀ {r : Except WErr Load} {e}, (finish s r).2 = some e → (finish s r).1 = s := by
    intro r e h
    cases r with
    | ok s' => simp [finish] at h
    | error e => rfl
  have hstart : ∀ {v e}, (s.setStart v).2 = some e → (s.setStart v).1 = s := by
    intro v e h
    unfold Load.setStart at h ⊢
    split at h
    · simp at h
    · exact fin h
  have hstop : ∀ {v e}, (s.setStop v).2 = some e → (s.setStop v).1 = s := by
    intro v e h
    unfold Load.setStop at h ⊢
    split at h
    · simp at h
    · exact fin h
  cases o with
  | start v => exact .inl (hstart h)
  | stop v => exact .inl (hstop h)
  | tstart v =>
    change (s.setTstart v).2 = _ at h
    show (s.setTstart v).1 = s ∨ (_ ∧ (s.setTstart v).1 = _)
    unfold Load.setTstart at h ⊢
    split at h
    · exact .inr ⟨rfl, rfl⟩
    · left
      split at h
      · exact hstart h
      · rfl
  | tstop v =>
    change (s.setTstop v).2 = _ at h
    left
    show (s.setTstop v).1 = s
    unfold Load.setTstop at h ⊢
    split at h
    · exact hstop h
    · split at h
      · exact hstop h
      · rfl
  | step v =>
    change (s.setStep v).2 = _ at h
    left
    show (s.setStep v).1 = s
    unfold Load.setStep at h ⊢
    split at h
    · simp at h
    · exact fin h
  | init n => simp [Load.op] at h

/-- C36. An integer in the range is accepted and read back. -/
theorem C36_set_get {s : Load} (n : ℤ) :
    (0 ≤ n → n < s.getStop → (s.setStart (.int n)).2 = none ∧ (s.setStart (.int n)).1.getStart = n) ∧
    (s.getStart < n → n ≤ s.nt → (s.setStop (.int n)).2 = none ∧ (s.setStop (.int n)).1.getStop = n) ∧
    (1 ≤ n → (s.setStep (.int n)).2 = none ∧ (s.setStep (.int n)).1.step = n) := by
  refine ⟨fun h1 h2 => ?_, fun h1 h2 => ?_, fun h1 => ?_⟩
  · have : s.setStart (.int n) = ({ s with start := some n }, none) := by
      show finish s _ = _
      rw [check_int (by simp only [decide_eq_true_eq]; exact ⟨by exact_mod_cast h1, by exact_mod_cast h2⟩)]
      rfl
    rw [this]; exact ⟨rfl, rfl⟩
  · have : s.setStop (.int n) = ({ s with stop := some n }, none) := by
      show finish s _ = _
      rw [check_int (by simp only [decide_eq_true_eq]; exact ⟨by exact_mod_cast h1, by exact_mod_cast h2⟩)]
      rfl
    rw [this]; exact ⟨rfl, rfl⟩
  · have : s.setStep (.int n) = ({ s with step := n }, none) := by
      show finish s _ = _
      rw [check_int (by simp only [decide_eq_true_eq]; exact_mod_cast h1)]
      rfl
    rw [this]; exact ⟨rfl, rfl⟩

/-- C36. Times in the range are accepted, and the window starts (ends) at the last sample that is not
after the given time. -/
theorem C36_times {s : Load} (hs : Valid s) (hfs : 0 < s.fs) (t : ℚ) :
    (0 ≤ t → t ≤ s.tstop → (s.setTstart (.flt t)).2 = none ∧
      (s.setTstart (.flt t)).1.tstart ≤ t ∧ t < (s.setTstart (.flt t)).1.tstart + 1 / s.fs) ∧
    (s.tstart ≤ t → t ≤ ((s.nt : ℚ) - 1) / s.fs → (s.setTstop (.flt t)).2 = none ∧
      (s.setTstop (.flt t)).1.tstop ≤ t ∧ t < (s.setTstop (.flt t)).1.tstop + 1 / s.fs) := by
  obtain ⟨h1, h2, h3, h4⟩ := hs
  have key : ∀ q : ℚ, ((⌊t * s.fs⌋ : ℤ) : ℚ) / s.fs ≤ t ∧
      t < ((⌊t * s.fs⌋ : ℤ) : ℚ) / s.fs + 1 / s.fs := by
    intro _
    constructor
    · rw [div_le_iff₀ hfs]; exact Int.floor_le _
    · rw [← add_div, lt_div_iff₀ hfs]; exact Int.lt_floor_add_one _
  constructor
  · intro ht1 ht2
    have hnn : 0 ≤ t * s.fs := by positivity
    have hle : t * s.fs ≤ s.getStop - 1 := by
      unfold Load.tstop at ht2
      rwa [le_div_iff₀ hfs] at ht2
    have hfl : ⌊t * s.fs⌋ < s.getStop := by
      rw [Int.floor_lt]; linarith
    have e1 : s.setTstart (.flt t) = s.setStart (.int ⌊t * s.fs⌋) := by
      unfold Load.setTstart
      dsimp only
      rw [check_flt (by simp only [decide_eq_true_eq]; exact ⟨ht1, ht2⟩)]
      show s.setStart (.int (trunc (t * s.fs))) = _
      rw [trunc_nonneg hnn]
    have e2 := (C36_set_get (s := s) ⌊t * s.fs⌋).1 (Int.floor_nonneg.2 hnn) hfl
    have e3 : (s.setStart (.int ⌊t * s.fs⌋)).1.fs = s.fs := by
      show (finish s _).1.fs = _
      rw [check_int (by
        simp only [decide_eq_true_eq]
        exact ⟨by exact_mod_cast Int.floor_nonneg.2 hnn, by exact_mod_cast hfl⟩)]
      rfl
    rw [e1]
    refine ⟨e2.1, ?_⟩
    unfold Load.tstart
    rw [e2.2, e3]
    exact key t
  · intro ht1 ht2
    have hst : (s.getStart : ℚ) ≤ t * s.fs := by
      unfold Load.tstart at ht1
      rwa [div_le_iff₀ hfs] at ht1
    have hnn : 0 ≤ t * s.fs := le_trans (by exact_mod_cast h1) hst
    have hle : t * s.fs ≤ s.nt - 1 := by rwa [le_div_iff₀ hfs] at ht2
    have hf1 : s.getStart ≤ ⌊t * s.fs⌋ := Int.le_floor.2 hst
    have hf2 : ⌊t * s.fs⌋ < s.nt := by rw [Int.floor_lt]; linarith
    have e1 : s.setTstop (.flt t) = s.setStop (.int (⌊t * s.fs⌋ + 1)) := by
      unfold Load.setTstop
      dsimp only
      rw [check_flt (by simp only [decide_eq_true_eq]; exact ⟨ht1, ht2⟩)]
      show s.setStop (.int (trunc (t * s.fs) + 1)) = _
      rw [trunc_nonneg hnn]
    have e2 := (C36_set_get (s := s) (⌊t * s.fs⌋ + 1)).2.1 (by omega) (by omega)
    have e3 : (s.setStop (.int (⌊t * s.fs⌋ + 1))).1.fs = s.fs := by
      show (finish s _).1.fs = _
      rw [check_int (by
        simp only [decide_eq_true_eq]
        exact ⟨by exact_mod_cast (show s.getStart < ⌊t * s.fs⌋ + 1 by omega),
          by exact_mod_cast (show ⌊t * s.fs⌋ + 1 ≤ s.nt by omega)⟩)]
      rfl
    rw [e1]
    refine ⟨e2.1, ?_⟩
    unfold Load.tstop
    rw [e2.2, e3]
    have := key t
    push_cast
    rw [add_sub_cancel_right]
    exact this

/-- C36. A float strictly between `start` and `start + 1` is accepted as `stop`, and gives an empty
window. -/
theorem C36_float_counterexample {s : Load} (hs : Valid s) {q : ℚ} (h1 : (s.getStart : ℚ) < q)
    (h2 : q < s.getStart + 1) : (s.setStop (.flt q)).2 = none ∧
      (s.setStop (.flt q)).1.getStop = s.getStart := by
  obtain ⟨g1, g2, g3, -⟩ := hs
  have hq0 : (0 : ℚ) ≤ q := by
    have : (0 : ℚ) ≤ s.getStart := by exact_mod_cast g1
    linarith
  have hnt : (s.getStart : ℚ) + 1 ≤ s.nt := by exact_mod_cast (show s.getStart + 1 ≤ s.nt by omega)
  have hfl : ⌊q⌋ = s.getStart := by
    rw [Int.floor_eq_iff]; exact ⟨h1.le, h2⟩
  have : s.setStop (.flt q) = ({ s with stop := some ⌊q⌋ }, none) := by
    show finish s _ = _
    rw [check_flt (by simp only [decide_eq_true_eq]; exact ⟨h1, by linarith⟩), ← trunc_nonneg hq0]
    rfl
  rw [this]
  exact ⟨rfl, hfl⟩

/-- C36. A new initialisation keeps the window iff it has enough rows; the options are not
reset. -/
theorem C36_init {s : Load} (hs : Valid s) (n : ℕ) :
    Valid (s.op (.init n)).1 ↔ (s.stop = none ∧ s.getStart < n) ∨ s.stop ≠ none ∧ s.getStop ≤ n := by
  obtain ⟨h1, h2, h3, h4⟩ := hs
  show (0 ≤ s.getStart ∧ s.getStart < s.stop.getD (n : ℤ) ∧ s.stop.getD (n : ℤ) ≤ (n : ℤ) ∧ _) ↔ _
  unfold Load.getStop at h2 ⊢
  rcases hst : s.stop with _ | st
  · rw [hst] at h2
    simp only [Option.getD_none, ne_eq, not_true, false_and, or_false, true_and]
    exact ⟨fun h => h.2.1, fun h => ⟨h1, h, le_refl _, h4⟩⟩
  · rw [hst] at h2
    simp only [Option.getD_some, ne_eq, reduceCtorEq, not_false_iff, true_and, false_and, false_or]
    exact ⟨fun h => h.2.2.1, fun h => ⟨h1, h2, h, h4⟩⟩

/-- C36. A second simulation of 5 samples, after a window on 10 samples. -/
theorem C36_init_counterexample : ∃ s : Load,
    s = Load.run ⟨none, none, 1, 10, 1⟩ [.stop (.int 8), .start (.int 6), .init 5] ∧
      s.getStart = 6 ∧ s.getStop = 8 ∧ s.nt = 5 := by
  refine ⟨_, rfl, ?_⟩
  decide +kernel

example : Valid (Load.run ⟨none, none, 1, 10, 4⟩
    [.stop (.int 8), .start (.int 9), .tstart (.int 1), .step .none, .start .none]) :=
  C36_integers (nt := 10) (by decide) 4 (by
    intro o ho
    simp only [List.mem_cons, List.not_mem_nil, or_false] at ho
    rcases ho with rfl | rfl | rfl | rfl | rfl <;> simp [IntOnly])

end H5
end Pyphs
