import Verif.H5.Read
import Verif.H5.DataProps
import Mathlib.Data.List.Sort

/-!
# C35: time selections
-/

namespace Pyphs
namespace H5

variable {α : Type}

/-- Specification: the documented samples, "the value is generated if i-start % step == 0". -/
def samples (a b c : ℕ) : List ℕ := (List.range b).filter fun i => decide (a ≤ i ∧ (i - a) % c = 0)

theorem mem_samples {a b c i : ℕ} : i ∈ samples a b c ↔ i < b ∧ a ≤ i ∧ (i - a) % c = 0 := by
  unfold samples; simp

theorem samples_eq {a b c : ℕ} (hc : 1 ≤ c) :
    (List.range ((b - a + c - 1) / c)).map (fun k => a + k * c) = samples a b c := by
  refine List.Pairwise.eq_of_mem_iff (r := (· < ·)) ?_ ?_ ?_
  · rw [List.pairwise_map]
    refine List.pairwise_lt_range.imp ?_
    intro x y hxy
    have := Nat.mul_lt_mul_of_pos_right hxy (show 0 < c by omega)
    omega
  · exact List.Pairwise.filter _ List.pairwise_lt_range
  · intro i
    rw [mem_samples, List.mem_map]
    constructor
    · rintro ⟨k, hk, rfl⟩
      rw [List.mem_range, lt_count hc] at hk
      refine ⟨by omega, by omega, ?_⟩
      rw [Nat.add_sub_cancel_left]
      exact Nat.mul_mod_left k c
    · rintro ⟨h1, h2, h3⟩
      obtain ⟨q, hq⟩ := Nat.dvd_of_mod_eq_zero h3
      refine ⟨q, ?_, ?_⟩
      · rw [List.mem_range, lt_count hc, mul_comm, ← hq]; omega
      · rw [mul_comm, ← hq]; omega

theorem samples_length {a b c : ℕ} (hc : 1 ≤ c) :
    (samples a b c).length = (b - a + c - 1) / c := by
  rw [← samples_eq hc, List.length_map, List.length_range]

/-- Specification: the samples asked for go from `a` to `b` by `c`. What is not said is taken in the options of
the reader. -/
def Asked (w : Window) (a b c : ℤ) : TSel → Prop
  | .none => a = w.start ∧ b = w.stop ∧ c = w.step
  | .idx i => a = i ∧ b = i + 1 ∧ c = w.step
  | .slice x y z => (∀ v, x = some v → a = v) ∧ (x = none → a = w.start) ∧ (∀ v, y = some v → b = v) ∧
      (y = none → b = w.stop) ∧ (∀ v, z = some v → c = v) ∧ (z = none → c = w.step)

theorem Asked.eq {w : Window} {a b c : ℤ} {t : TSel} (h : Asked w a b c t) : tslice w t = (a, b, c) := by
  cases t with
  | none => obtain ⟨rfl, rfl, rfl⟩ := h; rfl
  | idx i => obtain ⟨rfl, rfl, rfl⟩ := h; rfl
  | slice x y z =>
    obtain ⟨h1, h2, h3, h4, h5, h6⟩ := h
    show (x.getD w.start, y.getD w.stop, z.getD w.step) = _
    cases x <;> cases y <;> cases z <;> simp_all

/-- A selection of the samples from `a` to `b` by `c`, inside a file of `nt` rows. -/
structure Selects (w : Window) (t : TSel) (nt a b c : ℕ) : Prop where
  asked : Asked w a b c t
  ab : a ≤ b
  bn : b ≤ nt
  c1 : 1 ≤ c

theorem Selects.eq {w : Window} {t : TSel} {nt a b c : ℕ} (h : Selects w t nt a b c) :
    tslice w t = ((a : ℤ), (b : ℤ), (c : ℤ)) := h.asked.eq

theorem Selects.full {w : Window} {t : TSel} {nt a b c : ℕ} (h : Selects w t nt a b c) :
    Selects w (full w t) nt a b c := by
  refine ⟨?_, h.ab, h.bn, h.c1⟩
  unfold H5.full
  rw [h.eq]
  refine ⟨fun v e => Option.some.inj e, fun e => (by cases e), fun v e => Option.some.inj e,
    fun e => (by cases e), fun v e => Option.some.inj e, fun e => (by cases e)⟩

/-- C35. A stored signal: exactly the documented samples. -/
theorem C35_stored {L : Layout} (h : L.names.Nodup) {name : String} (hm : name ∈ L.names)
    {ds : Ds α} (hc : ds.c = L.dim) {w : Window} {t : TSel} {a b c : ℕ}
    (hs : Selects w t ds.r a b c) :
    read L w ds name t .none = .ok ((samples a b c).map fun i => rowOf L ds i name) := by
  have hab := hs.ab
  have hbn := hs.bn
  have hc1 := hs.c1
  unfold read
  rw [hs.eq]
  show (axis ds.r a b c).bind _ = _
  unfold axis
  rw [if_pos (by omega)]
  show (vcols L ds.c name .none).bind _ = _
  rw [vcols_none h hm hc.ge]
  show Except.ok _ = _
  rw [Int.toNat_natCast, pyIndices_inside (by omega) hbn, samples_eq hc1]
  rfl

/-- C35. The time vector: the instants of the same samples. -/
theorem C35_time {w : Window} {t : TSel} {nt a b c : ℕ} (hs : Selects w t nt a b c) (fs : ℚ) :
    times w fs t = .ok ((samples a b c).map fun i : ℕ => (i : ℚ) / fs) := by
  have hab := hs.ab
  have hc1 := hs.c1
  unfold times
  rw [hs.eq, if_pos (by show (1 : ℤ) ≤ (c : ℤ); omega)]
  congr 1
  show (arange (a : ℤ) (b : ℤ) (c : ℤ).toNat).map _ = _
  unfold arange
  rw [Int.toNat_natCast, ← samples_eq hc1, List.map_map, List.map_map,
    show ((b : ℤ) - (a : ℤ)).toNat = b - a by omega]
  refine List.map_congr_left ?_
  intro k _
  simp

/-- Concatenation of the values of several variables in a row. -/
def rowsOf (L : Layout) (ds : Ds α) (i : ℕ) (names : List String) : List α :=
  (names.map fun n => rowOf L ds i n).flatten

theorem readAll_ok {L : Layout} (h : L.names.Nodup) {ds : Ds α} (hc : ds.c = L.dim) {w : Window}
    {t : TSel} {a b c : ℕ} (hs : Selects w t ds.r a b c) : ∀ {names : List String},
    (∀ n ∈ names, n ∈ L.names) → readAll L w ds t names =
      .ok (names.map fun n => (samples a b c).map fun i => rowOf L ds i n) := by
  intro names
  induction names with
  | nil => intro _; rfl
  | cons n ns ih =>
    intro hn
    rw [readAll, C35_stored h (hn n (by simp)) hc hs]
    show (readAll L w ds t ns).bind _ = _
    rw [ih fun m hm => hn m (by simp [hm])]
    rfl

theorem zipWith_map_append {β : Type} (l : List β) (f g : β → List α) :
    List.zipWith (· ++ ·) (l.map f) (l.map g) = l.map fun i => f i ++ g i := by
  induction l with
  | nil => rfl
  | cons x l ih => simp [ih]

theorem hstack_ok {L : Layout} {ds : Ds α} (l : List ℕ) : ∀ {names : List String}, names ≠ [] →
    hstack (names.map fun n => l.map fun i => rowOf L ds i n) =
      .ok (l.map fun i => rowsOf L ds i names) := by
  intro names
  induction names with
  | nil => intro h; exact absurd rfl h
  | cons n ns ih =>
    intro _
    cases ns with
    | nil => simp [hstack, rowsOf]
    | cons m ms =>
      rw [List.map_cons, List.map_cons, hstack]
      have := ih (by simp)
      rw [List.map_cons] at this
      rw [this]
      show (if _ then _ else _) = _
      rw [if_pos (by simp), zipWith_map_append]
      rfl

/-- C35. The stacked signals. -/
theorem C35_stack {L : Layout} (h : L.names.Nodup) {ds : Ds α} (hc : ds.c = L.dim) {w : Window}
    {t : TSel} {a b c : ℕ} (hs : Selects w t ds.r a b c) {names : List String}
    (hn : ∀ n ∈ names, n ∈ L.names) (hne : names ≠ []) :
    stack L w ds names t = .ok ((samples a b c).map fun i => rowsOf L ds i names) := by
  unfold stack
  rw [readAll_ok h hc hs.full hn]
  exact hstack_ok _ hne

/-- The names of the arguments. -/
def argNames : List String := ["x", "dx", "w", "u", "p"]

theorem args_ok {L : Layout} (h : L.names.Nodup) {ds : Ds α} (hc : ds.c = L.dim) {w : Window}
    {t : TSel} {a b c : ℕ} (hs : Selects w t ds.r a b c) (hn : ∀ n ∈ argNames, n ∈ L.names) :
    args L w ds t = .ok ((samples a b c).map fun i => rowsOf L ds i argNames) :=
  C35_stack h hc hs hn (by simp [argNames])

theorem expectedNt_eq {w : Window} {t : TSel} {nt a b c : ℕ} (hs : Selects w t nt a b c) :
    expectedNt w t = ((b - a) / c : ℕ) := by
  unfold expectedNt
  rw [hs.eq]
  have := hs.ab
  show ((b : ℤ) - (a : ℤ)) / (c : ℤ) = _
  rw [← Int.natCast_sub this]
  rfl

theorem zeroRows_ok {w : Window} {t : TSel} {nt a b c : ℕ} (hs : Selects w t nt a b c)
    (row : List α) : zeroRows w t row = .ok (.rows (List.replicate ((b - a) / c) row)) := by
  unfold zeroRows
  rw [expectedNt_eq hs, if_pos (Int.natCast_nonneg _), Int.toNat_natCast]

/-- The number of documented samples is the expected number iff the step divides the length of the
selection. -/
theorem count_iff {a b c : ℕ} (hc : 1 ≤ c) : (b - a) / c = (samples a b c).length ↔ c ∣ b - a := by
  rw [samples_length hc]
  generalize b - a = n
  constructor
  · intro h
    have h1 := Nat.div_add_mod n c
    have h2 := Nat.mod_lt n (show 0 < c by omega)
    have h3 := lt_count (n := n) (step := c) (k := n / c) hc
    by_contra hd
    have h4 : n % c ≠ 0 := fun h0 => hd (Nat.dvd_of_mod_eq_zero h0)
    have h5 : n / c * c < n := by rw [mul_comm]; omega
    have := h3.2 h5
    omega
  · rintro ⟨q, rfl⟩
    rw [Nat.mul_div_cancel_left _ (by omega), Nat.add_sub_assoc hc, Nat.mul_add_div (by omega),
      Nat.div_eq_of_lt (by omega)]
    simp

theorem mapM_map {β γ δ : Type} (l : List β) (f : β → γ) (g : γ → Option δ) (k : β → δ)
    (h : ∀ x ∈ l, g (f x) = some (k x)) : (l.map f).mapM g = some (l.map k) := by
  induction l with
  | nil => rfl
  | cons x l ih =>
    rw [List.map_cons, List.mapM_cons, h x (by simp), ih fun y hy => h y (by simp [hy])]
    rfl

theorem mapM_get {row : List α} (d : α) : ∀ {inds : List ℕ}, (∀ k ∈ inds, k < row.length) →
    inds.mapM (fun k => row[k]?) = some (inds.map fun k => row.getD k d) := by
  intro inds
  induction inds with
  | nil => intro _; rfl
  | cons k inds ih =>
    intro h
    have hk : k < row.length := h k (by simp)
    rw [List.mapM_cons, List.getElem?_eq_getElem hk, ih fun y hy => h y (by simp [hy])]
    simp [List.getD_eq_getElem?_getD, hk]

/-- The row of arguments, followed by the values of the observers. -/
def fullRow (L : Layout) (ds : Ds α) (obs : List α) (i : ℕ) : List α :=
  rowsOf L ds i argNames ++ obs

theorem argsO_eq {L : Layout} (h : L.names.Nodup) {ds : Ds α} (hc : ds.c = L.dim) {w : Window}
    {t : TSel} {a b c : ℕ} (hs : Selects w t ds.r a b c) (hn : ∀ n ∈ argNames, n ∈ L.names)
    (obs : List (List α → α)) : argsO L w ds (.vector [] obs) t = if c ∣ b - a then
      .ok ((samples a b c).map (fullRow L ds (obs.map fun f => f []))) else .error .value := by
  unfold argsO
  rw [args_ok h hc hs.full hn]
  have hc1 := hs.c1
  have he : expression w (full w t)
      (Except.ok ((samples a b c).map fun i => rowsOf L ds i argNames)) (.vector [] obs) =
      .ok (.rows (List.replicate ((b - a) / c) (obs.map fun f => f []))) := by
    unfold expression
    rw [if_pos (by rw [hs.full.eq]; show (1 : ℤ) ≤ (c : ℤ); omega)]
    exact zeroRows_ok hs.full _
  show (expression w (full w t) _ _).bind _ = _
  rw [he]
  show hstack [_, _] = _
  show (if _ then _ else _) = _
  rw [List.length_map, List.length_replicate]
  by_cases hd : c ∣ b - a
  · rw [if_pos hd, if_pos ((count_iff hc1).2 hd).symm, (count_iff hc1).2 hd]
    rw [← List.map_const', zipWith_map_append]
    rfl
  · rw [if_neg hd, if_neg fun hx => hd ((count_iff hc1).1 hx.symm)]

/-- C35. An expression of the arguments (energy, dissipated power), for observers without
arguments (for instance no observer): if the step divides the length of the
selection, the values at the documented samples; otherwise a ValueError. -/
theorem C35_expression {L : Layout} (h : L.names.Nodup) {ds : Ds α} (hc : ds.c = L.dim)
    {w : Window} {t : TSel} {a b c : ℕ} (hs : Selects w t ds.r a b c) (hab : a < b)
    (hn : ∀ n ∈ argNames, n ∈ L.names) (obs : List (List α → α)) {inds : List ℕ} (hne : inds ≠ [])
    (d : α) (hi : ∀ k ∈ inds, ∀ i, k < (fullRow L ds (obs.map fun f => f []) i).length)
    (f : List α → α) : readExpr L w ds (.vector [] obs) (.scalar inds f) t = if c ∣ b - a then
      .ok (.rows ((samples a b c).map fun i =>
        [f (inds.map fun k => (fullRow L ds (obs.map fun f => f []) i).getD k d)]))
      else .error .value := by
  have hc1 := hs.c1
  obtain ⟨i, inds, rfl⟩ : ∃ i l, inds = i :: l := by
    cases inds with
    | nil => exact absurd rfl hne
    | cons i l => exact ⟨i, l, rfl⟩
  unfold readExpr expression
  rw [if_pos (by rw [hs.full.eq]; show (1 : ℤ) ≤ (c : ℤ); omega), argsO_eq h hc hs.full hn]
  unfold evalRows
  by_cases hd : c ∣ b - a
  · rw [if_pos hd, if_pos hd]
    show (if _ then _ else _) = _
    rw [if_neg (by
      intro h0
      have h1 : samples a b c = [] := by simpa using h0
      have h2 : a ∈ samples a b c := mem_samples.2 ⟨hab, le_refl _, by simp⟩
      rw [h1] at h2
      simp at h2)]
    rw [mapM_map _ _ _ (fun j => (i :: inds).map fun k =>
      (fullRow L ds (obs.map fun f => f []) j).getD k d) (fun j _ => mapM_get d fun k hk => hi k hk j)]
    show Except.ok _ = _
    rw [List.map_map]
    rfl
  · rw [if_neg hd, if_neg hd]
    rfl

/-- C35. With the default options, or any step 1, the expressions are those of the samples. -/
theorem C35_expression_step_one {L : Layout} (h : L.names.Nodup) {ds : Ds α} (hc : ds.c = L.dim)
    {w : Window} {t : TSel} {a b : ℕ} (hs : Selects w t ds.r a b 1) (hab : a < b)
    (hn : ∀ n ∈ argNames, n ∈ L.names) {inds : List ℕ} (hne : inds ≠ [])
    (d : α) (hi : ∀ k ∈ inds, ∀ i, k < (rowsOf L ds i argNames).length) (f : List α → α) :
    readExpr L w ds (.vector [] []) (.scalar inds f) t =
      .ok (.rows ((samples a b 1).map fun i =>
        [f (inds.map fun k => (rowsOf L ds i argNames).getD k d)])) := by
  rw [C35_expression h hc hs hab hn [] hne d (by
    intro k hk i
    have := hi k hk i
    simpa [fullRow] using this) f, if_pos (one_dvd _)]
  simp [fullRow]

/-- C35. A constant expression has the right number of samples iff the step divides the length
of the selection. -/
theorem C35_constant {L : Layout} {ds : Ds α} {w : Window} {t : TSel} {a b c : ℕ}
    (hs : Selects w t ds.r a b c) (obs : Eval α) (f : List α → α) :
    ∃ n, readExpr L w ds obs (.scalar [] f) t = .ok (.rows (List.replicate n [f []])) ∧
      (n = (samples a b c).length ↔ c ∣ b - a) := by
  have hc1 := hs.c1
  refine ⟨(b - a) / c, ?_, count_iff hc1⟩
  unfold readExpr expression
  rw [if_pos (by rw [hs.full.eq]; show (1 : ℤ) ≤ (c : ℤ); omega)]
  exact zeroRows_ok hs.full _

/-- C35. Observers with arguments: the result holds one generator per observer, whatever the
selection, and the expressions of the arguments cannot be computed. -/
theorem C35_observers_counterexample {L : Layout} (h : L.names.Nodup) {ds : Ds α}
    (hc : ds.c = L.dim) {w : Window} {t : TSel} {a b c : ℕ} (hs : Selects w t ds.r a b c)
    (hn : ∀ n ∈ argNames, n ∈ L.names) {inds : List ℕ} (hne : inds ≠ [])
    (hi : ∀ k ∈ inds, ∀ i, k < (rowsOf L ds i argNames).length) {obs : List (List α → α)}
    (ho : obs ≠ []) : readObs L w ds (.vector inds obs) t = .ok (.gens obs.length) ∧
      ∀ js, js ≠ [] → ∀ f,
        readExpr L w ds (.vector inds obs) (.scalar js f) t = .error .value := by
  have hc1 := hs.c1
  obtain ⟨i, inds, rfl⟩ : ∃ i l, inds = i :: l := by
    cases inds with
    | nil => exact absurd rfl hne
    | cons i l => exact ⟨i, l, rfl⟩
  have key : ∀ t, Selects w t ds.r a b c →
      expression w (full w t) (args L w ds (full w t)) (.vector (i :: inds) obs) =
        .ok (.gens obs.length) := by
    intro t hs
    unfold expression
    rw [if_pos (by rw [hs.full.eq]; show (1 : ℤ) ≤ (c : ℤ); omega), args_ok h hc hs.full hn]
    unfold evalRows
    show (match ((samples a b c).map fun i => rowsOf L ds i argNames).mapM
        (fun row => (i :: inds).mapM fun k => row[k]?) with
      | none => Except.error Err.index
      | some _ => if obs = [] then zeroRows w (full w t) [] else .ok (.gens obs.length)) = _
    have hsome : ((samples a b c).map fun i => rowsOf L ds i argNames).mapM
        (fun row => (i :: inds).mapM fun k => row[k]?) ≠ none := by
      intro h0
      rcases hemp : samples a b c with _ | ⟨s0, sl⟩
      · rw [hemp] at h0; simp at h0
      · have hlt : i < (rowsOf L ds s0 argNames).length := hi i (by simp) s0
        rw [mapM_map _ _ _ (fun j => (i :: inds).map fun k =>
          (rowsOf L ds j argNames).getD k ((rowsOf L ds s0 argNames)[i]))
          (fun j _ => mapM_get _ fun k hk => hi k hk j)] at h0
        simp at h0
    cases hv : ((samples a b c).map fun i => rowsOf L ds i argNames).mapM
        (fun row => (i :: inds).mapM fun k => row[k]?) with
    | none => exact absurd hv hsome
    | some v => exact if_neg ho
  refine ⟨key t hs, ?_⟩
  intro js hjs f
  obtain ⟨j, js, rfl⟩ : ∃ i l, js = i :: l := by
    cases js with
    | nil => exact absurd rfl hjs
    | cons i l => exact ⟨i, l, rfl⟩
  unfold readExpr expression
  rw [if_pos (by rw [hs.full.eq]; show (1 : ℤ) ≤ (c : ℤ); omega)]
  unfold evalRows argsO
  have := key (full w t) hs.full
  rw [args_ok h hc hs.full.full hn] at this ⊢
  show ((expression w _ _ _).bind _).bind _ = _
  rw [this]
  rfl

theorem rowDots_map [Add α] [Mul α] [Zero α] {β : Type} (l : List β) (f g : β → List α) :
    rowDots (l.map f) (l.map g) =
      l.map fun i => (List.zipWith (· * ·) (f i) (g i)).foldr (· + ·) 0 := by
  unfold rowDots
  induction l with
  | nil => rfl
  | cons x l ih => simp [ih]

/-- C35. The powers: input power `u·y` and energy variation `dxH·dx·fs`, at the
documented samples. -/
theorem C35_powers {α : Type} [Semiring α] {L : Layout} (h : L.names.Nodup) {ds : Ds α}
    (hc : ds.c = L.dim)
    {w : Window} {t : TSel} {a b c : ℕ} (hs : Selects w t ds.r a b c)
    (hn : ∀ n ∈ ["u", "y", "dxH", "dx"], n ∈ L.names) (fs : α) :
    readPs L w ds t = .ok ((samples a b c).map fun i =>
      (List.zipWith (· * ·) (rowOf L ds i "u") (rowOf L ds i "y")).sum) ∧
    readDtE L w ds fs t = .ok ((samples a b c).map fun i =>
      (List.zipWith (· * ·) (rowOf L ds i "dxH") (rowOf L ds i "dx")).sum * fs) := by
  constructor
  · unfold readPs
    rw [C35_stored h (hn "u" (by simp)) hc hs]
    show (read L w ds "y" t .none).bind _ = _
    rw [C35_stored h (hn "y" (by simp)) hc hs]
    show Except.ok _ = _
    rw [rowDots_map]
    rfl
  · unfold readDtE
    rw [C35_stored h (hn "dxH" (by simp)) hc hs.full]
    show (read L w ds "dx" (full w t) .none).bind _ = _
    rw [C35_stored h (hn "dx" (by simp)) hc hs.full]
    show Except.ok _ = _
    rw [List.map_map, rowDots_map]
    congr 1
    refine List.map_congr_left ?_
    intro i _
    show (List.zipWith (· * ·) _ ((rowOf L ds i "dx").map _)).foldr _ _ = _
    generalize rowOf L ds i "dxH" = p
    generalize rowOf L ds i "dx" = q
    show (List.zipWith (· * ·) p (q.map fun x => x * fs)).sum = _
    induction p generalizing q with
    | nil => simp
    | cons x p ih =>
      cases q with
      | nil => simp
      | cons y q => simp [ih, add_mul, mul_assoc]

/-! ### Counterexamples -/

/-- A file of three rows. -/
def exFile : Layout := ⟨["u", "p", "x", "dx", "w"], fun n => if n = "x" then 1 else 0⟩

/-- See `exFile`: row `i` holds the value `10 i`. -/
def exDs : Ds ℕ := ⟨3, 1, fun i _ => 10 * i⟩

/-- Length of the result of a reader. -/
def nRows {β : Type} (r : Except Err (List β)) : Option ℕ :=
  match r with
  | .ok l => some l.length
  | .error _ => none

/-- C35. With step 2 on 3 samples, the stored signal and the time have 2 samples, the energy of a
system without observer raises. -/
theorem C35_step_counterexample :
    nRows (read exFile ⟨0, 3, 2⟩ exDs "x" .none .none) = some 2 ∧
      nRows (times ⟨0, 3, 2⟩ 1 .none) = some 2 ∧
      errOf (readExpr exFile ⟨0, 3, 2⟩ exDs (.vector [] []) (.scalar [0] fun v => v.headD 0) .none) =
        some .value := by
  decide

/-- C35. A selection beyond the end of the file: the signal is clipped, not the time. -/
theorem C35_clip_counterexample :
    nRows (read exFile ⟨0, 3, 1⟩ exDs "x" (.slice none (some 5) none) .none) = some 3 ∧
      nRows (times ⟨0, 3, 1⟩ 1 (.slice none (some 5) none)) = some 5 := by
  decide

/-- C35. The index -1 does not select the last sample: no sample, and the time -1/fs. -/
theorem C35_negative_counterexample :
    nRows (read exFile ⟨0, 3, 1⟩ exDs "x" (.idx (-1)) .none) = some 0 ∧
      times ⟨0, 3, 1⟩ 1 (.idx (-1)) = .ok [-1] := by
  refine ⟨by decide, ?_⟩
  simp [times, tslice, arange]

example : read exFile ⟨0, 3, 1⟩ exDs "x" (.slice (some 1) none (some 2)) .none = .ok [[10]] :=
  C35_stored (by decide) (by decide) rfl (a := 1) (b := 3) (c := 2) ⟨by simp [Asked], by decide, by decide, by decide⟩

example : readExpr exFile ⟨0, 3, 1⟩ exDs (.vector [] []) (.scalar [0] fun v => v.headD 0 + 1) .none =
    .ok (.rows [[1], [11], [21]]) :=
  C35_expression_step_one (by decide) rfl (a := 0) (b := 3) ⟨by exact ⟨rfl, rfl, rfl⟩, by decide, by decide, by decide⟩
    (by decide) (by decide) (by decide) 0
    (by
      intro k hk i
      obtain rfl : k = 0 := by simpa using hk
      have : (rowsOf exFile exDs i argNames).length = 1 := rfl
      omega) _

end H5
end Pyphs
