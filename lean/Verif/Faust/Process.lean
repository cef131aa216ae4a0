/-
Property C72: the stereo effect around the recursion, and the defects of the generated programs.
-/
import Verif.Faust.Props
import Mathlib.Algebra.Order.Ring.Rat

namespace Pyphs
namespace Faust
open D

section
variable {K : Type}

/-- Number of inputs of a method that are signals. -/
def signals (l : List (Option K)) : ℕ := l.countP Option.isNone

/-- **Specification**: values of the inputs of the method, with the signals in order in the place of `none`. -/
def fill : List (Option K) → List K → List K
  | [], _ => []
  | some c :: l, s => c :: fill l s
  | none :: l, a :: s => a :: fill l s
  | none :: _, [] => []

theorem fill_length : ∀ (l : List (Option K)) (s : List K), s.length = signals l → (fill l s).length = l.length
  | [], _, _ => rfl
  | some c :: l, s, h => by
    simp [fill, fill_length l s (by simpa [signals] using h)]
  | none :: l, [], h => by simp [signals] at h
  | none :: l, a :: s, h => by
    simp [fill, fill_length l s (by simpa [signals] using h)]

/-- The diagram of one input. -/
def input : Option K → D K
  | none => .wire
  | some c => .fn 0 fun _ => c

theorem inputs_eq (l : List (Option K)) : Dims.inputs l = pars (l.map input) := by
  unfold Dims.inputs
  congr 1

theorem inputs_ins (l : List (Option K)) : (Dims.inputs l).ins = signals l := by
  rw [inputs_eq, ins_pars]
  induction l with
  | nil => rfl
  | cons a l ih =>
    cases a
    · simp only [List.map_cons, List.sum_cons, ih, input, D.ins, signals, List.countP_cons]
      simp; omega
    · simp only [List.map_cons, List.sum_cons, ih, input, D.ins, signals, List.countP_cons]
      simp

theorem inputs_outs (l : List (Option K)) : (Dims.inputs l).outs = l.length := by
  rw [inputs_eq, outs_pars]
  induction l with
  | nil => rfl
  | cons a l ih =>
    cases a <;> simp only [List.map_cons, List.sum_cons, ih, input, D.outs, List.length_cons] <;> omega

theorem inputs_ok (l : List (Option K)) : (Dims.inputs l).ok := by
  rw [inputs_eq]
  refine ok_pars _ fun d h => ?_
  obtain ⟨a, -, rfl⟩ := List.mem_map.1 h
  cases a <;> trivial

theorem inputs_pure (l : List (Option K)) : (Dims.inputs l).Pure := by
  rw [inputs_eq]
  refine pars_pure _ fun d h => ?_
  obtain ⟨a, -, rfl⟩ := List.mem_map.1 h
  cases a <;> trivial

theorem inputs_ev [AddCommMonoid K] : ∀ (l : List (Option K)) (s : List K), s.length = signals l →
    (Dims.inputs l).ev s = fill l s
  | [], s, _ => by rw [inputs_eq]; rfl
  | some c :: l, s, h => by
    have h' : s.length = signals l := by simpa [signals] using h
    have e := inputs_ev l s h'
    rw [inputs_eq] at e ⊢
    have := ev_pars_cons (a := input (some c)) (l := l.map input) (i := []) (j := s) rfl
      (by rw [← inputs_eq, inputs_ins, h'])
    rw [List.nil_append] at this
    rw [List.map_cons, this, e]
    rfl
  | none :: l, [], h => by simp [signals] at h
  | none :: l, a :: s, h => by
    have h' : s.length = signals l := by simpa [signals] using h
    have e := inputs_ev l s h'
    rw [inputs_eq] at e ⊢
    have := ev_pars_cons (a := input none) (l := l.map input) (i := [a]) (j := s) rfl
      (by rw [← inputs_eq, inputs_ins, h'])
    rw [List.singleton_append] at this
    rw [List.map_cons, this, e]
    rfl

end

variable {K : Type} [AddCommMonoid K] [Mul K] {d : Dims} {n : ℕ} {udvl udvnl y : List (List K → K)}

omit [Mul K] in
theorem step_seq (a b : D K) (p q : Mem K) (i : List K) : (D.seq a b).step (.two p q) i =
    (.two (a.step p i).1 (b.step q (a.step p i).2).1, (b.step q (a.step p i).2).2) := rfl

omit [Mul K] in
theorem step_merge (a b : D K) (p q : Mem K) (i : List K) : (D.merge a b).step (.two p q) i =
    (.two (a.step p i).1 (b.step q (sums b.ins (a.step p i).2)).1,
      (b.step q (sums b.ins (a.step p i).2)).2) := rfl

omit [Mul K] in
theorem step_split (a b : D K) (p q : Mem K) (i : List K) : (D.split a b).step (.two p q) i =
    (.two (a.step p i).1 (b.step q (copies (b.ins / a.outs) (a.step p i).2)).1,
      (b.step q (copies (b.ins / a.outs) (a.step p i).2)).2) := rfl

theorem dvd_two {a : ℕ} (h0 : 0 < a) : a ∣ 2 ↔ a = 1 ∨ a = 2 := by
  constructor
  · intro h
    have := Nat.le_of_dvd (by omega) h
    omega
  · rintro (rfl | rfl) <;> decide

/-- **C72**: the generated process is accepted by Faust (as a stereo effect) if and only if one or two inputs
of the method are signals, and one or two outputs are written. -/
theorem C72_stereo (hF : Fits d udvl udvnl y) {inits : List K} (hi : inits.length = d.nin)
    {l : List (Option K)} (hl : l.length = d.u) (gIn gOut : K) :
    (d.process gIn gOut l n udvl udvnl y inits).ok ↔
      (signals l = 1 ∨ signals l = 2) ∧ (y.length = 1 ∨ y.length = 2) := by
  obtain ⟨r1, r2, r3⟩ := C72_typed (n := n) hF inits hi
  simp only [Dims.process, D.ok, D.outs, D.ins, inputs_ok, inputs_ins, inputs_outs, r1, r2, r3, hl, true_and,
    and_true, Nat.reduceAdd]
  constructor
  · rintro ⟨⟨a, b⟩, c, e⟩
    exact ⟨(dvd_two a).1 b, (dvd_two c).1 e⟩
  · rintro ⟨a, b⟩
    exact ⟨⟨by omega, (dvd_two (by omega)).2 a⟩, by omega, (dvd_two (by omega)).2 b⟩

/-- **Specification**: the two channels are mixed for one signal, kept for two. -/
def mixed (k : ℕ) (L R : K) : List K := if k = 1 then [L + R] else [L, R]

/-- **Specification**: one output is sent to both channels. -/
def channels (l : List K) : List K := if l.length = 1 then l ++ l else l

/-- **C72**: the outputs of the generated process are the outputs of the recursion, scaled, for the scaled (and
mixed, for one signal) inputs and the constant inputs. -/
theorem C72_process (hd : d.xnl = 0 ∨ d.wl = 0) (hF : Fits d udvl udvnl y) {a : Args K}
    (hdx : a.dx.length = d.x) (hw : a.w.length = d.w) (hx : a.x.length = d.x) (ho : a.o.length = d.o)
    {l : List (Option K)} (hl : l.length = d.u) (gIn gOut : K)
    (hs : signals l = 1 ∨ signals l = 2) (hy : y.length = 1 ∨ y.length = 2) (L R : ℕ → K) (t : ℕ) :
    let inits := a.dx ++ (a.w ++ (a.x ++ a.o))
    (d.process gIn gOut l n udvl udvnl y inits).out (fun t => [L t, R t]) t =
      channels (((d.recursion n udvl udvnl y inits).out
        (fun t => fill l (mixed (signals l) (L t * gIn) (R t * gIn))) t).map (· * gOut)) := by
  intro inits
  have hi : inits.length = d.nin := by
    simp only [inits, List.length_append, hdx, hw, hx, ho, Dims.nin]; omega
  obtain ⟨r1, r2, r3⟩ := C72_typed (n := n) hF inits hi
  set rc := d.recursion n udvl udvnl y inits with hrc
  set us : ℕ → List K := fun t => fill l (mixed (signals l) (L t * gIn) (R t * gIn)) with hus
  set gi : D K := .fn 1 fun a => a.getD 0 0 * gIn with hgi
  set go : D K := .fn 1 fun a => a.getD 0 0 * gOut with hgo
  have hulen : ∀ t, (us t).length = d.u := fun t => by
    rw [hus, ← hl]
    refine fill_length l _ ?_
    unfold mixed
    rcases hs with h | h <;> simp [h]
  -- the length of the outputs
  have hout : ∀ t, (rc.out us t).length = y.length := by
    intro t
    have key := fun k => C72_interleaved (n := n) hd hF hdx hw hx ho hulen k
    rcases Nat.even_or_odd' t with ⟨k, rfl | rfl⟩
    · rw [hrc, (key k).1, Args.length_ap]
    · rw [hrc, (key k).2, Args.length_ap]
  -- the inputs of the recursion
  have hin : ∀ t, (Dims.inputs l).ev (sums (Dims.inputs l).ins [L t * gIn, R t * gIn]) = us t := by
    intro t
    rw [inputs_ins]
    have : sums (signals l) [L t * gIn, R t * gIn] = mixed (signals l) (L t * gIn) (R t * gIn) := by
      unfold mixed sums
      rcases hs with h | h <;> simp [h, Finset.sum_range_succ, List.range_succ]
    rw [this]
    exact inputs_ev l _ (by unfold mixed; rcases hs with h | h <;> simp [h])
  have step1 : ∀ (m : Mem K) (t : ℕ),
      (d.process gIn gOut l n udvl udvnl y inits).step
        (.two (.two (D.par gi gi).start (.two (Dims.inputs l).start m)) (D.par go go).start) [L t, R t] =
      (.two (.two (D.par gi gi).start (.two (Dims.inputs l).start (rc.step m (us t)).1)) (D.par go go).start,
        (D.par go go).ev (copies (2 / y.length) (rc.step m (us t)).2)) := by
    intro m t
    have hp : (D.par gi gi).Pure := ⟨trivial, trivial⟩
    have hq : (D.par go go).Pure := ⟨trivial, trivial⟩
    have e1 : (D.par gi gi).ev [L t, R t] = [L t * gIn, R t * gIn] := rfl
    have s3 : (D.seq (Dims.inputs l) rc).step (.two (Dims.inputs l).start m)
        (sums (Dims.inputs l).ins [L t * gIn, R t * gIn]) =
        (.two (Dims.inputs l).start (rc.step m (us t)).1, (rc.step m (us t)).2) := by
      rw [step_seq, step_pure _ (inputs_pure l), hin]
    have s2 : (D.merge (D.par gi gi) (.seq (Dims.inputs l) rc)).step
        (.two (D.par gi gi).start (.two (Dims.inputs l).start m)) [L t, R t] =
        (.two (D.par gi gi).start (.two (Dims.inputs l).start (rc.step m (us t)).1),
          (rc.step m (us t)).2) := by
      rw [step_merge, step_pure _ hp, e1]
      show (Mem.two _ ((D.seq (Dims.inputs l) rc).step _ (sums (Dims.inputs l).ins _)).1,
        ((D.seq (Dims.inputs l) rc).step _ (sums (Dims.inputs l).ins _)).2) = _
      rw [s3]
    show D.step (.split (.merge (.par gi gi) (.seq (Dims.inputs l) rc)) (.par go go)) _ _ = _
    rw [step_split, s2]
    have e2 : (D.merge (D.par gi gi) (.seq (Dims.inputs l) rc)).outs = y.length := r3
    have e3 : (D.par go go).ins = 2 := rfl
    rw [e2, e3]
    show (Mem.two _ ((D.par go go).step _ _).1, ((D.par go go).step _ _).2) = _
    rw [step_pure _ hq]
  have hmem : ∀ t, (d.process gIn gOut l n udvl udvnl y inits).mem (fun t => [L t, R t]) t =
      .two (.two (D.par gi gi).start (.two (Dims.inputs l).start (rc.mem us t))) (D.par go go).start := by
    intro t
    induction t with
    | zero => rfl
    | succ t ih =>
      rw [D.mem, ih, step1]
      rfl
  rw [D.out, hmem, step1]
  show (D.par go go).ev (copies (2 / y.length) (rc.out us t)) = _
  have := hout t
  rcases hy with h | h
  · rw [h] at this
    obtain ⟨b, hb⟩ := List.length_eq_one_iff.1 this
    rw [hb, h]
    rfl
  · rw [h] at this
    obtain ⟨b, c, hb⟩ := List.length_eq_two.1 this
    rw [hb, h]
    rfl

end Faust
end Pyphs
