/-
Property C23: bound and exit condition of the implicit solver.
-/
import Verif.Numeric.Interp
import Mathlib.Algebra.Field.Rat
import Mathlib.Algebra.Order.Ring.Rat

namespace Pyphs
namespace Numeric

variable {K : Type} [Field K] [LinearOrder K] {N : Type} [DecidableEq N]

theorem cond_true {P : Prog N K} {eps : K} {maxit : ℕ} {res step : N} {st : St N K} {it : ℕ}
    (h : P.cond eps maxit res step st it = some true) :
    (∃ r, P.get st res = some (.s r) ∧ eps < r) ∧ (∃ t, P.get st step = some (.s t) ∧ eps < t) ∧
      it < maxit := by
  unfold Prog.cond at h
  split at h
  · rename_i r hr
    split_ifs at h with h1
    · split at h
      · rename_i t ht
        simp only [Option.some.injEq, Bool.and_eq_true, decide_eq_true_eq] at h
        exact ⟨⟨r, hr, h1⟩, ⟨t, ht, h.1⟩, h.2⟩
      · simp at h
    · simp at h
  · simp at h

theorem cond_false {P : Prog N K} {eps : K} {maxit : ℕ} {res step : N} {st : St N K} {it : ℕ}
    (h : P.cond eps maxit res step st it = some false) :
    (∃ r, P.get st res = some (.s r) ∧ r ≤ eps) ∨ (∃ t, P.get st step = some (.s t) ∧ t ≤ eps) ∨
      maxit ≤ it := by
  unfold Prog.cond at h
  split at h
  · rename_i r hr
    split_ifs at h with h1
    · split at h
      · rename_i t ht
        simp only [Option.some.injEq, Bool.and_eq_false_iff, decide_eq_false_iff_not, not_lt] at h
        rcases h with h | h
        · exact .inr (.inl ⟨t, ht, by simpa using h⟩)
        · exact .inr (.inr h)
      · simp at h
    · exact .inl ⟨r, hr, by simpa using h1⟩
  · simp at h

theorem loop_fuel (P : Prog N K) (eps : K) (maxit : ℕ) (cmds : List (Cmd N)) (res step : N)
    (fuel it : ℕ) (st : St N K) (h : maxit < fuel + it) :
    P.loop eps maxit cmds res step fuel it st ≠ .fuel ∨ fuel = 0 := by
  induction fuel generalizing it st with
  | zero => exact .inr rfl
  | succ fuel ih =>
    left
    unfold Prog.loop
    cases hc : P.cond eps maxit res step st it with
    | none => simp
    | some b =>
      cases b with
      | false => simp
      | true =>
        simp only
        cases he : P.execs st cmds with
        | none => simp
        | some st' =>
          simp only
          rcases ih (it + 1) st' (by omega) with h1 | h1
          · exact h1
          · have := (cond_true hc).2.2; omega

/-- **C23**: whatever the functions and the starting point, the solver stops (with a result or
an exception of numpy): at most `maxit + 1` tests of the condition are made. -/
theorem C23_terminates (P : Prog N K) (eps : K) (maxit : ℕ) (cmds : List (Cmd N)) (res step : N)
    (st : St N K) (fuel : ℕ) (h : maxit < fuel) :
    P.iterexecs eps maxit cmds res step fuel st ≠ .fuel := by
  unfold Prog.iterexecs
  cases P.set st step (.s 1) with
  | none => simp
  | some st' =>
    rcases loop_fuel P eps maxit cmds res step fuel 0 st' (by omega) with h1 | h1
    · exact h1
    · omega

theorem loop_trace {P : Prog N K} {eps : K} {maxit : ℕ} {cmds : List (Cmd N)} {res step : N}
    {fuel it : ℕ} {st st' : St N K} {n : ℕ} (hit : it ≤ maxit)
    (h : P.loop eps maxit cmds res step fuel it st = .ok (st', n)) :
    it ≤ n ∧ n ≤ maxit ∧ ∃ tr : ℕ → St N K, tr it = st ∧ tr n = st' ∧
      (∀ k, it ≤ k → k < n → P.execs (tr k) cmds = some (tr (k + 1)) ∧
        (∃ r, P.get (tr k) res = some (.s r) ∧ eps < r) ∧
        (∃ t, P.get (tr k) step = some (.s t) ∧ eps < t)) ∧
      ((∃ r, P.get st' res = some (.s r) ∧ r ≤ eps) ∨
        (∃ t, P.get st' step = some (.s t) ∧ t ≤ eps) ∨ n = maxit) := by
  induction fuel generalizing it st with
  | zero => simp [Prog.loop] at h
  | succ fuel ih =>
    unfold Prog.loop at h
    cases hc : P.cond eps maxit res step st it with
    | none => simp [hc] at h
    | some b =>
      rw [hc] at h
      cases b with
      | false =>
        simp only [Run.ok.injEq, Prod.mk.injEq] at h
        obtain ⟨rfl, rfl⟩ := h
        refine ⟨le_rfl, hit, fun _ => st, rfl, rfl, fun k h1 h2 => by omega, ?_⟩
        rcases cond_false hc with h1 | h1 | h1
        · exact .inl h1
        · exact .inr (.inl h1)
        · exact .inr (.inr (by omega))
      | true =>
        simp only at h
        obtain ⟨c1, c2, c3⟩ := cond_true hc
        cases he : P.execs st cmds with
        | none => simp [he] at h
        | some s1 =>
          rw [he] at h
          simp only at h
          obtain ⟨h1, h2, tr, t0, tn, ts, hx⟩ := ih (by omega) h
          refine ⟨by omega, h2, fun k => if k = it then st else tr k, by simp, ?_, ?_, hx⟩
          · show (if n = it then st else tr n) = st'
            rw [if_neg (by omega)]; exact tn
          · intro k hk1 hk2
            by_cases hk : k = it
            · subst hk
              simp only [if_pos]
              rw [if_neg (by omega), t0]
              exact ⟨he, c1, c2⟩
            · simp only [if_neg hk]
              rw [if_neg (by omega)]
              exact ts k (by omega) hk2

/-- **C23**: when the solver stops with a result, it made `n ≤ maxit` iterations, each one on a
state whose residual and step were both above the tolerance, starting from the given state
with the step set to one; and at the end the residual is at most `eps`, or the last step is at
most `eps`, or `maxit` iterations were made. -/
theorem C23_exit {P : Prog N K} {eps : K} {maxit : ℕ} {cmds : List (Cmd N)} {res step : N}
    {fuel : ℕ} {st st' : St N K} {n : ℕ}
    (h : P.iterexecs eps maxit cmds res step fuel st = .ok (st', n)) :
    n ≤ maxit ∧ ∃ tr : ℕ → St N K, P.set st step (.s 1) = some (tr 0) ∧ tr n = st' ∧
      (∀ k < n, P.execs (tr k) cmds = some (tr (k + 1)) ∧
        (∃ r, P.get (tr k) res = some (.s r) ∧ eps < r) ∧
        (∃ t, P.get (tr k) step = some (.s t) ∧ eps < t)) ∧
      ((∃ r, P.get st' res = some (.s r) ∧ r ≤ eps) ∨
        (∃ t, P.get st' step = some (.s t) ∧ t ≤ eps) ∨ n = maxit) := by
  unfold Prog.iterexecs at h
  cases hs : P.set st step (.s 1) with
  | none => simp [hs] at h
  | some s0 =>
    rw [hs] at h
    obtain ⟨_, h2, tr, t0, tn, ts, hx⟩ := loop_trace (Nat.zero_le _) h
    exact ⟨h2, tr, by rw [t0], tn, fun k hk => ts k (Nat.zero_le _) hk, hx⟩

/-- **C23**: if the residual is already at most `eps`, no iteration is made: the arguments and
every computed value are unchanged, except the value of the step, which is set to one. -/
theorem C23_converged (P : Prog N K) (eps : K) (maxit : ℕ) (cmds : List (Cmd N)) (res step : N)
    (hne : res ≠ step) (hstep : P.argInds step = none) (st : St N K) (r : K)
    (hr : P.get st res = some (.s r)) (hle : r ≤ eps) (fuel : ℕ) :
    ∃ st', P.iterexecs eps maxit cmds res step (fuel + 1) st = .ok (st', 0) ∧
      st'.args = st.args ∧ ∀ n, n ≠ step → st'.vals n = st.vals n := by
  have hset : P.set st step (.s 1) =
      some { st with vals := Function.update st.vals step (some (.s 1)) } := by
    simp only [Prog.set, hstep]
  refine ⟨{ st with vals := Function.update st.vals step (some (.s 1)) }, ?_, rfl, ?_⟩
  · unfold Prog.iterexecs
    rw [hset]
    have hg : P.get { st with vals := Function.update st.vals step (some (.s 1)) } res =
        some (.s r) := by
      unfold Prog.get at hr ⊢
      split at hr
      · exact hr
      · exact (Function.update_of_ne hne _ _).trans hr
    simp only [Prog.loop, Prog.cond, hg, if_neg (not_lt.2 hle)]
  · intro n hn
    exact Function.update_of_ne hn _ _

/-- **C23**: the solver makes at least one iteration if the residual is above the tolerance,
`maxit` is positive and the tolerance is below one. -/
theorem C23_progress {P : Prog N K} {eps : K} {maxit : ℕ} {cmds : List (Cmd N)} {res step : N}
    {fuel : ℕ} {st st' : St N K} {n : ℕ} (hne : res ≠ step) (hstep : P.argInds step = none)
    (h : P.iterexecs eps maxit cmds res step fuel st = .ok (st', n)) (r : K)
    (hr : P.get st res = some (.s r)) (hgt : eps < r) (h1 : eps < 1) (hm : 0 < maxit) : 0 < n := by
  obtain ⟨_, tr, h0, hn, _, hx⟩ := C23_exit h
  by_contra hz
  obtain rfl : n = 0 := by omega
  subst hn
  simp only [Prog.set, hstep, Option.some.injEq] at h0
  rw [← h0] at hx
  have hg : P.get { st with vals := Function.update st.vals step (some (.s 1)) } res =
      some (.s r) := by
    unfold Prog.get at hr ⊢
    split at hr
    · exact hr
    · exact (Function.update_of_ne hne _ _).trans hr
  have hg2 : P.get { st with vals := Function.update st.vals step (some (.s (1 : K))) } step =
      some (.s 1) := by
    simp [Prog.get, hstep]
  rw [hg, hg2] at hx
  simp only [Option.some.injEq, NV.s.injEq, exists_eq_left'] at hx
  rcases hx with hx | hx | hx
  · exact absurd hx (not_le.2 hgt)
  · exact absurd hx (not_le.2 h1)
  · omega

/-! ### Example: Newton's method for `x² = 2` over the rationals -/

/-- Names of the example. -/
inductive ExN | x | F | J | res | save | step | udx
  deriving DecidableEq

/-- Newton's method. -/
def exP : Prog ExN ℚ where
  argInds := fun n => if n = .x then some [0] else none
  op := fun n => match n with
    | .res => some (.norm (.ref .F))
    | .save => some (.copy (.ref .F))
    | .step => some (.norm (.add (.ref .F) (.prod (.num (-1)) (.ref .save))))
    | .udx => some (.add (.ref .x) (.prod (.num (-1)) (.dot (.inv (.ref .J)) (.ref .F))))
    | _ => none
  func := fun n => match n with
    | .F => some fun a => .v [a.getD 0 0 ^ 2 - 2]
    | .J => some fun a => .m ⟨1, 1, fun _ _ => 2 * a.getD 0 0⟩
    | _ => none
  norm := fun l => (l.map fun t => if t < 0 then -t else t).sum

/-- Commands of the iterations. -/
def exC : List (Cmd ExN) :=
  [⟨.save, .save⟩, ⟨.J, .J⟩, ⟨.x, .udx⟩, ⟨.F, .F⟩, ⟨.res, .res⟩, ⟨.step, .step⟩]

/-- State before the iterations: `x = 1`. -/
def exS : St ExN ℚ :=
  { args := [1], vals := fun n => match n with
    | .F => some (.v [-1])
    | .res => some (.s 1)
    | _ => none }

example : (match exP.iterexecs (1 / 1000) 100 exC .res .step 101 exS with
    | .ok (s, n) => some (s.args, n)
    | _ => none) = some ([577 / 408], 3) := by decide +kernel

example : (match exP.iterexecs (1 / 1000) 2 exC .res .step 3 exS with
    | .ok (s, n) => some (s.args, n)
    | _ => none) = some ([17 / 12], 2) := by decide +kernel

end Numeric
end Pyphs
