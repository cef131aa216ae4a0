/-
Values of diagrams without memory, and of the nested recursions.
-/
import Verif.Faust.Model
import Mathlib.Tactic.Ring
import Mathlib.Tactic.Linarith

namespace Pyphs
namespace Faust
namespace D
variable {K : Type}

/-- Diagrams without memory. -/
def Pure : D K → Prop
  | par a b => a.Pure ∧ b.Pure
  | seq a b => a.Pure ∧ b.Pure
  | split a b => a.Pure ∧ b.Pure
  | merge a b => a.Pure ∧ b.Pure
  | recu _ _ => False
  | pre _ => False
  | _ => True

/-- Outputs of a diagram without memory. -/
def ev [AddCommMonoid K] : D K → List K → List K
  | wire, i => i.take 1
  | fn _ f, i => [f i]
  | par a b, i => a.ev (i.take a.ins) ++ b.ev (i.drop a.ins)
  | seq a b, i => b.ev (a.ev i)
  | split a b, i => b.ev (copies (b.ins / a.outs) (a.ev i))
  | merge a b, i => b.ev (sums b.ins (a.ev i))
  | _, _ => []

theorem step_pure [AddCommMonoid K] : ∀ (d : D K), d.Pure → ∀ i, d.step d.start i = (d.start, d.ev i)
  | wire, _, _ => rfl
  | cut, _, _ => rfl
  | nul, _, _ => rfl
  | fn _ _, _, _ => rfl
  | par a b, h, i => by
    simp only [step, start, ev, step_pure a h.1, step_pure b h.2]
  | seq a b, h, i => by
    simp only [step, start, ev, step_pure a h.1, step_pure b h.2]
  | split a b, h, i => by
    simp only [step, start, ev, step_pure a h.1, step_pure b h.2]
  | merge a b, h, i => by
    simp only [step, start, ev, step_pure a h.1, step_pure b h.2]

theorem ev_par [AddCommMonoid K] {a b : D K} {i j : List K} (h : i.length = a.ins) :
    (par a b).ev (i ++ j) = a.ev i ++ b.ev j := by
  simp only [ev]
  rw [← h, List.take_left, List.drop_left]

end D

open D
variable {K : Type}

theorem pars_pure : ∀ (l : List (D K)), (∀ d ∈ l, d.Pure) → (pars l).Pure
  | [], _ => trivial
  | [a], h => h a (by simp)
  | a :: b :: l, h => ⟨h a (by simp), pars_pure (b :: l) fun d hd => h d (by simp [hd])⟩

theorem ins_pars : ∀ (l : List (D K)), (pars l).ins = (l.map ins).sum
  | [] => rfl
  | [a] => by simp [pars]
  | a :: b :: l => by
    simp only [pars, ins, ins_pars (b :: l), List.map_cons, List.sum_cons]

theorem outs_pars : ∀ (l : List (D K)), (pars l).outs = (l.map outs).sum
  | [] => rfl
  | [a] => by simp [pars]
  | a :: b :: l => by
    simp only [pars, outs, outs_pars (b :: l), List.map_cons, List.sum_cons]

theorem ok_pars : ∀ (l : List (D K)), (∀ d ∈ l, d.ok) → (pars l).ok
  | [], _ => trivial
  | [a], h => h a (by simp)
  | a :: b :: l, h => ⟨h a (by simp), ok_pars (b :: l) fun d hd => h d (by simp [hd])⟩

/-- Values of parallel diagrams. -/
theorem ev_pars_cons [AddCommMonoid K] {a : D K} {l : List (D K)} {i j : List K} (hi : i.length = a.ins)
    (hj : j.length = (pars l).ins) : (pars (a :: l)).ev (i ++ j) = a.ev i ++ (pars l).ev j := by
  cases l with
  | nil =>
    have : j = [] := List.eq_nil_of_length_eq_zero hj
    subst this
    simp [pars, ev]
  | cons b l =>
    show (D.par a (pars (b :: l))).ev _ = _
    rw [ev_par hi]

@[simp] theorem ins_pass (n : ℕ) : (pass n : D K).ins = n := by
  simp [pass, ins_pars, ins]
@[simp] theorem outs_pass (n : ℕ) : (pass n : D K).outs = n := by
  simp [pass, outs_pars, outs]
@[simp] theorem ins_term (n : ℕ) : (term n : D K).ins = n := by
  simp [term, ins_pars, ins]
@[simp] theorem outs_term (n : ℕ) : (term n : D K).outs = 0 := by
  simp [term, outs_pars, outs]
@[simp] theorem pure_pass (n : ℕ) : (pass n : D K).Pure :=
  pars_pure _ fun d h => by rw [(List.mem_replicate.1 h).2]; trivial
@[simp] theorem pure_term (n : ℕ) : (term n : D K).Pure :=
  pars_pure _ fun d h => by rw [(List.mem_replicate.1 h).2]; trivial
@[simp] theorem ok_pass (n : ℕ) : (pass n : D K).ok :=
  ok_pars _ fun d h => by rw [(List.mem_replicate.1 h).2]; trivial
@[simp] theorem ok_term (n : ℕ) : (term n : D K).ok :=
  ok_pars _ fun d h => by rw [(List.mem_replicate.1 h).2]; trivial

theorem ev_pass [AddCommMonoid K] : ∀ (n : ℕ) {i : List K}, i.length = n → (pass n).ev i = i
  | 0, i, h => by rw [List.eq_nil_of_length_eq_zero h]; rfl
  | n + 1, [], h => by simp at h
  | n + 1, a :: i, h => by
    have hi : i.length = n := by simpa using h
    have := ev_pars_cons (a := .wire) (l := List.replicate n .wire) (i := [a]) (j := i) rfl
      (by rw [show (pars (List.replicate n .wire) : D K) = pass n from rfl, ins_pass, hi])
    rw [show (pass (n + 1) : D K) = pars (.wire :: List.replicate n .wire) from rfl]
    simp only [List.cons_append, List.nil_append] at this
    rw [this, show (pars (List.replicate n .wire) : D K) = pass n from rfl, ev_pass n hi]
    rfl

theorem ev_term [AddCommMonoid K] : ∀ (n : ℕ) {i : List K}, i.length = n → (term n).ev i = []
  | 0, i, h => rfl
  | n + 1, [], h => by simp at h
  | n + 1, a :: i, h => by
    have hi : i.length = n := by simpa using h
    have := ev_pars_cons (a := .cut) (l := List.replicate n .cut) (i := [a]) (j := i) rfl
      (by rw [show (pars (List.replicate n .cut) : D K) = term n from rfl, ins_term, hi])
    rw [show (term (n + 1) : D K) = pars (.cut :: List.replicate n .cut) from rfl]
    simp only [List.cons_append, List.nil_append] at this
    rw [this, show (pars (List.replicate n .cut) : D K) = term n from rfl, ev_term n hi]
    rfl

/-- `!, _, ..., _` -/
theorem ev_tail [AddCommMonoid K] {n : ℕ} {i : List K} (h : i.length = n + 1) :
    (pars (.cut :: List.replicate n .wire)).ev i = i.drop 1 := by
  cases i with
  | nil => simp at h
  | cons a i =>
    have hi : i.length = n := by simpa using h
    have := ev_pars_cons (a := .cut) (l := List.replicate n .wire) (i := [a]) (j := i) rfl
      (by rw [show (pars (List.replicate n .wire) : D K) = pass n from rfl, ins_pass, hi])
    simp only [List.cons_append, List.nil_append] at this
    rw [this, show (pars (List.replicate n .wire) : D K) = pass n from rfl, ev_pass n hi]
    rfl

theorem tail_ins (n : ℕ) : (pars (.cut :: List.replicate n .wire) : D K).ins = n + 1 := by
  simp [ins_pars, ins]; omega
theorem tail_outs (n : ℕ) : (pars (.cut :: List.replicate n .wire) : D K).outs = n := by
  simp [outs_pars, outs]
theorem tail_pure (n : ℕ) : (pars (.cut :: List.replicate n .wire) : D K).Pure :=
  pars_pure _ fun d h => by
    rcases List.mem_cons.1 h with rfl | h
    · trivial
    · rw [(List.mem_replicate.1 h).2]; trivial
theorem tail_ok (n : ℕ) : (pars (.cut :: List.replicate n .wire) : D K).ok :=
  ok_pars _ fun d h => by
    rcases List.mem_cons.1 h with rfl | h
    · trivial
    · rw [(List.mem_replicate.1 h).2]; trivial

theorem copies_one (l : List K) : copies 1 l = l := by simp [copies]
theorem copies_two (l : List K) : copies 2 l = l ++ l := by simp [copies]
theorem copies_three (l : List K) : copies 3 l = l ++ (l ++ l) := by simp [copies]
theorem copies_four (l : List K) : copies 4 l = l ++ (l ++ (l ++ l)) := by simp [copies]

/-- A diagram `s` that behaves as the function `Φ` of `k` memorised values and of its inputs: the `k` first
outputs of `Φ` are memorised, the others are the outputs, and the memorised values come back after **two**
samples. `p` are the values at this sample, `q` those at the next sample. -/
structure Sim [AddCommMonoid K] (Φ : List K → List K) (nin nout k : ℕ) (s : D K) (p₀ : List K)
    (R : Mem K → List K → List K → Prop) : Prop where
  ins : s.ins = nin - k
  outs : s.outs = nout - k
  start : R s.start p₀ (List.replicate k 0)
  len : ∀ M p q, R M p q → p.length = k ∧ q.length = k
  out : ∀ M p q i, R M p q → i.length = nin - k → (s.step M i).2 = (Φ (p ++ i)).drop k
  next : ∀ M p q i, R M p q → i.length = nin - k → R (s.step M i).1 q ((Φ (p ++ i)).take k)

theorem sim_step [AddCommMonoid K] {Φ : List K → List K} {nin nout k : ℕ} {s : D K} {p₀ : List K}
    {R : Mem K → List K → List K → Prop} (hΦ : ∀ l, l.length = nin → (Φ l).length = nout)
    (hS : Sim Φ nin nout k s p₀ R) (c : K) (r : ℕ) (hin : k < nin) (hout : nout = k + 1 + r) :
    ∃ R', Sim Φ nin nout (k + 1) (.split (.recu s (.pre c)) (pars (.cut :: List.replicate r .wire)))
      (p₀ ++ [c]) R' := by
  have hso : s.outs = r + 1 := by rw [hS.outs]; omega
  set T : D K := pars (.cut :: List.replicate r .wire) with hT
  have hTp : T.Pure := tail_pure r
  refine ⟨fun M' p' q' => ∃ M p q c' last, M' = .two (.fb M (.val c') last) T.start ∧ R M p q ∧
    last.length = r + 1 ∧ p' = p ++ [c'] ∧ q' = q ++ [last.getD 0 0], ?_⟩
  have key : ∀ M p q c' last i, R M p q → last.length = r + 1 → i.length = nin - (k + 1) →
      (D.split (.recu s (.pre c)) T).step (.two (.fb M (.val c') last) T.start) i =
        (.two (.fb (s.step M (c' :: i)).1 (.val (last.getD 0 0)) (s.step M (c' :: i)).2) T.start,
          (s.step M (c' :: i)).2.drop 1) ∧ (s.step M (c' :: i)).2.length = r + 1 := by
    intro M p q c' last i hR hl hi
    have hi' : (c' :: i).length = nin - k := by simp only [List.length_cons, hi]; omega
    have hlen : (s.step M (c' :: i)).2.length = r + 1 := by
      rw [hS.out M p q _ hR hi', List.length_drop, hΦ]
      · omega
      · rw [List.length_append, (hS.len M p q hR).1, hi']; omega
    refine ⟨?_, hlen⟩
    have e1 : (last.take 1).getD 0 0 = last.getD 0 0 := by
      cases last with
      | nil => simp at hl
      | cons a l => rfl
    simp only [D.step, D.ins, D.outs, List.singleton_append]
    rw [step_pure T hTp, e1, hso]
    rw [show T.ins = r + 1 from tail_ins r, Nat.div_self (by omega), copies_one, hT, ev_tail hlen]
  refine ⟨?_, ?_, ?_, ?_, ?_, ?_⟩
  · simp only [D.ins, D.outs, hS.ins]; omega
  · simp only [D.outs]
    rw [hT, tail_outs]; omega
  · refine ⟨s.start, p₀, _, c, List.replicate s.outs 0, rfl, hS.start, by simp [hso], rfl, ?_⟩
    rw [hso, List.replicate_succ', List.replicate_succ]; rfl
  · rintro M p q ⟨M, p, q, c', last, rfl, hR, hl, rfl, rfl⟩
    have := hS.len M p q hR
    simp [this]
  · rintro M p q i ⟨M, p, q, c', last, rfl, hR, hl, rfl, rfl⟩ hi
    obtain ⟨k1, k2⟩ := key M p q c' last i hR hl hi
    have hi' : (c' :: i).length = nin - k := by simp only [List.length_cons, hi]; omega
    rw [k1]
    show List.drop 1 _ = _
    rw [hS.out M p q _ hR hi', List.drop_drop, List.append_assoc]; rfl
  · rintro M p q i ⟨M, p, q, c', last, rfl, hR, hl, rfl, rfl⟩ hi
    obtain ⟨k1, k2⟩ := key M p q c' last i hR hl hi
    have hi' : (c' :: i).length = nin - k := by simp only [List.length_cons, hi]; omega
    rw [k1]
    refine ⟨_, q, _, last.getD 0 0, _, rfl, hS.next M p q _ hR hi', k2, rfl, ?_⟩
    have e : (p ++ [c']) ++ i = p ++ c' :: i := by simp
    have hL : k < (Φ (p ++ c' :: i)).length := by
      rw [hΦ]
      · omega
      · rw [List.length_append, (hS.len M p q hR).1, hi']; omega
    rw [e, hS.out M p q _ hR hi', List.take_succ, List.getElem?_eq_getElem hL]
    simp [List.getD_eq_getElem?_getD, hL]

theorem sim_recursive [AddCommMonoid K] {Φ : List K → List K} {nin nout ny : ℕ}
    (hΦ : ∀ l, l.length = nin → (Φ l).length = nout) :
    ∀ (inits : List K) (k : ℕ) (s : D K) (p₀ : List K) (R : Mem K → List K → List K → Prop),
      Sim Φ nin nout k s p₀ R → k + inits.length ≤ nin → nout = k + inits.length + ny →
      ∃ R', Sim Φ nin nout (k + inits.length) (Dims.recursive ny inits s) (p₀ ++ inits) R'
  | [], k, s, p₀, R, hS, _, _ => ⟨R, by simpa [Dims.recursive] using hS⟩
  | c :: rest, k, s, p₀, R, hS, h1, h2 => by
    simp only [List.length_cons] at h1 h2
    obtain ⟨R', h'⟩ := sim_step hΦ hS c (rest.length + ny) (by omega) (by omega)
    obtain ⟨R'', h''⟩ := sim_recursive (ny := ny) hΦ rest (k + 1) _ _ R' h' (by omega) (by omega)
    refine ⟨R'', ?_⟩
    simp only [Dims.recursive, List.length_cons]
    rw [show k + (rest.length + 1) = k + 1 + rest.length by omega,
      show p₀ ++ c :: rest = p₀ ++ [c] ++ rest by simp]
    exact h''

theorem sim_pure [AddCommMonoid K] {s : D K} (hs : s.Pure) :
    Sim s.ev s.ins s.outs 0 s [] fun M p q => M = s.start ∧ p = [] ∧ q = [] where
  ins := by simp
  outs := by simp
  start := ⟨rfl, rfl, rfl⟩
  len := by rintro M p q ⟨-, rfl, rfl⟩; simp
  out := by rintro M p q i ⟨rfl, rfl, rfl⟩ _; simp [step_pure s hs]
  next := by rintro M p q i ⟨rfl, rfl, rfl⟩ _; simp [step_pure s hs]

end Faust
end Pyphs
