/-
Property C27: the point at which the structure matrix and the dissipation laws are
evaluated by the numerical method.
-/
import Verif.Sym.Props
import Mathlib.Tactic.LinearCombination

namespace Pyphs
namespace Sym
open Expr
variable {K : Type} [Field K]

/-- `+` and `*` have their usual meaning. -/
structure Interp.Std (I : Interp K) : Prop where
  add : ∀ a b, I.f2 "+" a b = a + b
  mul : ∀ a b, I.f2 "*" a b = a * b

/-- Values of the symbols at the point `x + theta*dx` (specification); `d` gives the symbol of
the increment of a state. -/
def atTheta (xs : List String) (d : String → String) (theta : K) (e : String → K) : String → K :=
  fun s => if s ∈ xs then e s + theta * e (d s) else e s

/-- Names of states, increments and gradient symbols are distinct. -/
structure Names (xs gs : List String) (d : String → String) : Prop where
  x : xs.Nodup
  g : gs.Nodup
  dx : ∀ x ∈ xs, d x ∉ xs
  dg : ∀ x ∈ xs, d x ∉ gs
  xg : ∀ x ∈ xs, x ∉ gs

omit [Field K] in
theorem subs1_not_free {x : String} {r a : Expr K} (h : x ∉ a.free) : subs1 x r a = a := by
  induction a with
  | const c => rfl
  | sym s => simp only [free, List.mem_singleton] at h; simp [subs1, Ne.symm h]
  | op1 f a ih => simp only [subs1]; rw [ih h]
  | op2 f a b iha ihb =>
    simp only [free, List.mem_append, not_or] at h
    simp only [subs1]; rw [iha h.1, ihb h.2]

omit [Field K] in
/-- Replacements of symbols that occur nowhere may be dropped. -/
theorem subsSeq_filter (gs : List String) (l : List (String × Expr K)) (a : Expr K)
    (ha : ∀ s ∈ gs, s ∉ a.free) (hl : ∀ p ∈ l, p.1 ∉ gs → ∀ s ∈ gs, s ∉ p.2.free) :
    subsSeq l a = subsSeq (l.filter fun p => decide (p.1 ∉ gs)) a := by
  induction l generalizing a with
  | nil => rfl
  | cons p l ih =>
    have hl' : ∀ q ∈ l, q.1 ∉ gs → ∀ s ∈ gs, s ∉ q.2.free := fun q hq => hl q (by simp [hq])
    show subsSeq l (subs1 p.1 p.2 a) = _
    by_cases hp : p.1 ∈ gs
    · rw [List.filter_cons_of_neg (by simpa using hp), subs1_not_free (ha _ hp)]
      exact ih a ha hl'
    · rw [List.filter_cons_of_pos (by simpa using hp)]
      show _ = subsSeq _ (subs1 p.1 p.2 a)
      refine ih _ (fun s hs h0 => ?_) hl'
      rcases mem_free_subs1 h0 with ⟨h1, _⟩ | ⟨_, h1⟩
      · exact ha s hs h1
      · exact hl p (by simp) hp s hs h1

theorem mem_thetaDict {xs gs : List String} {d : String → String} {grad : List (Expr K)} {θ : K}
    {p : String × Expr K} (h : p ∈ thetaDict xs (xs.map d) gs grad θ) :
    (p ∈ gs.zip grad ∧ p.1 ∈ gs) ∨ (p.1 ∈ xs ∧ p.2 = shifted θ p.1 (d p.1)) := by
  unfold thetaDict at h
  rcases List.mem_append.1 h with h | h
  · exact .inl ⟨h, (List.of_mem_zip h).1⟩
  · obtain ⟨q, hq, rfl⟩ := List.mem_map.1 h
    have : ∀ l : List String, q ∈ l.zip (l.map d) → q.2 = d q.1 ∧ q.1 ∈ l := by
      intro l
      induction l with
      | nil => simp
      | cons x l ih =>
        intro hq
        rcases List.mem_cons.1 hq with rfl | hq
        · simp
        · exact ⟨(ih hq).1, List.mem_cons_of_mem _ (ih hq).2⟩
    have := this xs hq
    exact .inr ⟨this.2, by rw [this.1]⟩

theorem filter_thetaDict {xs gs : List String} {d : String → String} (hn : Names xs gs d)
    (grad : List (Expr K)) (θ : K) :
    (thetaDict xs (xs.map d) gs grad θ).filter (fun p => decide (p.1 ∉ gs)) =
      xs.map fun x => (x, shifted θ x (d x)) := by
  unfold thetaDict
  rw [List.filter_append, List.filter_eq_nil_iff.2 (fun p hp => by
    simpa using (List.of_mem_zip hp).1), List.nil_append]
  have : ∀ l : List String, (l.zip (l.map d)).map (fun p => (p.1, shifted θ p.1 p.2)) =
      l.map fun x => (x, shifted θ x (d x)) := by
    intro l
    induction l with
    | nil => rfl
    | cons x l ih => simp [ih]
  rw [this, List.filter_eq_self.2]
  intro p hp
  obtain ⟨x, hx, rfl⟩ := List.mem_map.1 hp
  simpa using hn.xg x hx

/-- Symbols of the evaluated expression. -/
theorem free_buildStructure {xs gs : List String} {d : String → String} (hn : Names xs gs d)
    {grad : List (Expr K)} (hg : ∀ b ∈ grad, ∀ s ∈ gs, s ∉ b.free) (hl : gs.length = grad.length)
    (θ : K) (a : Expr K) : ∀ s ∈ gs, s ∉ (buildStructure xs (xs.map d) gs grad θ a).free := by
  intro s hs h
  rcases mem_free_subsDict h with ⟨_, h2⟩ | ⟨p, hp, h2⟩
  · apply h2
    unfold thetaDict
    rw [List.map_append, List.mem_append]
    left
    have : (gs.zip grad).map (·.1) = gs := List.map_fst_zip (by omega)
    rw [this]; exact hs
  · rcases mem_thetaDict hp with ⟨h3, _⟩ | ⟨h3, h4⟩
    · exact hg p.2 (List.of_mem_zip h3).2 s hs h2
    · rw [h4] at h2
      simp only [shifted, free, List.nil_append, List.cons_append, List.mem_cons,
        List.not_mem_nil, or_false] at h2
      rcases h2 with rfl | rfl
      · exact hn.xg _ h3 hs
      · exact hn.dg _ h3 hs

/-- One evaluation of an expression without gradient symbols: the value at `x + theta*dx`. -/
theorem eval_buildStructure (I : Interp K) (hI : I.Std) {xs gs : List String}
    {d : String → String} (hn : Names xs gs d) (grad : List (Expr K)) (θ : K) (a : Expr K)
    (ha : ∀ s ∈ gs, s ∉ a.free) (e : String → K) :
    (buildStructure xs (xs.map d) gs grad θ a).eval I e = a.eval I (atTheta xs d θ e) := by
  unfold buildStructure subsDict
  set l := thetaDict xs (xs.map d) gs grad θ
  rw [subsSeq_filter gs _ a ha]
  · have hp : (xs.map fun x => (x, shifted θ x (d x))).Perm
        ((l.insertionSort fun p q => p.1 ≤ q.1).filter fun p => decide (p.1 ∉ gs)) := by
      rw [← filter_thetaDict hn grad θ]
      exact ((List.perm_insertionSort _ l).symm).filter _
    have hu : Unchained (xs.map fun x => (x, shifted θ x (d x))) := by
      constructor
      · rw [List.map_map]
        simpa [Function.comp_def] using hn.x
      · intro p hp q hq hne hf
        obtain ⟨x, hx, rfl⟩ := List.mem_map.1 hp
        obtain ⟨y, hy, rfl⟩ := List.mem_map.1 hq
        simp only [shifted, free, List.nil_append, List.cons_append, List.mem_cons,
          List.not_mem_nil, or_false] at hf
        rcases hf with rfl | h
        · exact hne rfl
        · exact hn.dx x hx (h ▸ hy)
    rw [eval_subsSeq I _ (hu.perm hp), substEnv_perm I hu hp]
    congr 1
    funext s
    unfold substEnv atTheta
    by_cases hs : s ∈ xs
    · have : (s, shifted θ s (d s)) ∈ xs.map fun x => (x, shifted θ x (d x)) :=
        List.mem_map.2 ⟨s, hs, rfl⟩
      rw [lookup_some hu.nodup this, if_pos hs]
      simp [shifted, Expr.eval, hI.add, hI.mul]
    · rw [lookup_none (by simpa [Function.comp_def] using hs), if_neg hs]
  · intro p hp hpg s hs hf
    have hp' : p ∈ l := (List.mem_insertionSort _).1 hp
    rcases mem_thetaDict hp' with ⟨_, h3⟩ | ⟨h3, h4⟩
    · exact hpg h3
    · rw [h4] at hf
      simp only [shifted, free, List.nil_append, List.cons_append, List.mem_cons,
        List.not_mem_nil, or_false] at hf
      rcases hf with rfl | rfl
      · exact hn.xg _ h3 hs
      · exact hn.dg _ h3 hs

/-- **C27**, without the option `split`: every entry of the structure matrix and every
dissipation law (free of gradient symbols) is evaluated at `x + theta*dx`. -/
theorem C27_theta (I : Interp K) (hI : I.Std) {xs gs : List String} {d : String → String}
    (hn : Names xs gs d) (grad : List (Expr K)) (θ : K) (a : Expr K)
    (ha : ∀ s ∈ gs, s ∉ a.free) (e : String → K) :
    (methodStructure false xs (xs.map d) gs grad θ a).eval I e =
      a.eval I (atTheta xs d θ e) :=
  eval_buildStructure I hI hn grad θ a ha e

/-- **C27**, disagreement: with the option `split` (the default) the substitution is applied
twice and the evaluation point is `x + 2*theta*dx`. -/
theorem C27_split (I : Interp K) (hI : I.Std) {xs gs : List String} {d : String → String}
    (hn : Names xs gs d) (grad : List (Expr K)) (hg : ∀ b ∈ grad, ∀ s ∈ gs, s ∉ b.free)
    (hl : gs.length = grad.length) (θ : K) (a : Expr K)
    (ha : ∀ s ∈ gs, s ∉ a.free) (e : String → K) :
    (methodStructure true xs (xs.map d) gs grad θ a).eval I e =
      a.eval I (atTheta xs d (2 * θ) e) := by
  show (buildStructure xs (xs.map d) gs grad θ (buildStructure xs (xs.map d) gs grad θ a)).eval I e = _
  rw [eval_buildStructure I hI hn grad θ _ (free_buildStructure hn hg hl θ a),
    eval_buildStructure I hI hn grad θ a ha]
  congr 1
  funext s
  unfold atTheta
  by_cases hs : s ∈ xs
  · simp only [hs, if_true, hn.dx s hs, if_false]; ring
  · simp [hs]

/-- **C27**: so the documented point is not the one used as soon as `theta` is not zero. -/
theorem C27_split_counterexample (I : Interp K) (hI : I.Std) (θ : K) (hθ : θ ≠ 0) :
    ∃ e : String → K,
      (methodStructure true ["x"] ["dx"] ["gx"] [.sym "x"] θ (.sym "x")).eval I e ≠
        (Expr.sym "x").eval I (atTheta ["x"] (fun s => "d" ++ s) θ e) := by
  refine ⟨fun s => if s = "dx" then 1 else 0, ?_⟩
  have hn : Names ["x"] ["gx"] (fun s => "d" ++ s) :=
    ⟨by decide, by decide, by decide, by decide, by decide⟩
  have h := C27_split I hI hn [.sym "x"] (by simp [free]) rfl θ (.sym "x") (by simp [free])
    (fun s => if s = "dx" then 1 else 0)
  have hd : ["x"].map (fun s => "d" ++ s) = ["dx"] := by decide
  have hd1 : "d" ++ "x" = "dx" := by decide
  rw [hd] at h
  rw [h]
  simp only [Expr.eval, atTheta, List.mem_singleton, if_true, hd1]
  intro h0
  apply hθ
  simp at h0
  linear_combination h0

/-- The gradient symbols assigned to the discrete gradient. -/
theorem eval_zero (I : Interp K) (hI : I.Std) {xs gs : List String} {d : String → String}
    (hn : Names xs gs d) (grad : List (Expr K)) (hg : ∀ b ∈ grad, ∀ s ∈ gs, s ∉ b.free)
    (a : Expr K) (e : String → K) :
    (buildStructure xs (xs.map d) gs grad 0 a).eval I e =
      a.eval I (substEnv I (gs.zip grad) e) := by
  unfold buildStructure subsDict
  set l := thetaDict xs (xs.map d) gs grad 0 with hl
  -- for any list made of such pairs
  have key : ∀ (m : List (String × Expr K)) (a : Expr K), (∀ p ∈ m, p ∈ l) →
      ((m.filter fun p => decide (p.1 ∈ gs)).map (·.1)).Nodup →
      (subsSeq m a).eval I e =
        a.eval I (substEnv I (m.filter fun p => decide (p.1 ∈ gs)) e) := by
    intro m
    induction m with
    | nil => intro a _ _; rfl
    | cons p m ih =>
      intro a hm hnd
      show (subsSeq m (subs1 p.1 p.2 a)).eval I e = _
      rcases mem_thetaDict (hm p (by simp)) with ⟨h1, h2⟩ | ⟨h1, h2⟩
      · rw [List.filter_cons_of_pos (by simpa using h2)] at hnd ⊢
        have hnd' := List.nodup_cons.1 (by simpa using hnd :
          (p.1 :: (m.filter fun p => decide (p.1 ∈ gs)).map (·.1)).Nodup)
        rw [ih _ (fun q hq => hm q (by simp [hq])) hnd'.2, eval_subs1]
        have hp : p.2.eval I (substEnv I (m.filter fun p => decide (p.1 ∈ gs)) e) = p.2.eval I e := by
          refine eval_congr I _ fun s hs => ?_
          unfold substEnv
          rw [lookup_none]
          intro h0
          obtain ⟨q, hq, rfl⟩ := List.mem_map.1 h0
          have := (List.mem_filter.1 hq).2
          exact hg p.2 (List.of_mem_zip h1).2 q.1 (by simpa using this) hs
        rw [hp]
        congr 1
        funext s
        unfold substEnv
        rw [List.lookup_cons]
        by_cases hs : s = p.1
        · subst hs; simp
        · rw [Function.update_of_ne hs]
          have : (s == p.1) = false := by simpa using hs
          rw [this]
      · rw [List.filter_cons_of_neg (by simpa using hn.xg _ h1)] at hnd ⊢
        rw [ih _ (fun q hq => hm q (by simp [hq])) hnd, eval_subs1, h2]
        congr 1
        simp only [shifted, Expr.eval, hI.add, hI.mul, zero_mul, add_zero]
        exact Function.update_eq_self _ _
  have hfl : l.filter (fun p => decide (p.1 ∈ gs)) = gs.zip grad := by
    rw [hl]
    unfold thetaDict
    rw [List.filter_append, List.filter_eq_self.2 (fun p hp => by
      simpa using (List.of_mem_zip hp).1)]
    have : ((xs.zip (xs.map d)).map fun p => (p.1, shifted (0 : K) p.1 p.2)).filter
        (fun p => decide (p.1 ∈ gs)) = [] := by
      rw [List.filter_eq_nil_iff]
      intro p hp
      obtain ⟨q, hq, rfl⟩ := List.mem_map.1 hp
      simpa using hn.xg _ (List.of_mem_zip hq).1
    rw [this, List.append_nil]
  have hperm : (gs.zip grad).Perm
      ((l.insertionSort fun p q => p.1 ≤ q.1).filter fun p => decide (p.1 ∈ gs)) := by
    rw [← hfl]; exact ((List.perm_insertionSort _ l).symm).filter _
  have hu : Unchained (gs.zip grad) := by
    constructor
    · have : ∀ (l : List String) (r : List (Expr K)), ((l.zip r).map (·.1)).Sublist l := by
        intro l
        induction l with
        | nil => simp
        | cons x l ih =>
          intro r
          cases r with
          | nil => simp
          | cons y r => simpa using (ih r).cons_cons x
      exact (this gs grad).nodup hn.g
    · intro p hp q hq _
      exact hg p.2 (List.of_mem_zip hp).2 q.1 (List.of_mem_zip hq).1
  rw [key _ a (fun p hp => (List.mem_insertionSort _).1 hp)
    ((hperm.map _).nodup_iff.1 hu.nodup), substEnv_perm I hu hperm]

/-- **C27**, default value `theta = 0`, with or without the option `split`: the structure is
evaluated at `x`, with the discrete gradient in place of the gradient symbols. -/
theorem C27_theta_zero (I : Interp K) (hI : I.Std) {xs gs : List String} {d : String → String}
    (hn : Names xs gs d) (grad : List (Expr K)) (hg : ∀ b ∈ grad, ∀ s ∈ gs, s ∉ b.free)
    (hl : gs.length = grad.length) (split : Bool) (a : Expr K) (e : String → K) :
    (methodStructure split xs (xs.map d) gs grad 0 a).eval I e =
      a.eval I (substEnv I (gs.zip grad) e) := by
  cases split with
  | false => exact eval_zero I hI hn grad hg a e
  | true =>
    show (buildStructure xs (xs.map d) gs grad 0
      (buildStructure xs (xs.map d) gs grad 0 a)).eval I e = _
    rw [eval_buildStructure I hI hn grad 0 _ (free_buildStructure hn hg hl 0 a),
      show atTheta xs d (0 : K) e = e from funext fun s => by simp [atTheta],
      eval_zero I hI hn grad hg]

/-- **C27**, disagreement: when `theta` is not zero, a gradient symbol in the structure or in
a law is replaced by the discrete gradient and then the states in the latter are shifted, if
the name of the gradient symbol comes before the name of the state. -/
theorem C27_gradient_shifted :
    methodStructure false ["x"] ["dx"] ["gx"] [.sym "x"] (1 : ℚ) (.sym "gx") =
      shifted 1 "x" "dx" ∧
    methodStructure false ["a"] ["da"] ["ga"] [.sym "a"] (1 : ℚ) (.sym "ga") = .sym "a" := by
  constructor <;> decide +kernel

/-- **C27**, trapezoidal rule without the option `split`: the mean of the values at `x` and at
`x + dx`. -/
theorem C27_trapez (I : Interp K) (hI : I.Std) {xs gs : List String} {d : String → String}
    (hn : Names xs gs d) (grad : List (Expr K)) (half : K) (a : Expr K)
    (ha : ∀ s ∈ gs, s ∉ a.free) (e : String → K) :
    (methodStructureTrapez false xs (xs.map d) gs grad 1 half a).eval I e =
      half * (a.eval I e + a.eval I (atTheta xs d 1 e)) := by
  show (buildStructureTrapez xs (xs.map d) gs grad 1 half a).eval I e = _
  have := eval_buildStructure I hI hn grad 1 a ha e
  unfold buildStructure at this
  simp only [buildStructureTrapez, Expr.eval, hI.add, hI.mul, this]

/-- **C27**, disagreement: trapezoidal rule with the option `split`, the weights 1/4, 1/2, 1/4
at `x`, `x + dx` and `x + 2*dx`. -/
theorem C27_trapez_split (I : Interp K) (hI : I.Std) {xs gs : List String} {d : String → String}
    (hn : Names xs gs d) (grad : List (Expr K)) (hg : ∀ b ∈ grad, ∀ s ∈ gs, s ∉ b.free)
    (hl : gs.length = grad.length) (half : K) (a : Expr K)
    (ha : ∀ s ∈ gs, s ∉ a.free) (e : String → K) :
    (methodStructureTrapez true xs (xs.map d) gs grad 1 half a).eval I e =
      half * half * (a.eval I e + 2 * a.eval I (atTheta xs d 1 e) +
        a.eval I (atTheta xs d 2 e)) := by
  have hb : ∀ s ∈ gs, s ∉ (buildStructureTrapez xs (xs.map d) gs grad 1 half a).free := by
    intro s hs h
    simp only [buildStructureTrapez, free, List.nil_append, List.mem_append] at h
    rcases h with h | h
    · exact ha s hs h
    · exact free_buildStructure hn hg hl 1 a s hs h
  have h1 : ∀ b : Expr K, (∀ s ∈ gs, s ∉ b.free) → ∀ e,
      (buildStructureTrapez xs (xs.map d) gs grad 1 half b).eval I e =
      half * (b.eval I e + b.eval I (atTheta xs d 1 e)) :=
    fun b hb e => C27_trapez I hI hn grad half b hb e
  show (buildStructureTrapez xs (xs.map d) gs grad 1 half
    (buildStructureTrapez xs (xs.map d) gs grad 1 half a)).eval I e = _
  rw [h1 _ hb, h1 a ha, h1 a ha]
  have : atTheta xs d (1 : K) (atTheta xs d 1 e) = atTheta xs d 2 e := by
    funext s
    unfold atTheta
    by_cases hs : s ∈ xs
    · simp only [hs, if_true, hn.dx s hs, if_false]; ring
    · simp [hs]
  rw [this]; ring

/-- The hypotheses on names are met. -/
example : Names ["x1", "x2"] ["gx1", "gx2"] (fun s => "d" ++ s) :=
  ⟨by decide, by decide, by decide, by decide, by decide⟩

example : Interp.Std (⟨fun _ a => a, fun f a b => if f = "+" then a + b else a * b⟩ : Interp ℚ) :=
  ⟨fun a b => by simp, fun a b => by simp⟩

end Sym
end Pyphs
