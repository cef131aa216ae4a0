/-
Model of the evaluation of symbolic functions by a `Numeric`
(/repo/pyphs/numerics/tools/_lambdify.py:76-139,
/repo/pyphs/numerics/numerical_method/_method.py:200-256,
/repo/pyphs/numerics/numerical_core/_numerical_core.py:242-300) and property C25.

`sympy.lambdify` and `theano_function` are trusted to compile an expression into a function
with the values of the expression; types and floating-point rounding are not modelled. A vector
or matrix expression is the list of its entries.
-/
import Verif.Sym.Props
import Verif.Tools.Props

namespace Pyphs
namespace Numeric
open Sym

variable {K : Type} [Zero K]

/-- Free symbols of a vector or matrix expression. -/
def freeAll (E : List (Expr K)) : List String := E.flatMap Expr.free

/-- The body of a compiled function: `args` are the names of its parameters, `vals` the values
given at the call. -/
def bindEnv (args : List String) (vals : List K) : String → K :=
  fun s => ((args.zip vals).lookup s).getD 0

/-- _lambdify.py:76-139 `lambdify`; `none` is the `AttributeError` of line 128. -/
def lambdify (I : Interp K) (args : List String) (E : List (Expr K)) (subs : Dict (Val K)) :
    Option (List K → List K) :=
  let E' := E.map (Expr.subsDict (pairs subs))
  let missing := (freeAll E').filter fun s => decide (s ∉ args)
  if missing.length = 0 then some fun vals => E'.map (Expr.eval I (bindEnv args vals)) else none

/-- _method.py:246-256 `setfunc` with _numerical_core.py:242-300 `evalfunc_generator`: the
symbols of the expression are looked up in the list of all arguments, and the function is
applied to the values found at these indices in `nums.args`. -/
def evalfunc (I : Interp K) (subs : Dict (Val K)) (allArgs : List String) (E : List (Expr K)) :
    Option (List K → List K) := do
  let (args, inds) := find (freeAll E) allArgs
  let f ← lambdify I args E subs
  return fun nargs => f (inds.map fun i => nargs.getD i 0)

/-! ### C25 -/

omit [Zero K] in
theorem lookup_zip_map (args : List String) (e : String → K) {s : String}
    (h : s ∈ args) : (args.zip (args.map e)).lookup s = some (e s) := by
  induction args with
  | nil => simp at h
  | cons a l ih =>
    simp only [List.map_cons, List.zip_cons_cons, List.lookup_cons]
    by_cases hs : s = a
    · subst hs; simp
    · have h2 : (s == a) = false := by simpa using hs
      rw [h2]
      exact ih (by simpa [hs] using h)

theorem find_vals (symbs all : List String) (e : String → K) :
    (find symbs all).2.map (fun i => (all.map e).getD i 0) = (find symbs all).1.map e := by
  have h := C25_find_values symbs all e
  have := congrArg (List.map fun o : Option K => o.getD 0) h
  simpa [List.map_map, Function.comp_def, List.getD_eq_getElem?_getD] using this

/-- **C25**: whatever the order of the arguments of the method and of the free symbols of the
expression, the evaluator returns the value of the symbolic expression for the values `e` of
the symbols, as soon as `nums.args` holds the values of the arguments in their order and the
values `e` agree with the substitution dictionary. -/
theorem C25_value (I : Interp K) (subs : Dict (Val K)) (allArgs : List String)
    (E : List (Expr K)) (f : List K → List K) (hf : evalfunc I subs allArgs E = some f)
    (e : String → K) (hs : Agrees I e subs) :
    f (allArgs.map e) = E.map (Expr.eval I e) := by
  obtain ⟨g, hg, hfg⟩ := Option.bind_eq_some_iff.1 hf
  simp only [Option.pure_def, Option.some.injEq] at hfg
  subst hfg
  unfold lambdify at hg
  dsimp only at hg
  split_ifs at hg with hm
  simp only [Option.some.injEq] at hg
  subst hg
  have hm' := List.length_eq_zero_iff.1 hm
  rw [List.filter_eq_nil_iff] at hm'
  have hv := find_vals (freeAll E) allArgs e
  simp only [find] at hv
  show List.map _ _ = _
  rw [hv, List.map_map]
  apply List.map_congr_left
  intro a ha
  show Expr.eval I _ (Expr.subsDict (pairs subs) a) = _
  rw [Expr.eval_congr I (e' := e)]
  · apply Expr.eval_subsDict_same
    intro p hp
    obtain ⟨q, hq, rfl⟩ := List.mem_map.1 hp
    exact hs q hq
  · intro s hss
    have hin := hm' s (List.mem_flatMap.2 ⟨_, List.mem_map_of_mem ha, hss⟩)
    simp only [decide_not, Bool.not_eq_eq_eq_not, Bool.not_true, decide_eq_false_iff_not,
      not_not] at hin
    unfold bindEnv
    rw [lookup_zip_map _ e hin]
    rfl

/-- **C25**: the evaluator exists exactly when no symbol is left without a value, that is,
every symbol of the expression that has no entry in the substitutions, and every symbol in the
result of the substitution, is an argument that occurs in the expression. -/
theorem C25_error_iff (I : Interp K) (subs : Dict (Val K)) (allArgs : List String)
    (E : List (Expr K)) :
    evalfunc I subs allArgs E = none ↔
      ∃ a ∈ E, ∃ s ∈ (a.subsDict (pairs subs)).free, ¬ (s ∈ allArgs ∧ s ∈ freeAll E) := by
  have hfst : ∀ s, s ∈ (find (freeAll E) allArgs).1 ↔ s ∈ allArgs ∧ s ∈ freeAll E := by
    intro s; rw [(C25_find _ _).1]; simp
  constructor
  · intro h
    unfold evalfunc at h
    by_contra hne
    push Not at hne
    have : lambdify I (find (freeAll E) allArgs).1 E subs ≠ none := by
      unfold lambdify
      dsimp only
      rw [if_pos]
      · simp
      rw [List.length_eq_zero_iff, List.filter_eq_nil_iff]
      intro s hs
      obtain ⟨b, hb, hs⟩ := List.mem_flatMap.1 hs
      obtain ⟨a, ha, rfl⟩ := List.mem_map.1 hb
      have := (hfst s).2 (hne a ha s hs)
      simp [this]
    cases hl : lambdify I (find (freeAll E) allArgs).1 E subs with
    | none => exact this hl
    | some g => simp [hl] at h
  · rintro ⟨a, ha, s, hs, hns⟩
    unfold evalfunc
    have : lambdify I (find (freeAll E) allArgs).1 E subs = none := by
      unfold lambdify
      dsimp only
      rw [if_neg]
      rw [List.length_eq_zero_iff, List.filter_eq_nil_iff]
      intro h
      have := h s (List.mem_flatMap.2 ⟨_, List.mem_map_of_mem ha, hs⟩)
      rw [← hfst] at hns
      simp [hns] at this
    simp [this]

/-- **C25**: with numerical substitutions, the evaluator exists as soon as every symbol is an
argument or has a value. -/
theorem C25_exists (I : Interp K) (subs : Dict (Val K)) (allArgs : List String)
    (E : List (Expr K)) (hnum : ∀ p ∈ subs, ∃ c, p.2 = Val.num c)
    (hE : ∀ s ∈ freeAll E, s ∈ allArgs ∨ s ∈ Dict.keys subs) :
    ∃ f, evalfunc I subs allArgs E = some f := by
  rw [← Option.isSome_iff_exists, ← Option.ne_none_iff_isSome, Ne, C25_error_iff]
  rintro ⟨a, ha, s, hs, hns⟩
  rcases Expr.mem_free_subsDict hs with ⟨h1, h2⟩ | ⟨p, hp, hs⟩
  · have hin : s ∈ freeAll E := List.mem_flatMap.2 ⟨a, ha, h1⟩
    rcases hE s hin with h | h
    · exact hns ⟨h, hin⟩
    · apply h2
      obtain ⟨q, hq, rfl⟩ := List.mem_map.1 h
      exact List.mem_map.2 ⟨(q.1, q.2.expr), List.mem_map_of_mem hq, rfl⟩
  · obtain ⟨q, hq, rfl⟩ := List.mem_map.1 hp
    obtain ⟨c, hc⟩ := hnum q hq
    simp [hc, Val.expr, Expr.free] at hs

/-- **C25**: an argument that also has an entry in the substitutions (a parameter given both
a value and a place in `p`, for example) is frozen at the recorded value: the value found in
`nums.args` is ignored. -/
theorem C25_frozen (I : Interp K) (allArgs : List String) (s : String) (c : K)
    (vals : List K) :
    ∃ f, evalfunc I [(s, Val.num c)] allArgs [Expr.sym s] = some f ∧ f vals = [c] := by
  obtain ⟨f, hf⟩ := C25_exists I [(s, Val.num c)] allArgs [Expr.sym s] (by simp)
    (by intro t ht; simp [freeAll, Expr.free] at ht; simp [Dict.keys, ht])
  refine ⟨f, hf, ?_⟩
  obtain ⟨g, hg, hfg⟩ := Option.bind_eq_some_iff.1 hf
  simp only [Option.pure_def, Option.some.injEq] at hfg
  subst hfg
  unfold lambdify at hg
  dsimp only at hg
  split_ifs at hg with hm
  simp only [Option.some.injEq] at hg
  subst hg
  simp [Expr.subsDict, pairs, Expr.subsSeq, Expr.subs1, Val.expr, Expr.eval]

/-- Integer example: `x0 - k*dx1` with `k = 3`. -/
def exI : Interp ℤ :=
  { f1 := fun f a => if f = "neg" then -a else a,
    f2 := fun f a b => if f = "+" then a + b else a * b }

example : (evalfunc exI [("k", .num 3)] ["x0", "x1", "dx0", "dx1"]
    [.op2 "+" (.op1 "neg" (.op2 "*" (.sym "k") (.sym "dx1"))) (.sym "x0")]).map
      (fun f => f [10, 20, 1, 2]) = some [4] := by decide +kernel

example : (evalfunc exI [] ["x0"] [.sym "k"]).isNone := by decide +kernel

end Numeric
end Pyphs
