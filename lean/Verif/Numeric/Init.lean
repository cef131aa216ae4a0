/-
Initial values of a `Numeric` (C38): model of `Numeric.init` and of the beginning of `build`
(/repo/pyphs/numerics/numerical_core/_numerical_core.py:69-108).
-/
import Verif.Numeric.Slots

namespace Pyphs
namespace Numeric
open Sym

variable {K : Type} [Field K] [LinearOrder K] {N : Type} [DecidableEq N]

/-- Exceptions: no such argument; wrong shape. -/
inductive IErr
  | attribute | type
  deriving DecidableEq

/-- One turn of the loop 74-88. A value `none` is None. The shape of an argument is `(n, )`. -/
def initOne (P : Prog N K) (st : St N K) (n : N) (val : Option (NV K)) : Except IErr (St N K) :=
  match P.argInds n with
  | none => .error .attribute
  | some inds =>
    match val with
    | none => .ok { st with args := assign st.args inds (List.replicate inds.length 0) }
    | some (.v w) =>
      if w.length = inds.length then .ok { st with args := assign st.args inds w }
      else .error .type
    | some _ => .error .type

/-- Lines 69-88 `init`. -/
def initLoop (P : Prog N K) : St N K → List (N × Option (NV K)) → Except IErr (St N K)
  | st, [] => .ok st
  | st, (n, val) :: l => do
    let st' ← initOne P st n val
    initLoop P st' l

/-- Lines 90-103: the array of arguments is zero, then `init`. -/
def initNumeric (P : Prog N K) (nargs : ℕ) (inits : List (N × Option (NV K))) :
    Except IErr (St N K) :=
  initLoop P ⟨List.replicate nargs 0, fun _ => none⟩ inits

/-- Specification: a value accepted for an argument with `n` components. -/
def Accepts (n : ℕ) : Option (NV K) → Prop
  | none => True
  | some (.v w) => w.length = n
  | some _ => False

/-- Specification: the components it gives. -/
def given (n : ℕ) : Option (NV K) → List K
  | some (.v w) => w
  | _ => List.replicate n 0

variable {P : Prog N K} {all : List String} {syms : N → Option (List String)}

theorem initOne_ok (hP : LaidOut P all syms) (hn : all.Nodup) {st : St N K}
    (hl : st.args.length = all.length) {n : N} {l : List String} (hs : syms n = some l)
    (hsub : l.Sublist all) {val : Option (NV K)} (hv : Accepts l.length val) :
    ∃ st', initOne P st n val = .ok st' ∧ st'.args.length = all.length ∧
      l.map (envOf all (fun _ => 0) st'.args) = given l.length val ∧
      ∀ s, s ∉ l → envOf all (fun _ => 0) st'.args s = envOf all (fun _ => 0) st.args s := by
  have hlen : (find l all).2.length = l.length := by
    rw [← find_length, find_sublist hsub hn]
  have key : ∀ w : List K, w.length = l.length →
      l.map (envOf all (fun _ => 0) (assign st.args (find l all).2 w)) = w := by
    intro w hw
    have := slot_set (base := fun _ => (0 : K)) hn hl l w (by rw [hw, hlen])
    rwa [find_sublist hsub hn] at this
  unfold initOne
  rw [hP n, hs]
  cases val with
  | none =>
    refine ⟨_, rfl, by rw [assign_length, hl], ?_, fun s h => slot_frame hl l _ h⟩
    rw [hlen]
    exact key _ (by simp)
  | some val =>
    cases val with
    | v w =>
      dsimp only [Option.map_some]
      have hw : w.length = l.length := hv
      rw [if_pos (by rw [hw, hlen])]
      exact ⟨_, rfl, by rw [assign_length, hl], key w hw, fun s h => slot_frame hl l _ h⟩
    | s c => exact absurd hv (by simp [Accepts])
    | m A => exact absurd hv (by simp [Accepts])

theorem initOne_reject (hP : LaidOut P all syms) (hn : all.Nodup) (st : St N K) {n : N}
    {l : List String} (hs : syms n = some l) (hsub : l.Sublist all) {val : Option (NV K)}
    (hv : ¬Accepts l.length val) : initOne P st n val = .error .type := by
  have hlen : (find l all).2.length = l.length := by
    rw [← find_length, find_sublist hsub hn]
  unfold initOne
  rw [hP n, hs]
  cases val with
  | none => exact absurd trivial hv
  | some val =>
    cases val with
    | v w =>
      show (if w.length = (find l all).2.length then _ else _) = _
      rw [if_neg (by rw [hlen]; exact hv)]
    | s c => rfl
    | m A => rfl

/-- The loop, symbol by symbol. -/
theorem initLoop_ok (hP : LaidOut P all syms) (hn : all.Nodup) :
    ∀ {inits : List (N × Option (NV K))} {st : St N K}, st.args.length = all.length →
    (∀ kv ∈ inits, ∃ l, syms kv.1 = some l ∧ l.Sublist all ∧ Accepts l.length kv.2) →
    ∃ st', initLoop P st inits = .ok st' ∧ st'.args.length = all.length ∧
      (∀ s, (∀ kv ∈ inits, ∀ l, syms kv.1 = some l → s ∉ l) →
        envOf all (fun _ => 0) st'.args s = envOf all (fun _ => 0) st.args s) ∧
      ∀ n val l, (n, val) ∈ inits → syms n = some l → (inits.map Prod.fst).Nodup →
        (∀ kv ∈ inits, kv.1 ≠ n → ∀ l', syms kv.1 = some l' → ∀ s ∈ l, s ∉ l') →
        l.map (envOf all (fun _ => 0) st'.args) = given l.length val := by
  intro inits
  induction inits with
  | nil =>
    intro st hl _
    exact ⟨st, rfl, hl, fun _ _ => rfl, fun _ _ _ h => absurd h (by simp)⟩
  | cons kv inits ih =>
    intro st hl hk
    obtain ⟨n0, v0⟩ := kv
    obtain ⟨l0, hs0, hsub0, ha0⟩ := hk (n0, v0) (by simp)
    obtain ⟨st1, e1, e2, e3, e4⟩ := initOne_ok hP hn hl hs0 hsub0 ha0
    obtain ⟨st2, f1, f2, f3, f4⟩ := ih e2 (fun kv h => hk kv (by simp [h]))
    refine ⟨st2, ?_, f2, ?_, ?_⟩
    · show (initOne P st n0 v0).bind _ = _
      rw [e1]; exact f1
    · intro s hs
      rw [f3 s fun kv h => hs kv (by simp [h])]
      exact e4 s (hs (n0, v0) (by simp) l0 hs0)
    · intro n val l hmem hs hnd hdis
      have hnd' := List.nodup_cons.1 hnd
      rcases List.mem_cons.1 hmem with h | h
      · obtain ⟨rfl, rfl⟩ := Prod.mk.injEq .. ▸ h
        have hl0 : l0 = l := by rw [hs0] at hs; simpa using hs
        subst hl0
        rw [← e3]
        refine List.map_congr_left ?_
        intro s hsl
        refine f3 s ?_
        intro kv hkv l' hl'
        refine hdis kv (by simp [hkv]) ?_ l' hl' s hsl
        intro heq
        exact hnd'.1 (List.mem_map.2 ⟨kv, hkv, heq⟩)
      · exact f4 n val l h hs hnd'.2 fun kv hkv => hdis kv (by simp [hkv])

/-- **C38** (accepted): if every given value has the shape of its argument, each given argument has its
value (zero for None), and each argument that has no symbol in common with those given is zero. The
keys of `inits` are distinct, and an argument is compared with the other keys that share
none of its symbols (`v`, `vl`, `vnl` and `dx`, `w` do share). -/
theorem C38_init (hP : LaidOut P all syms) (hn : all.Nodup) {inits : List (N × Option (NV K))}
    (hk : ∀ kv ∈ inits, ∃ l, syms kv.1 = some l ∧ l.Sublist all ∧ Accepts l.length kv.2)
    (hnd : (inits.map Prod.fst).Nodup) :
    ∃ st, initNumeric P all.length inits = .ok st ∧
      (∀ n val l, (n, val) ∈ inits → syms n = some l →
        (∀ kv ∈ inits, kv.1 ≠ n → ∀ l', syms kv.1 = some l' → ∀ s ∈ l, s ∉ l') →
        P.get st n = some (.v (given l.length val))) ∧
      ∀ n l, syms n = some l → l.Sublist all →
        (∀ kv ∈ inits, ∀ l', syms kv.1 = some l' → ∀ s ∈ l, s ∉ l') →
        P.get st n = some (.v (List.replicate l.length 0)) := by
  obtain ⟨st, e1, e2, e3, e4⟩ := initLoop_ok hP hn (inits := inits)
    (st := ⟨List.replicate all.length 0, fun _ => none⟩) (by simp) hk
  refine ⟨st, e1, ?_, ?_⟩
  · intro n val l hmem hs hdis
    obtain ⟨l', hs', hsub, -⟩ := hk (n, val) hmem
    have : l' = l := by
      change syms n = some l' at hs'
      rw [hs] at hs'; simpa using hs'.symm
    subst this
    rw [get_arg (base := fun _ => 0) hP hn e2 hs hsub, e4 n val l' hmem hs hnd hdis]
  · intro n l hs hsub hdis
    rw [get_arg (base := fun _ => 0) hP hn e2 hs hsub, ← List.map_const']
    congr 2
    refine List.map_congr_left ?_
    intro s hsl
    rw [e3 s fun kv hkv l' hl' => hdis kv hkv l' hl' s hsl]
    by_cases hm : s ∈ all
    · rw [envOf_mem hm (by simp)]
      simp [List.getD_eq_getElem?_getD, List.getElem?_replicate]
      split <;> rfl
    · rw [envOf_not_mem hm]

/-- **C38** (rejected): a value with a wrong shape (wrong length, scalar, matrix) raises a TypeError, and
a key that is not an argument an AttributeError, whatever the other values. -/
theorem C38_reject (hP : LaidOut P all syms) (hn : all.Nodup)
    (hsub : ∀ n l, syms n = some l → l.Sublist all) {pre post : List (N × Option (NV K))} {n : N}
    {val : Option (NV K)}
    (hpre : ∀ kv ∈ pre, ∃ l, syms kv.1 = some l ∧ Accepts l.length kv.2) :
    (∀ l, syms n = some l → ¬Accepts l.length val →
      initNumeric P all.length (pre ++ (n, val) :: post) = .error .type) ∧
    (syms n = none → initNumeric P all.length (pre ++ (n, val) :: post) = .error .attribute) := by
  have split : ∀ (pre : List (N × Option (NV K))) (st : St N K) (e : IErr),
      st.args.length = all.length →
      (∀ kv ∈ pre, ∃ l, syms kv.1 = some l ∧ Accepts l.length kv.2) →
      (∀ st : St N K, initOne P st n val = .error e) →
      initLoop P st (pre ++ (n, val) :: post) = .error e := by
    intro pre
    induction pre with
    | nil =>
      intro st e _ _ he
      show (initOne P st n val).bind _ = _
      rw [he]; rfl
    | cons kv pre ih =>
      intro st e hl hp he
      obtain ⟨l, hs, ha⟩ := hp kv (by simp)
      obtain ⟨st1, e1, e2, -, -⟩ := initOne_ok hP hn hl hs (hsub _ _ hs) ha
      show (initOne P st kv.1 kv.2).bind _ = _
      rw [e1]
      exact ih st1 e e2 (fun kv h => hp kv (by simp [h])) he
  constructor
  · intro l hs ha
    exact split pre _ _ (by simp) hpre fun st => initOne_reject hP hn st hs (hsub _ _ hs) ha
  · intro hs
    refine split pre _ _ (by simp) hpre fun st => ?_
    unfold initOne
    rw [hP n, hs]
    rfl

/-! ### Example -/

/-- Two states, one input. -/
def exSyms : String → Option (List String)
  | "x" => some ["xA", "xB"]
  | "u" => some ["u0"]
  | _ => none

/-- See `exSyms`. -/
def exProg : Prog String ℚ where
  argInds := fun n => (exSyms n).map fun l => (find l ["xA", "xB", "u0"]).2
  op := fun _ => none
  func := fun _ => none
  norm := fun _ => 0

theorem exProg_laidOut : LaidOut exProg ["xA", "xB", "u0"] exSyms := fun _ => rfl

example : ∃ st, initNumeric exProg 3 [("x", some (.v [1, 2]))] = .ok st ∧
    exProg.get st "x" = some (.v [1, 2]) ∧ exProg.get st "u" = some (.v [0]) := by
  obtain ⟨st, h1, h2, h3⟩ := C38_init exProg_laidOut (by decide)
    (inits := [("x", some (.v [(1 : ℚ), 2]))])
    (by
      intro kv hkv
      obtain rfl : kv = ("x", some (.v [(1 : ℚ), 2])) := by simpa using hkv
      exact ⟨["xA", "xB"], rfl, by decide, rfl⟩)
    (by simp)
  refine ⟨st, h1, ?_, ?_⟩
  · exact h2 "x" (some (.v [1, 2])) ["xA", "xB"] (by simp) rfl (by
      intro kv hkv hne
      obtain rfl : kv = ("x", some (.v [(1 : ℚ), 2])) := by simpa using hkv
      exact absurd rfl hne)
  · exact h3 "u" ["u0"] rfl (by decide) (by
      intro kv hkv l' hl'
      obtain rfl : kv = ("x", some (.v [(1 : ℚ), 2])) := by simpa using hkv
      obtain rfl : ["xA", "xB"] = l' := by simpa [exSyms] using hl'
      decide)

end Numeric
end Pyphs
