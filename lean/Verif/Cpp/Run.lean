/-
C29, end: a simulation with the generated code, from the construction of the object.
-/
import Verif.Cpp.EquivInit

namespace Pyphs
namespace Cpp
open Numeric

variable {K : Type} [Field K] [LinearOrder K] {N : Type} [DecidableEq N]
variable {G : Gen N K} {Γ : N → Sh} {T : List N}

theorem Rel.mono {T T' : List N} {st : St N K} {o : Obj N K} (h : Rel G Γ T st o)
    (hT : ∀ n ∈ T, n ∈ T') : Rel G Γ T' st o :=
  ⟨h.args, h.len, h.sr, fun n v hn => h.vals n v fun h' => hn (hT n h'), h.const⟩

/-- **C29** (simulation): build the `Numeric` and the C++ object, then give the same inputs and
parameters to both; after any number of steps that succeed in Python, the arguments are equal. -/
theorem C29_run (hS : G.src.WF) (hG : GenOK G) (hA : ArgsOK G.src Γ)
    (hd : ∀ n ∈ G.src.deps, EvalOK G.src Γ [] n) {user extra : List (N × List K)}
    (hin : G.inits = user ++ extra) (hok : ∀ p ∈ user ++ extra, PairOK G.src p)
    (hpw : (user ++ extra).Pairwise (Apart G.src)) (hz : ∀ p ∈ extra, ∀ a ∈ p.2, a = 0)
    (hcov : ∀ s ∈ G.src.all, ∃ p ∈ user ++ extra, s ∈ (G.src.syms p.1).getD [])
    {junk : Obj N K} (hj : junk.args.length = G.src.all.length)
    {eps : K} {maxit : ℕ} {acts : List (Action N)} (ha : ∀ a ∈ acts, ActOK G.src Γ T a) {nU nP : N}
    {lU lP : List String} (hU : G.src.syms nU = some lU) (hP : G.src.syms nP = some lP)
    {nu np : ℕ} (seq : List (List K × List K))
    (hq : ∀ q ∈ seq, q.1.length = lU.length ∧ q.2.length = lP.length) {st : St N K}
    (hst : (pyBuild G.py G.src.all.length (user.map fun p => (p.1, some (.v p.2))) G.src.deps).bind
      (fun st => seq.foldlM
        (fun st q => G.py.update eps maxit acts nU nP nu np (some q.1) (some q.2) st) st) = some st) :
    ∃ o, (G.construct junk).bind (fun o => seq.foldlM
        (fun o q => G.update eps maxit acts nU nP q.1 q.2 o) o) = some o ∧ o.args = st.args := by
  obtain ⟨st0, h0, h1⟩ := Option.bind_eq_some_iff.1 hst
  obtain ⟨o0, e0, r0⟩ := C29_construct hS hG hA hd hin hok hpw hz hcov hj h0
  obtain ⟨o, e, -, he⟩ := C29_history hS hG hA ha hU hP seq hq
    (r0.mono (T' := T) fun n h => by simp at h) h1
  exact ⟨o, by rw [e0]; exact e, he⟩

/-! ### Example -/

/-- `A = [F_S]`, `g = [r u - x]`: `x` and `dx` are updated with `x + dx` and `A.g`. -/
def exS : Src String ℚ where
  all := ["x", "dx", "u"]
  syms := fun n => if n = "x" then some ["x"] else if n = "dx" then some ["dx"]
    else if n = "u" then some ["u"] else if n = "p" then some [] else none
  op := fun n => if n = "ud_x" then some (.add (.ref "x") (.ref "dx"))
    else if n = "ud_dx" then some (.dot (.ref "A") (.ref "g")) else none
  fe := fun n => if n = "A" then some (.mat 1 1 fun _ _ => ⟨fun e => e "F_S", ["F_S"], fun _ _ h =>
        h _ (by simp)⟩)
    else if n = "g" then some (.vec 1 fun _ => ⟨fun e => e "r" * e "u" - e "x", ["r", "u", "x"],
        fun _ _ h => by rw [h "r", h "u", h "x"] <;> simp⟩)
    else none
  subs := [("r", 3)]
  fs := "F_S"
  deps := ["ud_x", "A", "g", "ud_dx"]

/-- The generated code, with `x = 5` at first. -/
noncomputable def exG : Gen String ℚ where
  src := exS
  tab := [[3]]
  fs0 := 2
  inits := [("x", [5]), ("dx", [0]), ("u", [0])]
  sqrt := id
  einv := fun A => A.inv.getD A

def exActs : List (Action String) :=
  [.exec [⟨"x", "ud_x"⟩, ⟨"g", "g"⟩, ⟨"A", "A"⟩, ⟨"dx", "ud_dx"⟩]]

def exSh (n : String) : Sh := if n = "A" then .mat 1 1 else if n = "p" then .vec 0 else .vec 1

theorem exS_wf : exS.WF where
  nodup := by decide
  sub := by
    intro n l h
    simp only [exS] at h
    split_ifs at h <;> simp only [Option.some.injEq] at h <;> subst h <;> decide
  keys := by decide
  disj := by decide

theorem exG_ok : GenOK exG := by
  refine ⟨rfl, ?_⟩
  intro A B h
  have hs : ∃ C, A.inv = some C := by
    rw [← Option.isSome_iff_exists, ← Option.ne_none_iff_isSome, Ne, Mat.inv_eq_none_iff]
    exact fun h' => h' B h
  obtain ⟨C, hC⟩ := hs
  show A.IsInv (A.inv.getD A)
  rw [hC]
  exact Mat.inv_isInv hC

theorem exS_args : ArgsOK exS exSh := by
  intro n l h
  simp only [exS] at h
  split_ifs at h with h1 h2 h3 h4 <;> simp only [Option.some.injEq] at h <;> subst h <;>
    subst_vars <;> decide

theorem exS_eval (T : List String) (hT : ∀ n ∈ ["x", "dx", "A", "g"], n ∉ T) :
    ∀ n ∈ exS.deps, EvalOK exS exSh T n := by
  intro n hn
  simp only [exS, List.mem_cons, List.not_mem_nil, or_false] at hn
  have h1 := hT "x" (by simp)
  have h2 := hT "dx" (by simp)
  have h3 := hT "A" (by simp)
  have h4 := hT "g" (by simp)
  rcases hn with rfl | rfl | rfl | rfl
  · simp [EvalOK, exS, opTy, h1, h2, exSh]
  · exact ⟨_, rfl, rfl⟩
  · exact ⟨_, rfl, rfl⟩
  · simp [EvalOK, exS, opTy, h3, h4, exSh]

theorem exS_acts : ∀ a ∈ exActs, ActOK exS exSh ["ud_x", "ud_dx"] a := by
  intro a ha
  obtain rfl := List.mem_singleton.1 ha
  intro c hc
  have he := exS_eval ["ud_x", "ud_dx"] (by decide)
  simp only [List.mem_cons, List.not_mem_nil, or_false] at hc
  rcases hc with rfl | rfl | rfl | rfl
  · exact ⟨he _ (by decide), by decide, rfl, rfl, by decide⟩
  · exact ⟨he _ (by decide), by decide, rfl, rfl, by decide⟩
  · exact ⟨he _ (by decide), by decide, rfl, rfl, by decide⟩
  · exact ⟨he _ (by decide), by decide, rfl, rfl, by decide⟩

/-- The hypotheses of C29_run hold for the example and any inputs. -/
example (seq : List (List ℚ × List ℚ)) (hq : ∀ q ∈ seq, q.1.length = 1 ∧ q.2.length = 0)
    {st : St String ℚ} (hst : (pyBuild exG.py 3 [("x", some (.v [5]))] exS.deps).bind (fun st =>
      seq.foldlM (fun st q => exG.py.update 0 0 exActs "u" "p" 1 0 (some q.1) (some q.2) st) st)
        = some st) {junk : Obj String ℚ} (hj : junk.args.length = 3) :
    ∃ o, (exG.construct junk).bind (fun o => seq.foldlM
        (fun o q => exG.update 0 0 exActs "u" "p" q.1 q.2 o) o) = some o ∧ o.args = st.args :=
  C29_run (G := exG) (Γ := exSh) (T := ["ud_x", "ud_dx"]) (user := [("x", [5])])
    (extra := [("dx", [0]), ("u", [0])]) (lU := ["u"]) (lP := []) exS_wf exG_ok exS_args
    (exS_eval [] (by decide)) rfl
    (by
      intro p hp
      simp only [List.cons_append, List.nil_append, List.mem_cons, List.not_mem_nil, or_false] at hp
      rcases hp with rfl | rfl | rfl <;> exact ⟨_, rfl, rfl⟩)
    (by simp [Apart, exG, exS]) (by simp) (by simp [exG, exS]) hj exS_acts rfl rfl seq hq hst

/-- Two steps, in Python and in C++. -/
example : ((pyBuild exG.py 3 [("x", some (.v [5]))] exS.deps).bind (fun st =>
      [([1], []), ([2], [])].foldlM (fun st q =>
        exG.py.update 0 0 exActs "u" "p" 1 0 (some q.1) (some q.2) st) st)).map (·.args) =
      some [1, 10, 2] ∧
    ((exG.construct ⟨[7, 8, 9], 0, fun _ => .s 0⟩).bind (fun o =>
      [([1], []), ([2], [])].foldlM (fun o q => exG.update 0 0 exActs "u" "p" q.1 q.2 o) o)).map
        (·.args) = some [1, 10, 2] := by
  constructor <;> decide +kernel

end Cpp
end Pyphs
