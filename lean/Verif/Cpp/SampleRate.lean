/-
C30: the sample rate of the generated object.
-/
import Verif.Cpp.Run

namespace Pyphs
namespace Cpp
open Numeric

variable {K : Type} [Field K] [LinearOrder K] {N : Type} [DecidableEq N]
variable {G : Gen N K} {Γ : N → Sh} {T : List N}

/-- The code generated for another sample rate. -/
def Gen.at (G : Gen N K) (fs : K) : Gen N K := { G with fs0 := fs }

section
variable (G : Gen N K) (fs : K)

theorem at_env : (G.at fs).env = G.env := rfl
theorem at_get : (G.at fs).get = G.get := rfl
theorem at_setVec : (G.at fs).setVec = G.setVec := rfl
theorem at_setArg : (G.at fs).setArg = G.setArg := rfl

omit [LinearOrder K] in
theorem at_evalOp (o : Obj N K) (op : Op N K) : (G.at fs).evalOp o op = G.evalOp o op := by
  induction op with
  | ref n => rfl
  | num c => rfl
  | add a b iha ihb => simp only [Gen.evalOp, iha, ihb]
  | prod a b iha ihb => simp only [Gen.evalOp, iha, ihb]
  | dot a b iha ihb => simp only [Gen.evalOp, iha, ihb]
  | inv a ih => simp only [Gen.evalOp, ih]; rfl
  | norm a ih => simp only [Gen.evalOp, ih]; rfl
  | copy a ih => simp only [Gen.evalOp, ih]

theorem at_opUpdate : (G.at fs).opUpdate = G.opUpdate := by
  funext o n op
  unfold Gen.opUpdate
  rw [at_evalOp]

theorem at_execs : (G.at fs).execs = G.execs := by
  have h1 : (G.at fs).refresh = G.refresh := by
    funext o n
    unfold Gen.refresh
    rw [at_opUpdate]
    rfl
  have h2 : (G.at fs).exec = G.exec := by
    funext o c
    unfold Gen.exec
    rw [h1, at_setArg]
  funext o l
  unfold Gen.execs
  rw [h2]

theorem at_update : (G.at fs).update = G.update := by
  have h1 : ∀ (eps : K) (maxit : ℕ) (cmds : List (Cmd N)) (res step : N) (fuel it : ℕ) (o : Obj N K),
      (G.at fs).loop eps maxit cmds res step fuel it o = G.loop eps maxit cmds res step fuel it o := by
    intro eps maxit cmds res step fuel
    induction fuel with
    | zero => intro it o; rfl
    | succ fuel ih =>
      intro it o
      unfold Gen.loop
      rw [at_execs]
      simp only [ih]
      rfl
  have h2 : (G.at fs).action = G.action := by
    funext eps maxit o a
    cases a with
    | exec l => simp only [Gen.action, at_execs]
    | iter l r t => simp only [Gen.action, Gen.iterate, h1]
  funext eps maxit acts nU nP u p o
  unfold Gen.update
  rw [h2, at_setVec]

theorem at_init : (G.at fs).init = G.init := by
  have h : (G.at fs).initOps = G.initOps := by
    funext o
    unfold Gen.initOps
    rw [at_opUpdate]
    rfl
  funext o
  unfold Gen.init
  rw [h]
  rfl

end

/-- The coefficients without arguments do not contain the sample rate. -/
def NoRate (S : Src N K) : Prop :=
  ∀ n f, S.op n = none → S.fe n = some f → n ∈ S.deps → ∀ i < f.r, ∀ j < f.c,
    S.dep (f.ent i j) = false → S.fs ∉ (f.ent i j).free

/-- **C30** (as a new object): if no coefficient without arguments contains the sample rate, then after
`set_sampleRate(fs)` in any reached state the object is related to the `Numeric` newly built with the
sample rate `fs`. -/
theorem C30_as_new (hS : G.src.WF) (hG : GenOK G) (hA : ArgsOK G.src Γ)
    (hd : ∀ n ∈ G.src.deps, EvalOK G.src Γ [] n) (hno : NoRate G.src) {user extra : List (N × List K)}
    (hin : G.inits = user ++ extra) (hok : ∀ p ∈ user ++ extra, PairOK G.src p)
    (hpw : (user ++ extra).Pairwise (Apart G.src)) (hz : ∀ p ∈ extra, ∀ a ∈ p.2, a = 0)
    (hcov : ∀ s ∈ G.src.all, ∃ p ∈ user ++ extra, s ∈ (G.src.syms p.1).getD [])
    {st st' : St N K} {o : Obj N K} (hr : Rel G Γ T st o) {fs : K}
    (hst : pyBuild (G.at fs).py G.src.all.length (user.map fun p => (p.1, some (.v p.2)))
      G.src.deps = some st') :
    ∃ o', G.setSampleRate o fs = some o' ∧ Rel (G.at fs) Γ [] st' o' := by
  unfold Gen.setSampleRate
  rw [← at_init G fs]
  refine init_spec (G := G.at fs) (o := { o with sr := fs }) hS ⟨hG.1, hG.2⟩ hA hd hin hok hpw hz hcov
    ?_ rfl ?_ hst
  · show o.args.length = _
    rw [hr.args]; exact hr.len
  · intro n f ho hf hdn i hi j hj hdep
    refine (hr.const n f ho hf hdn i hi j hj hdep).trans ((f.ent i j).congr _ _ ?_)
    intro s hs
    have hsf : s ≠ G.src.fs := by
      rintro rfl; exact hno n f ho hf hdn i hi j hj hdep hs
    show (if s = G.src.fs then _ else _) = if s = G.src.fs then _ else _
    rw [if_neg hsf, if_neg hsf]
    rfl

/-- **C30** (simulation): the steps that follow `set_sampleRate(fs)` are those of a `Numeric` built with
the sample rate `fs`, whatever happened before. -/
theorem C30_rate (hS : G.src.WF) (hG : GenOK G) (hA : ArgsOK G.src Γ)
    (hd : ∀ n ∈ G.src.deps, EvalOK G.src Γ [] n) (hno : NoRate G.src) {user extra : List (N × List K)}
    (hin : G.inits = user ++ extra) (hok : ∀ p ∈ user ++ extra, PairOK G.src p)
    (hpw : (user ++ extra).Pairwise (Apart G.src)) (hz : ∀ p ∈ extra, ∀ a ∈ p.2, a = 0)
    (hcov : ∀ s ∈ G.src.all, ∃ p ∈ user ++ extra, s ∈ (G.src.syms p.1).getD [])
    {eps : K} {maxit : ℕ} {acts : List (Action N)} (ha : ∀ a ∈ acts, ActOK G.src Γ T a) {nU nP : N}
    {lU lP : List String} (hU : G.src.syms nU = some lU) (hP : G.src.syms nP = some lP)
    {nu np : ℕ} {st st' : St N K} {o : Obj N K} (hr : Rel G Γ T st o) {fs : K}
    (seq : List (List K × List K))
    (hq : ∀ q ∈ seq, q.1.length = lU.length ∧ q.2.length = lP.length)
    (hst : (pyBuild (G.at fs).py G.src.all.length (user.map fun p => (p.1, some (.v p.2)))
      G.src.deps).bind (fun st => seq.foldlM (fun st q =>
        (G.at fs).py.update eps maxit acts nU nP nu np (some q.1) (some q.2) st) st) = some st') :
    ∃ o', (G.setSampleRate o fs).bind (fun o => seq.foldlM
        (fun o q => G.update eps maxit acts nU nP q.1 q.2 o) o) = some o' ∧ o'.args = st'.args := by
  obtain ⟨st0, h0, h1⟩ := Option.bind_eq_some_iff.1 hst
  obtain ⟨o0, e0, r0⟩ := C30_as_new hS hG hA hd hno hin hok hpw hz hcov hr h0
  obtain ⟨o', e, -, he⟩ := C29_history (G := G.at fs) hS ⟨hG.1, hG.2⟩ hA ha hU hP seq hq
    (r0.mono (T' := T) fun n h => by simp at h) h1
  refine ⟨o', ?_, he⟩
  rw [e0, ← at_update G fs]
  exact e

/-! ### Coefficients without arguments -/

theorem setVecs_fld : ∀ (L : List (N × List K)) {o o' : Obj N K},
    L.foldlM (fun o p => G.setVec o p.1 p.2) o = some o' → o'.fld = o.fld ∧ o'.sr = o.sr := by
  intro L
  induction L with
  | nil => intro o o' h; obtain rfl := Option.some.inj h; exact ⟨rfl, rfl⟩
  | cons p L ih =>
    intro o o' h
    rw [List.foldlM_cons] at h
    obtain ⟨o1, h1, h2⟩ := Option.bind_eq_some_iff.1 h
    obtain ⟨a, b⟩ := ih h2
    unfold Gen.setVec at h1
    split at h1
    · simp at h1
    · obtain rfl := Option.some.inj h1
      exact ⟨a, b⟩

/-- **C30** (stale coefficients): `set_sampleRate` never changes a coefficient without arguments, whether
or not its expression contains the sample rate. -/
theorem C30_stale {o o' : Obj N K} {fs : K} (h : G.setSampleRate o fs = some o') {n : N} {f : FE K}
    (ho : G.src.op n = none) (hf : G.src.fe n = some f) {i j : ℕ}
    (hdep : G.src.dep (f.ent i j) = false) :
    (o'.fld n).at i j = (o.fld n).at i j := by
  unfold Gen.setSampleRate Gen.init at h
  obtain ⟨o1, h1, h2⟩ := Option.bind_eq_some_iff.1 h
  have hfld := (setVecs_fld _ h1).1
  have hfn : ∀ (l : List N) (o : Obj N K), ((l.foldl G.fnStep o).fld n).at i j = (o.fld n).at i j := by
    intro l
    induction l with
    | nil => intro o; rfl
    | cons k l ih =>
      intro o
      rw [List.foldl_cons, ih]
      unfold Gen.fnStep
      split
      · rename_i g hok hg
        unfold Gen.fnUpdate
        by_cases hk : n = k
        · subst hk
          obtain rfl : f = g := by rw [hf] at hg; exact Option.some.inj hg
          simp only [Function.update_self, CV.at, hdep]
          rfl
        · simp only [Function.update_of_ne hk]
      · rfl
  have hop : ∀ (l : List N) {o o' : Obj N K}, l.foldlM (fun o n => match G.src.op n with
      | some op => G.opUpdate o n op
      | none => some o) o = some o' → (o'.fld n).at i j = (o.fld n).at i j := by
    intro l
    induction l with
    | nil => intro o o' h; obtain rfl := Option.some.inj h; rfl
    | cons k l ih =>
      intro o o' h
      rw [List.foldlM_cons] at h
      obtain ⟨o1, h1, h2⟩ := Option.bind_eq_some_iff.1 h
      rw [ih h2]
      cases hk : G.src.op k with
      | none =>
        rw [hk] at h1
        obtain rfl := Option.some.inj h1
        rfl
      | some op =>
        rw [hk] at h1
        have hne : n ≠ k := by rintro rfl; rw [ho] at hk; simp at hk
        unfold Gen.opUpdate at h1
        obtain ⟨v, -, h1⟩ := Option.bind_eq_some_iff.1 h1
        obtain rfl := Option.some.inj h1
        simp only [Function.update_of_ne hne]
  rw [hop _ h2]
  show ((G.src.deps.foldl G.fnStep o1).fld n).at i j = _
  rw [hfn, hfld]

/-- **C30** fails as stated: with `A = [F_S]`, which contains no argument, the object whose sample rate
is changed from 2 to 4 and then updated differs from the `Numeric` built with the sample rate 4, and
agrees with the one built with the sample rate 2. -/
theorem C30_stale_example :
    ((exG.construct ⟨[7, 8, 9], 0, fun _ => .s 0⟩).bind (fun o => (exG.setSampleRate o 4).bind
        (exG.update 0 0 exActs "u" "p" [1] []))).map (fun o => (o.sr, o.args)) =
      some (4, [5, -4, 1]) ∧
    ((pyBuild (exG.at 4).py 3 [("x", some (.v [5]))] exS.deps).bind
        ((exG.at 4).py.update 0 0 exActs "u" "p" 1 0 (some [1]) (some []))).map (·.args) =
      some [5, -8, 1] := by
  constructor <;> decide +kernel

/-! ### Example -/

/-- The same method with the coefficient `F_S x` in place of `F_S`. -/
def exS2 : Src String ℚ :=
  { exS with
    fe := fun n => if n = "A" then
        some (.mat 1 1 fun _ _ => ⟨fun e => e "F_S" * e "x", ["F_S", "x"], fun _ _ h => by
          rw [h "F_S" (by simp), h "x" (by simp)]⟩)
      else exS.fe n }

theorem exS2_no : NoRate exS2 := by
  intro n f ho hf hd i hi j hj hdep
  simp only [exS2] at hf
  split_ifs at hf with h1
  · obtain rfl := Option.some.inj hf
    exfalso
    revert hdep
    simp [FE.ent, Src.dep, exS2, exS]
  · simp only [exS, if_neg h1] at hf
    split_ifs at hf with h2
    · obtain rfl := Option.some.inj hf
      simp [FE.ent, exS2, exS]

noncomputable def exG2 : Gen String ℚ := { exG with src := exS2 }

/-- With this method the change of the sample rate has its effect. -/
example : ((exG2.construct ⟨[7, 8, 9], 0, fun _ => .s 0⟩).bind (fun o =>
      (exG2.setSampleRate o 4).bind (exG2.update 0 0 exActs "u" "p" [1] []))).map
        (fun o => (o.sr, o.args)) = some (4, [5, -40, 1]) ∧
    ((pyBuild (exG2.at 4).py 3 [("x", some (.v [5]))] exS2.deps).bind
      ((exG2.at 4).py.update 0 0 exActs "u" "p" 1 0 (some [1]) (some []))).map (·.args) =
        some [5, -40, 1] := by
  constructor <;> decide +kernel

end Cpp
end Pyphs
