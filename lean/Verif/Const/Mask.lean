/-
A program in which some slots of the arguments are replaced by constants in every function, compared with
the program in which these slots hold the constants.
-/
import Verif.Numeric.Slots

namespace Pyphs
namespace Numeric

variable {K : Type} [Field K] [LinearOrder K] {N : Type} [DecidableEq N]

section
omit [Field K] [LinearOrder K]

/-- The arguments, with the constants `c`. -/
def mask (c : ℕ → Option K) (a : List K) : List K := a.mapIdx fun i v => (c i).getD v

theorem mask_length (c : ℕ → Option K) (a : List K) : (mask c a).length = a.length := by
  simp [mask]

theorem mask_getElem? (c : ℕ → Option K) (a : List K) (i : ℕ) :
    (mask c a)[i]? = a[i]?.map fun v => (c i).getD v := by
  simp [mask]

theorem mask_set (c : ℕ → Option K) (a : List K) (i : ℕ) (v : K) :
    mask c (a.set i v) = (mask c a).set i ((c i).getD v) := by
  apply List.ext_getElem?
  intro j
  rw [mask_getElem?, List.getElem?_set, List.getElem?_set, mask_getElem?, mask_length]
  by_cases h : i = j
  · subst h
    by_cases hl : i < a.length <;> simp [hl]
  · simp [h]

theorem mask_assign (c : ℕ → Option K) (a : List K) (inds : List ℕ) (vs : List K) :
    mask c (assign a inds vs) =
      assign (mask c a) inds (List.zipWith (fun i v => (c i).getD v) inds vs) := by
  induction inds generalizing a vs with
  | nil => rfl
  | cons i l ih =>
    cases vs with
    | nil => rfl
    | cons v vs =>
      show mask c (assign (a.set i v) l vs) = assign ((mask c a).set i ((c i).getD v)) l _
      rw [ih, mask_set]

theorem zipWith_free {c : ℕ → Option K} {inds : List ℕ} (h : ∀ i ∈ inds, c i = none) (vs : List K) :
    List.zipWith (fun i v => (c i).getD v) inds vs = vs.take inds.length := by
  induction inds generalizing vs with
  | nil => simp
  | cons i l ih =>
    cases vs with
    | nil => simp
    | cons v vs =>
      rw [List.zipWith_cons_cons, ih (fun j hj => h j (List.mem_cons_of_mem _ hj)), h i (by simp)]
      rfl

/-- The state, with the constants. -/
def maskSt (c : ℕ → Option K) (st : St N K) : St N K := { st with args := mask c st.args }

end

/-- No slot of the name is a constant. -/
def FreeName (P : Prog N K) (c : ℕ → Option K) (k : N) : Prop :=
  ∀ inds, P.argInds k = some inds → ∀ i ∈ inds, c i = none

/-- The names that an operation reads. -/
def Op.refs : Op N K → List N
  | .ref n => [n]
  | .num _ => []
  | .add a b | .prod a b | .dot a b => a.refs ++ b.refs
  | .inv a | .norm a | .copy a => a.refs

/-- `Q` is `P` with constants in the functions, for arrays of `L` arguments; only the names of `X` have
constant slots, and no operation reads them. -/
structure Masked (P Q : Prog N K) (c : ℕ → Option K) (L : ℕ) (X : List N) : Prop where
  inds : Q.argInds = P.argInds
  op : Q.op = P.op
  norm : Q.norm = P.norm
  func : ∀ k a, a.length = L → (Q.func k).map (fun f => f a) = (P.func k).map fun f => f (mask c a)
  free : ∀ k, k ∉ X → FreeName P c k
  refs : ∀ k op, P.op k = some op → ∀ r ∈ op.refs, r ∉ X

theorem get_mask {P : Prog N K} {c : ℕ → Option K} {k : N} (h : FreeName P c k) (st : St N K) :
    P.get (maskSt c st) k = P.get st k := by
  unfold Prog.get
  cases hi : P.argInds k with
  | none => rfl
  | some inds =>
    show some (NV.v _) = some (NV.v _)
    congr 2
    refine List.map_congr_left fun i hm => ?_
    simp only [maskSt, List.getD_eq_getElem?_getD, mask_getElem?, h inds hi i hm]
    cases st.args[i]? <;> rfl

theorem setInds_length {a b : List K} {inds : List ℕ} {v : NV K} (h : setInds a inds v = some b) :
    b.length = a.length := by
  cases v with
  | s c => cases h; exact assign_length ..
  | m A => simp [setInds] at h
  | v l =>
    simp only [setInds] at h
    split_ifs at h
    · cases h; exact assign_length ..
    · split at h
      · cases h; exact assign_length ..
      · simp at h

theorem setInds_mask {c : ℕ → Option K} {inds : List ℕ} (h : ∀ i ∈ inds, c i = none) (a : List K)
    (v : NV K) : setInds (mask c a) inds v = (setInds a inds v).map (mask c) := by
  have key : ∀ l : List K, l.length = inds.length →
      assign (mask c a) inds l = mask c (assign a inds l) := by
    intro l hl
    rw [mask_assign, zipWith_free h, ← hl, List.take_length]
  cases v with
  | s k => simp only [setInds, Option.map_some]; rw [key _ (by simp)]
  | m A => rfl
  | v l =>
    simp only [setInds]
    split_ifs with h1
    · rw [key l h1]; rfl
    · split
      · rw [Option.map_some, key _ (by simp)]
      · rfl

theorem set_length {P : Prog N K} {st st' : St N K} {k : N} {v : NV K} (h : P.set st k v = some st') :
    st'.args.length = st.args.length := by
  unfold Prog.set at h
  cases hi : P.argInds k with
  | none => rw [hi] at h; cases h; rfl
  | some inds =>
    rw [hi] at h
    obtain ⟨a, ha, rfl⟩ := Option.map_eq_some_iff.1 h
    exact setInds_length ha

theorem set_mask {P : Prog N K} {c : ℕ → Option K} {k : N} (h : FreeName P c k) (st : St N K) (v : NV K) :
    P.set (maskSt c st) k v = (P.set st k v).map (maskSt c) := by
  unfold Prog.set
  cases hi : P.argInds k with
  | none => rfl
  | some inds =>
    show (setInds (mask c st.args) inds v).map _ = _
    rw [setInds_mask (h inds hi)]
    simp only [Option.map_map]
    rfl

/-- Setting a name with constant slots: the constants replace the given values. -/
theorem set_mask_v {P : Prog N K} {c : ℕ → Option K} {k : N} {inds : List ℕ} (hi : P.argInds k = some inds)
    (st : St N K) {l : List K} (hl : l.length = inds.length) :
    P.set (maskSt c st) k (.v (List.zipWith (fun i v => (c i).getD v) inds l)) =
      (P.set st k (.v l)).map (maskSt c) := by
  unfold Prog.set
  rw [hi]
  simp only [setInds, maskSt]
  rw [if_pos (by simp [hl]), if_pos hl, Option.map_some, ← mask_assign]
  rfl

section
variable {P Q : Prog N K} {c : ℕ → Option K} {L : ℕ} {X : List N} (hM : Masked P Q c L X)
include hM

theorem Masked.set_eq : Q.set = P.set := by
  funext st k v
  unfold Prog.set
  rw [hM.inds]

theorem Masked.get_eq : Q.get = P.get := by
  funext st k
  unfold Prog.get
  rw [hM.inds]

theorem Masked.evalOp (st : St N K) (op : Op N K) (h : ∀ r ∈ op.refs, r ∉ X) :
    P.evalOp (maskSt c st) op = Q.evalOp st op := by
  induction op with
  | ref n =>
    show P.get _ n = Q.get _ n
    rw [hM.get_eq, get_mask (hM.free n (h n (by simp [Op.refs])))]
  | num k => rfl
  | add a b iha ihb | prod a b iha ihb | dot a b iha ihb =>
    simp only [Op.refs, List.mem_append] at h
    simp only [Prog.evalOp, iha fun r hr => h r (.inl hr), ihb fun r hr => h r (.inr hr)]
  | inv a ih | copy a ih =>
    simp only [Op.refs] at h
    simp only [Prog.evalOp, ih h]
  | norm a ih =>
    simp only [Op.refs] at h
    simp only [Prog.evalOp, ih h, hM.norm]

theorem Masked.eval {st : St N K} (hl : st.args.length = L) (k : N) :
    P.eval (maskSt c st) k = Q.eval st k := by
  unfold Prog.eval
  rw [hM.op]
  cases ho : P.op k with
  | some op => exact hM.evalOp st op (hM.refs k op ho)
  | none => exact (hM.func k st.args hl).symm

theorem Masked.exec {st : St N K} (hl : st.args.length = L) {d : Cmd N} (hd : d.set ∉ X) :
    P.exec (maskSt c st) d = (Q.exec st d).map (maskSt c) := by
  show (P.eval (maskSt c st) d.eval).bind _ = ((Q.eval st d.eval).bind _).map _
  rw [hM.eval hl]
  cases Q.eval st d.eval with
  | none => rfl
  | some v =>
    show P.set _ _ _ = (Q.set _ _ _).map _
    rw [hM.set_eq, set_mask (hM.free _ hd)]

omit [LinearOrder K] [DecidableEq N] hM in
theorem exec_length [LinearOrder K] [DecidableEq N] {Q : Prog N K} {st st' : St N K} {d : Cmd N}
    (h : Q.exec st d = some st') :
    st'.args.length = st.args.length := by
  obtain ⟨v, -, h⟩ := Option.bind_eq_some_iff.1 h
  exact set_length h

omit hM in
/-- Two folds with exceptions that correspond. -/
theorem foldlM_mask {α σ : Type} {f g : σ → α → Option σ} {m : σ → σ} {I : σ → Prop} {l : List α}
    (h : ∀ s, I s → ∀ a ∈ l, g (m s) a = (f s a).map m) (hI : ∀ s s' a, I s → f s a = some s' → I s')
    {s : σ} (hs : I s) : l.foldlM g (m s) = (l.foldlM f s).map m := by
  induction l generalizing s with
  | nil => rfl
  | cons a l ih =>
    rw [List.foldlM_cons, List.foldlM_cons, h s hs a (by simp)]
    cases hf : f s a with
    | none => rfl
    | some s' => exact ih (fun s hs a ha => h s hs a (List.mem_cons_of_mem _ ha)) (hI s s' a hs hf)

omit hM in
theorem foldlM_inv {α σ : Type} {f : σ → α → Option σ} {I : σ → Prop}
    (hI : ∀ s s' a, I s → f s a = some s' → I s') {l : List α} {s s' : σ} (hs : I s)
    (h : l.foldlM f s = some s') : I s' := by
  induction l generalizing s with
  | nil => cases h; exact hs
  | cons a l ih =>
    rw [List.foldlM_cons] at h
    obtain ⟨t, h1, h2⟩ := Option.bind_eq_some_iff.1 h
    exact ih (hI _ _ _ hs h1) h2

theorem Masked.execs {st : St N K} (hl : st.args.length = L) {ds : List (Cmd N)} (hd : ∀ d ∈ ds, d.set ∉ X) :
    P.execs (maskSt c st) ds = (Q.execs st ds).map (maskSt c) :=
  foldlM_mask (I := fun s => s.args.length = L) (fun _ hs d hm => hM.exec hs (hd d hm))
    (fun _ _ _ hs h => (exec_length h).trans hs) hl

omit hM in
theorem execs_length {st st' : St N K} {ds : List (Cmd N)} (h : Q.execs st ds = some st') :
    st'.args.length = st.args.length :=
  foldlM_inv (I := fun s => s.args.length = st.args.length) (fun _ _ _ hs h => (exec_length h).trans hs) rfl h

/-- A run, with the constants. -/
def Run.mask (c : ℕ → Option K) : Run (St N K × ℕ) → Run (St N K × ℕ)
  | .ok (s, i) => .ok (maskSt c s, i)
  | .err => .err
  | .fuel => .fuel

theorem Masked.cond {eps : K} {maxit : ℕ} {res step : N} (h1 : res ∉ X) (h2 : step ∉ X) (st : St N K)
    (it : ℕ) : P.cond eps maxit res step (maskSt c st) it = Q.cond eps maxit res step st it := by
  unfold Prog.cond
  rw [hM.get_eq, get_mask (hM.free _ h1), get_mask (hM.free _ h2)]

theorem Masked.loop {eps : K} {maxit : ℕ} {ds : List (Cmd N)} {res step : N} (hd : ∀ d ∈ ds, d.set ∉ X)
    (h1 : res ∉ X) (h2 : step ∉ X) (fuel it : ℕ) {st : St N K} (hl : st.args.length = L) :
    P.loop eps maxit ds res step fuel it (maskSt c st) =
      (Q.loop eps maxit ds res step fuel it st).mask c := by
  induction fuel generalizing it st with
  | zero => rfl
  | succ fuel ih =>
    unfold Prog.loop
    rw [hM.cond h1 h2]
    cases Q.cond eps maxit res step st it with
    | none => rfl
    | some b =>
      cases b with
      | false => rfl
      | true =>
        simp only
        rw [hM.execs hl hd]
        cases he : Q.execs st ds with
        | none => rfl
        | some st' => exact ih (it + 1) ((execs_length he).trans hl)

omit hM in
theorem loop_length {eps : K} {maxit : ℕ} {ds : List (Cmd N)} {res step : N} (fuel it : ℕ) {st : St N K}
    {r : St N K × ℕ} (h : Q.loop eps maxit ds res step fuel it st = .ok r) :
    r.1.args.length = st.args.length := by
  induction fuel generalizing it st with
  | zero => simp [Prog.loop] at h
  | succ fuel ih =>
    unfold Prog.loop at h
    split at h
    · cases h
    · cases h; rfl
    · split at h
      · cases h
      · next he => exact (ih _ h).trans (execs_length he)

/-- What an action sets and tests is not constant. -/
def Action.Avoids (X : List N) : Action N → Prop
  | .exec l => ∀ d ∈ l, d.set ∉ X
  | .iter l res step => (∀ d ∈ l, d.set ∉ X) ∧ res ∉ X ∧ step ∉ X

theorem Masked.action {eps : K} {maxit : ℕ} {st : St N K} (hl : st.args.length = L) {a : Action N}
    (ha : a.Avoids X) : P.action eps maxit (maskSt c st) a = (Q.action eps maxit st a).map (maskSt c) := by
  cases a with
  | exec l => exact hM.execs hl ha
  | iter l res step =>
    simp only [Prog.action, Prog.iterexecs]
    rw [hM.set_eq, set_mask (hM.free _ ha.2.2)]
    cases hs : P.set st step (.s 1) with
    | none => rfl
    | some st' =>
      simp only [Option.map_some]
      rw [hM.loop ha.1 ha.2.1 ha.2.2 _ _ ((set_length hs).trans hl)]
      cases Q.loop eps maxit l res step (maxit + 1) 0 st' <;> rfl

omit hM in
theorem action_length {eps : K} {maxit : ℕ} {st st' : St N K} {a : Action N}
    (h : Q.action eps maxit st a = some st') : st'.args.length = st.args.length := by
  cases a with
  | exec l => exact execs_length h
  | iter l res step =>
    simp only [Prog.action, Prog.iterexecs] at h
    cases hs : Q.set st step (.s 1) with
    | none => rw [hs] at h; cases h
    | some st1 =>
      rw [hs] at h
      simp only at h
      cases hr : Q.loop eps maxit l res step (maxit + 1) 0 st1 with
      | err => rw [hr] at h; cases h
      | fuel => rw [hr] at h; cases h
      | ok r =>
        rw [hr] at h
        cases h
        exact (loop_length _ _ hr).trans (set_length hs)

theorem Masked.actions {eps : K} {maxit : ℕ} {st : St N K} (hl : st.args.length = L) {as : List (Action N)}
    (ha : ∀ a ∈ as, a.Avoids X) :
    as.foldlM (P.action eps maxit) (maskSt c st) = (as.foldlM (Q.action eps maxit) st).map (maskSt c) :=
  foldlM_mask (I := fun s => s.args.length = L) (fun _ hs a hm => hM.action hs (ha a hm))
    (fun _ _ _ hs h => (action_length h).trans hs) hl

end
end Numeric
end Pyphs
