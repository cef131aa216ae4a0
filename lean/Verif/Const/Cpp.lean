/-
Constants in the generated C++ code: the pointer of an argument that is a key of `method.subs` is that of its
value (arguments.py:43-50, method2cpp.py:267-271), and `set_name` skips it (arguments.py:128, 150).

The object with constants is compared with the object generated from the method without these values, whose
arguments hold the constants.
-/
import Verif.Const.Mask
import Verif.Cpp.EquivInit

namespace Pyphs
namespace Cpp
open Numeric

variable {K : Type} [Field K] [LinearOrder K] {N : Type} [DecidableEq N]

/-- The parameters of `subs` that are arguments. -/
def Src.fix (S : Src N K) : List (String × K) := S.subs.filter fun q => q.1 ∈ S.all

/-- The method without values for the arguments. -/
def Src.free (S : Src N K) : Src N K := { S with subs := S.subs.filter fun q => q.1 ∉ S.all }

/-- Values for an argument, with the constants. -/
def Src.const (S : Src N K) (n : N) (w : List K) : List K :=
  List.zipWith (fun s v => (S.fix.lookup s).getD v) ((S.syms n).getD []) w

/-- The code generated from this method, with the constants in the initial values. -/
def Gen.free (G : Gen N K) : Gen N K :=
  { G with
    src := G.src.free
    tab := [G.src.free.subs.map Prod.snd]
    inits := G.inits.map fun p => (p.1, G.src.const p.1 p.2) }

/-- The constants by slots. -/
def Src.slots (S : Src N K) : ℕ → Option K := fun i => S.all[i]?.bind fun s => S.fix.lookup s

/-- The object whose arguments hold the constants. -/
def Gen.hold (G : Gen N K) (o : Obj N K) : Obj N K := { o with args := mask G.src.slots o.args }

/-- The arguments are distinct, listed in the order of `args()`, and the sample rate is not one of them. -/
structure Src.ConstWF (S : Src N K) : Prop where
  nodup : S.all.Nodup
  sub : ∀ n l, S.syms n = some l → l.Sublist S.all
  fs : S.fs ∉ S.all

section
omit [Field K] [LinearOrder K] [DecidableEq N]

theorem lookup_filter {α : Type} (l : List (String × α)) (p : String → Bool) (s : String) :
    (l.filter fun q => p q.1).lookup s = if p s then l.lookup s else none := by
  induction l with
  | nil => simp
  | cons q l ih =>
    obtain ⟨k, v⟩ := q
    by_cases hk : s = k
    · subst hk
      by_cases hp : p s = true
      · rw [List.filter_cons_of_pos (by simpa using hp)]
        simp [hp]
      · rw [List.filter_cons_of_neg (by simpa using hp), ih, if_neg hp, if_neg hp]
    · have h1 : (s == k) = false := by simpa using hk
      by_cases hp : p k = true
      · rw [List.filter_cons_of_pos (by simpa using hp), List.lookup_cons, List.lookup_cons, h1, ih]
      · rw [List.filter_cons_of_neg (by simpa using hp), ih, List.lookup_cons, h1]

theorem Src.fix_lookup (S : Src N K) {s : String} (h : s ∈ S.all) : S.fix.lookup s = S.subs.lookup s := by
  unfold Src.fix
  rw [lookup_filter S.subs (fun s => decide (s ∈ S.all)), if_pos (by simpa using h)]

theorem Src.slots_idx {S : Src N K} {s : String} (h : s ∈ S.all) :
    S.slots (S.all.idxOf s) = S.subs.lookup s := by
  unfold Src.slots
  rw [List.getElem?_eq_getElem (List.idxOf_lt_length_of_mem h), List.getElem_idxOf, Option.bind_some,
    S.fix_lookup h]

theorem lookup_isSome {l : List (String × K)} {s : String} : (l.lookup s).isSome ↔ s ∈ l.map Prod.fst := by
  induction l with
  | nil => simp
  | cons q l ih =>
    obtain ⟨k, v⟩ := q
    by_cases hk : s = k
    · subst hk; simp
    · have h1 : (s == k) = false := by simpa using hk
      rw [List.lookup_cons, h1, ih]
      simp [hk]
end

theorem slot_value (S : Src N K) (s : String) : (match S.slot s with
    | some i => (([S.subs.map Prod.snd] : List (List K)).getD 0 []).getD i 0
    | none => (0 : K)) = (S.subs.lookup s).getD 0 := by
  rw [lookup_slot]
  unfold Src.slot
  split_ifs <;> rfl

theorem env_lookup {G : Gen N K} (ht : G.tab = [G.src.subs.map Prod.snd]) (o : Obj N K) (s : String) :
    G.env o s = if s = G.src.fs then o.sr else
      (G.src.subs.lookup s).getD (if s ∈ G.src.all then o.args.getD (G.src.all.idxOf s) 0 else 0) := by
  unfold Gen.env
  split_ifs with h1
  · rfl
  all_goals
    have hv := slot_value G.src s
    rw [ht]
    unfold Src.slot at hv ⊢
    by_cases hk : s ∈ G.src.subs.map Prod.fst
    · rw [if_pos hk] at hv ⊢
      obtain ⟨v, hv'⟩ := Option.isSome_iff_exists.1 (lookup_isSome.2 hk)
      rw [hv'] at hv ⊢
      exact hv
    · rw [if_neg hk]
      have : G.src.subs.lookup s = none := by
        rw [← Option.not_isSome_iff_eq_none, lookup_isSome]; exact hk
      rw [this]
      rfl

section
variable {G : Gen N K} (hS : G.src.ConstWF) (ht : G.tab = [G.src.subs.map Prod.snd])
include hS ht

omit hS in
/-- The values of the symbols are those of the object that holds the constants. -/
theorem env_hold {o : Obj N K} (hl : o.args.length = G.src.all.length) :
    G.free.env (G.hold o) = G.env o := by
  funext s
  rw [env_lookup (G := G.free) rfl, env_lookup ht]
  show (if s = G.src.fs then o.sr else _) = _
  split_ifs with h1
  · rfl
  all_goals
    show ((G.src.subs.filter fun q => q.1 ∉ G.src.all).lookup s).getD _ = _
    rw [lookup_filter G.src.subs (fun s => decide (s ∉ G.src.all))]
  · rename_i h2
    have h2 : s ∈ G.src.all := h2
    rw [if_neg (by simpa using h2)]
    show (mask G.src.slots o.args).getD (G.src.all.idxOf s) 0 = _
    rw [List.getD_eq_getElem?_getD, mask_getElem?, Src.slots_idx h2, List.getD_eq_getElem?_getD,
      List.getElem?_eq_getElem (by rw [hl]; exact List.idxOf_lt_length_of_mem h2)]
    rfl
  · rename_i h2 h3
    exact absurd h2 h3
  · rename_i h2 h3
    exact absurd h3 h2
  · rename_i h2
    have h2 : s ∉ G.src.all := h2
    rw [if_pos (by simpa using h2)]

omit hS in
theorem fnUpdate_hold {o : Obj N K} (hl : o.args.length = G.src.all.length) (n : N) (f : FE K) :
    G.free.fnUpdate (G.hold o) n f = G.hold (G.fnUpdate o n f) := by
  unfold Gen.fnUpdate
  rw [env_hold ht hl]
  rfl

omit hS in
theorem get_hold {o : Obj N K} (hl : o.args.length = G.src.all.length) (n : N) :
    G.free.get (G.hold o) n = G.get o n := by
  unfold Gen.get
  rw [env_hold ht hl]
  rfl

omit hS in
theorem evalOp_hold {o : Obj N K} (hl : o.args.length = G.src.all.length) (op : Op N K) :
    G.free.evalOp (G.hold o) op = G.evalOp o op := by
  induction op with
  | ref n => show some _ = some _; rw [get_hold ht hl]
  | num c => rfl
  | add a b iha ihb | prod a b iha ihb | dot a b iha ihb => simp only [Gen.evalOp, iha, ihb]
  | copy a ih => simp only [Gen.evalOp, ih]
  | inv a ih | norm a ih => simp only [Gen.evalOp, ih]; rfl

omit hS in
theorem refresh_hold {o : Obj N K} (hl : o.args.length = G.src.all.length) (n : N) :
    G.free.refresh (G.hold o) n = (G.refresh o n).map G.hold := by
  unfold Gen.refresh
  show (match G.src.op n with
    | some op => G.free.opUpdate (G.hold o) n op
    | none => (G.src.fe n).map (G.free.fnUpdate (G.hold o) n)) = _
  cases G.src.op n with
  | some op =>
    simp only [Gen.opUpdate]
    rw [evalOp_hold ht hl]
    cases G.evalOp o op <;> rfl
  | none =>
    simp only
    cases G.src.fe n with
    | none => rfl
    | some f => simp only [Option.map_some]; rw [fnUpdate_hold ht hl]

omit ht in
/-- Setting arguments. -/
theorem store_hold {n : N} {l : List String} (hs : G.src.syms n = some l) (f f' : ℕ → K)
    (hf : ∀ i s, l[i]? = some s → f' i = (G.src.fix.lookup s).getD (f i)) (args : List K) :
    G.free.src.store (mask G.src.slots args) l f' = mask G.src.slots (G.src.store args l f) := by
  have hmem : ∀ s ∈ l, s ∈ G.src.all := fun s h => (hS.sub n l hs).subset h
  unfold Src.store
  have hz : ∀ p ∈ l.zipIdx, p.1 ∈ G.src.all ∧ f' p.2 = (G.src.fix.lookup p.1).getD (f p.2) := by
    intro p hp
    have h2 : l[p.2]? = some p.1 := by
      have := List.mem_zipIdx_iff_getElem?.1 (show (p.1, p.2) ∈ l.zipIdx from hp)
      simpa using this
    exact ⟨hmem _ (List.mem_of_getElem? h2), hf _ _ h2⟩
  generalize l.zipIdx = z at hz
  induction z generalizing args with
  | nil => rfl
  | cons p z ih =>
    rw [List.foldl_cons, List.foldl_cons]
    obtain ⟨h1, h2⟩ := hz p (by simp)
    have hnf : p.1 ∉ G.free.src.subs.map Prod.fst := by
      intro hm
      obtain ⟨q, hq, e⟩ := List.mem_map.1 hm
      have := (List.mem_filter.1 hq).2
      rw [e] at this
      simp only [decide_not, Bool.not_eq_true', decide_eq_false_iff_not] at this
      exact this h1
    rw [if_neg hnf]
    have hi : ∀ a : List K, (mask G.src.slots a).set (G.src.all.idxOf p.1) (f' p.2) =
        mask G.src.slots (if p.1 ∈ G.src.subs.map Prod.fst then a else a.set (G.src.all.idxOf p.1) (f p.2)) := by
      intro a
      rw [h2, G.src.fix_lookup h1]
      have hset := mask_set G.src.slots a (G.src.all.idxOf p.1) (f p.2)
      rw [Src.slots_idx h1] at hset
      by_cases hk : p.1 ∈ G.src.subs.map Prod.fst
      · rw [if_pos hk]
        obtain ⟨v, hv⟩ := Option.isSome_iff_exists.1 (lookup_isSome.2 hk)
        rw [hv] at hset ⊢
        apply List.ext_getElem?
        intro j
        rw [List.getElem?_set, mask_getElem?, mask_length]
        by_cases hj : G.src.all.idxOf p.1 = j
        · subst hj
          rw [Src.slots_idx h1, hv]
          by_cases hl : G.src.all.idxOf p.1 < a.length <;> simp [hl]
        · simp [hj]
      · rw [if_neg hk, hset]
    show List.foldl _ ((mask G.src.slots args).set (G.src.all.idxOf p.1) (f' p.2)) z = _
    rw [hi]
    exact ih _ fun p hp => hz p (List.mem_cons_of_mem _ hp)

/-- No symbol of the name has a value. -/
def Src.FreeName (S : Src N K) (n : N) : Prop := ∀ l, S.syms n = some l → ∀ s ∈ l, s ∉ S.subs.map Prod.fst

omit ht in
theorem setArg_hold {o : Obj N K} {n : N} (hn : G.src.FreeName n) (v : CV K) :
    G.free.setArg (G.hold o) n v = (G.setArg o n v).map G.hold := by
  unfold Gen.setArg
  show (match G.src.syms n with | none => none | some l => _) = _
  cases hs : G.src.syms n with
  | none => rfl
  | some l =>
    cases v with
    | s c => rfl
    | m A =>
      simp only
      split_ifs with h
      · simp only [Option.map_some]
        show some (Obj.mk (G.free.src.store (mask G.src.slots o.args) l _) _ _) = _
        rw [store_hold hS hs (fun i => A.e i 0) (fun i => A.e i 0)]
        · rfl
        · intro i s hi
          have hm := List.mem_of_getElem? hi
          have : G.src.fix.lookup s = none := by
            rw [G.src.fix_lookup ((hS.sub n l hs).subset hm), ← Option.not_isSome_iff_eq_none, lookup_isSome]
            exact hn l hs s hm
          rw [this]; rfl
      · rfl

omit ht in
/-- Setting inputs: the constants are set instead of the given values. -/
theorem setVec_hold {o : Obj N K} {n : N} {l : List String} (hs : G.src.syms n = some l) {w : List K}
    (hw : w.length = l.length) :
    G.free.setVec (G.hold o) n (List.zipWith (fun s v => (G.src.fix.lookup s).getD v) l w) =
      (G.setVec o n w).map G.hold := by
  unfold Gen.setVec
  show (match G.src.syms n with | none => none | some l => _) = _
  rw [hs]
  simp only [Option.map_some]
  show some (Obj.mk (G.free.src.store (mask G.src.slots o.args) l _) _ _) = _
  rw [store_hold hS hs (fun i => w.getD i 0)]
  · rfl
  · intro i s hi
    obtain ⟨hlt, he⟩ := List.getElem?_eq_some_iff.1 hi
    rw [List.getD_eq_getElem?_getD, List.getElem?_zipWith, hi, List.getD_eq_getElem?_getD,
      List.getElem?_eq_getElem (by omega)]
    rfl

omit hS ht in
theorem refresh_length {o o' : Obj N K} {n : N} (h : G.refresh o n = some o') : o'.args = o.args := by
  unfold Gen.refresh at h
  split at h
  · unfold Gen.opUpdate at h
    obtain ⟨v, -, h⟩ := Option.bind_eq_some_iff.1 h
    cases h; rfl
  · obtain ⟨f, -, rfl⟩ := Option.map_eq_some_iff.1 h
    rfl

omit hS ht in
theorem setArg_length {o o' : Obj N K} {n : N} {v : CV K} (h : G.setArg o n v = some o') :
    o'.args.length = o.args.length := by
  unfold Gen.setArg at h
  split at h
  · cases h
  · split at h
    · cases h
    · split_ifs at h
      cases h
      dsimp only
      apply store_length

omit hS ht in
theorem cexec_length {o o' : Obj N K} {c : Cmd N} (h : G.exec o c = some o') :
    o'.args.length = o.args.length := by
  obtain ⟨o1, h1, h⟩ := Option.bind_eq_some_iff.1 h
  split_ifs at h
  · cases h; rw [refresh_length h1]
  · rw [setArg_length h, refresh_length h1]

theorem exec_hold {o : Obj N K} (hl : o.args.length = G.src.all.length) {c : Cmd N}
    (hc : G.src.FreeName c.set) : G.free.exec (G.hold o) c = (G.exec o c).map G.hold := by
  show (G.free.refresh (G.hold o) c.eval).bind _ = ((G.refresh o c.eval).bind _).map _
  rw [refresh_hold ht hl]
  cases G.refresh o c.eval with
  | none => rfl
  | some o1 =>
    simp only [Option.map_some, Option.bind_some]
    split_ifs
    · rfl
    · exact setArg_hold hS hc _

theorem execs_hold {o : Obj N K} (hl : o.args.length = G.src.all.length) {l : List (Cmd N)}
    (hc : ∀ c ∈ l, G.src.FreeName c.set) : G.free.execs (G.hold o) l = (G.execs o l).map G.hold :=
  foldlM_mask (I := fun o : Obj N K => o.args.length = G.src.all.length)
    (fun _ ho c hm => exec_hold hS ht ho (hc c hm)) (fun _ _ _ ho h => (cexec_length h).trans ho) hl

omit hS ht in
theorem cexecs_length {o o' : Obj N K} {l : List (Cmd N)} (h : G.execs o l = some o') :
    o'.args.length = o.args.length :=
  foldlM_inv (I := fun s => s.args.length = o.args.length) (fun _ _ _ hs h => (cexec_length h).trans hs)
    rfl h

/-- A run, with the constants. -/
def runHold (G : Gen N K) : Run (Obj N K) → Run (Obj N K)
  | .ok o => .ok (G.hold o)
  | .err => .err
  | .fuel => .fuel

theorem loop_hold {eps : K} {maxit : ℕ} {l : List (Cmd N)} {res step : N}
    (hc : ∀ c ∈ l, G.src.FreeName c.set) (fuel it : ℕ) {o : Obj N K}
    (hl : o.args.length = G.src.all.length) : G.free.loop eps maxit l res step fuel it (G.hold o) =
      runHold G (G.loop eps maxit l res step fuel it o) := by
  induction fuel generalizing it o with
  | zero => rfl
  | succ fuel ih =>
    unfold Gen.loop
    have : G.free.cond eps maxit res step (G.hold o) it = G.cond eps maxit res step o it := by
      unfold Gen.cond
      rw [get_hold ht hl, get_hold ht hl]
    rw [this]
    cases G.cond eps maxit res step o it with
    | none => rfl
    | some b =>
      cases b with
      | false => rfl
      | true =>
        simp only
        rw [execs_hold hS ht hl hc]
        cases he : G.execs o l with
        | none => rfl
        | some o' => exact ih (it + 1) ((cexecs_length he).trans hl)

omit hS ht in
theorem cloop_length {eps : K} {maxit : ℕ} {l : List (Cmd N)} {res step : N} (fuel it : ℕ) {o o' : Obj N K}
    (h : G.loop eps maxit l res step fuel it o = .ok o') : o'.args.length = o.args.length := by
  induction fuel generalizing it o with
  | zero => simp [Gen.loop] at h
  | succ fuel ih =>
    unfold Gen.loop at h
    split at h
    · cases h
    · cases h; rfl
    · split at h
      · cases h
      · next he => exact (ih _ h).trans (cexecs_length he)

/-- The actions set no constant. -/
def ActFree (S : Src N K) : Action N → Prop
  | .exec l => ∀ c ∈ l, S.FreeName c.set
  | .iter l _ _ => ∀ c ∈ l, S.FreeName c.set

theorem action_hold {eps : K} {maxit : ℕ} {o : Obj N K} (hl : o.args.length = G.src.all.length)
    {a : Action N} (ha : ActFree G.src a) :
    G.free.action eps maxit (G.hold o) a = (G.action eps maxit o a).map G.hold := by
  cases a with
  | exec l => exact execs_hold hS ht hl ha
  | iter l res step =>
    simp only [Gen.action, Gen.iterate]
    have := loop_hold hS ht (eps := eps) (maxit := maxit) (res := res) (step := step) ha (maxit + 1) 0
      (o := { o with fld := Function.update o.fld step (.s 1) }) hl
    rw [show ({ G.hold o with fld := Function.update (G.hold o).fld step (.s 1) } : Obj N K) =
      G.hold { o with fld := Function.update o.fld step (.s 1) } from rfl, this]
    cases G.loop eps maxit l res step (maxit + 1) 0 { o with fld := Function.update o.fld step (.s 1) } <;> rfl

omit hS ht in
theorem caction_length {eps : K} {maxit : ℕ} {o o' : Obj N K} {a : Action N}
    (h : G.action eps maxit o a = some o') : o'.args.length = o.args.length := by
  cases a with
  | exec l => exact cexecs_length h
  | iter l res step =>
    simp only [Gen.action, Gen.iterate] at h
    split at h
    · next he =>
      cases h
      have := cloop_length _ _ he
      exact this
    · cases h

/-- The actions of an update. -/
theorem actions_hold {eps : K} {maxit : ℕ} {o : Obj N K} (hl : o.args.length = G.src.all.length)
    {as : List (Action N)} (ha : ∀ a ∈ as, ActFree G.src a) :
    as.foldlM (G.free.action eps maxit) (G.hold o) = (as.foldlM (G.action eps maxit) o).map G.hold :=
  foldlM_mask (I := fun o : Obj N K => o.args.length = G.src.all.length)
    (fun _ ho a hm => action_hold hS ht ho (ha a hm)) (fun _ _ _ ho h => (caction_length h).trans ho) hl

omit hS ht in
theorem setVec_length {n : N} {w : List K} {o o' : Obj N K} (h : G.setVec o n w = some o') :
    o'.args.length = o.args.length := by
  unfold Gen.setVec at h
  split at h
  · cases h
  · cases h; dsimp only; apply store_length

/-- C83. An update of the generated object, with constants: it is the update of the object generated without
constants, when the constants are given as inputs. -/
theorem C83_cpp_update {eps : K} {maxit : ℕ} {o : Obj N K} (hl : o.args.length = G.src.all.length)
    {as : List (Action N)} (ha : ∀ a ∈ as, ActFree G.src a) {nU nP : N} {lU lP : List String}
    (hU : G.src.syms nU = some lU) (hP : G.src.syms nP = some lP) {u p : List K}
    (hu : u.length = lU.length) (hp : p.length = lP.length) :
    G.free.update eps maxit as nU nP (List.zipWith (fun s v => (G.src.fix.lookup s).getD v) lU u)
        (List.zipWith (fun s v => (G.src.fix.lookup s).getD v) lP p) (G.hold o) =
      (G.update eps maxit as nU nP u p o).map G.hold := by
  show (G.free.setVec (G.hold o) nU _).bind _ = ((G.setVec o nU u).bind _).map _
  rw [setVec_hold hS hU hu]
  cases h1 : G.setVec o nU u with
  | none => rfl
  | some o1 =>
    have l1 := (setVec_length h1).trans hl
    show (G.free.setVec (G.hold o1) nP _).bind _ = ((G.setVec o1 nP p).bind _).map _
    rw [setVec_hold hS hP hp]
    cases h2 : G.setVec o1 nP p with
    | none => rfl
    | some o2 => exact actions_hold hS ht ((setVec_length h2).trans l1) ha

omit hS in
theorem initFns_hold {o : Obj N K} (hl : o.args.length = G.src.all.length) :
    G.free.initFns (G.hold o) = G.hold (G.initFns o) := by
  unfold Gen.initFns
  show G.src.deps.foldl _ _ = _
  generalize G.src.deps = l
  induction l generalizing o with
  | nil => rfl
  | cons n l ih =>
    rw [List.foldl_cons, List.foldl_cons]
    show List.foldl _ (match G.src.op n, G.src.fe n with
      | none, some f => G.free.fnUpdate (G.hold o) n f
      | _, _ => G.hold o) l = _
    cases G.src.op n with
    | some op => exact ih hl
    | none =>
      cases G.src.fe n with
      | none => exact ih hl
      | some f =>
        dsimp only
        rw [fnUpdate_hold ht hl]
        exact ih hl

omit hS ht in
theorem initFns_length (o : Obj N K) : (G.initFns o).args = o.args := by
  unfold Gen.initFns
  generalize G.src.deps = l
  induction l generalizing o with
  | nil => rfl
  | cons n l ih =>
    rw [List.foldl_cons, ih]
    split <;> rfl

omit hS in
theorem initOps_hold {o : Obj N K} (hl : o.args.length = G.src.all.length) :
    G.free.initOps (G.hold o) = (G.initOps o).map G.hold := by
  unfold Gen.initOps
  refine foldlM_mask (I := fun o : Obj N K => o.args.length = G.src.all.length) ?_ ?_ hl
  · intro o ho n _
    show (match G.src.op n with | some op => G.free.opUpdate (G.hold o) n op | none => some (G.hold o)) = _
    cases G.src.op n with
    | none => rfl
    | some op =>
      simp only [Gen.opUpdate]
      rw [evalOp_hold ht ho]
      cases G.evalOp o op <;> rfl
  · intro o o' n ho h
    split at h
    · unfold Gen.opUpdate at h
      obtain ⟨v, -, h⟩ := Option.bind_eq_some_iff.1 h
      cases h; exact ho
    · cases h; exact ho

/-- The object before `init()`. -/
def start (G : Gen N K) (junk : Obj N K) : Obj N K where
  args := junk.args
  sr := G.fs0
  fld := fun n => match G.src.op n, G.src.fe n with
    | none, some f => if n ∈ G.src.deps then G.data ⟨junk.args, G.fs0, junk.fld⟩ f else junk.fld n
    | _, _ => junk.fld n

omit hS ht in
theorem construct_eq (junk : Obj N K) : G.construct junk = G.init (start G junk) := rfl

omit hS in
theorem start_hold {junk : Obj N K} (hl : junk.args.length = G.src.all.length) :
    start G.free (G.hold junk) = G.hold (start G junk) := by
  have : (start G.free (G.hold junk)).fld = (start G junk).fld := by
    funext n
    show (match G.src.op n, G.src.fe n with
      | none, some f => if n ∈ G.src.deps then G.free.data (G.hold ⟨junk.args, G.fs0, junk.fld⟩) f
        else junk.fld n
      | _, _ => junk.fld n) = match G.src.op n, G.src.fe n with
      | none, some f => if n ∈ G.src.deps then G.data ⟨junk.args, G.fs0, junk.fld⟩ f else junk.fld n
      | _, _ => junk.fld n
    have hd : ∀ f, G.free.data (G.hold ⟨junk.args, G.fs0, junk.fld⟩) f =
        G.data ⟨junk.args, G.fs0, junk.fld⟩ f := by
      intro f
      unfold Gen.data
      rw [env_hold (o := ⟨junk.args, G.fs0, junk.fld⟩) ht hl]
      rfl
    simp only [hd]
  show Obj.mk _ _ (start G.free (G.hold junk)).fld = Obj.mk _ _ _
  rw [this]
  rfl

theorem init_hold (hi : ∀ p ∈ G.inits, PairOK G.src p) {o : Obj N K}
    (hl : o.args.length = G.src.all.length) : G.free.init (G.hold o) = (G.init o).map G.hold := by
  have e : (G.inits.map fun p => (p.1, G.src.const p.1 p.2)).foldlM (fun o p => G.free.setVec o p.1 p.2)
      (G.hold o) = (G.inits.foldlM (fun o p => G.setVec o p.1 p.2) o).map G.hold := by
    rw [List.foldlM_map]
    refine foldlM_mask (I := fun o : Obj N K => o.args.length = G.src.all.length) ?_
      (fun _ _ _ ho h => (setVec_length h).trans ho) hl
    intro o _ p hp
    obtain ⟨l, h1, h2⟩ := hi p hp
    have := setVec_hold hS (o := o) h1 h2
    unfold Src.const
    rw [h1]
    exact this
  show ((G.inits.map fun p => (p.1, G.src.const p.1 p.2)).foldlM (fun o p => G.free.setVec o p.1 p.2)
      (G.hold o)).bind _ = Option.map G.hold ((G.inits.foldlM (fun o p => G.setVec o p.1 p.2) o).bind _)
  rw [e]
  cases h1 : G.inits.foldlM (fun o p => G.setVec o p.1 p.2) o with
  | none => rfl
  | some o1 =>
    have l1 : o1.args.length = G.src.all.length :=
      foldlM_inv (I := fun o : Obj N K => o.args.length = G.src.all.length)
        (fun _ _ _ ho h => (setVec_length h).trans ho) hl h1
    show G.free.initOps (G.free.initFns (G.hold o1)) = (G.initOps (G.initFns o1)).map G.hold
    rw [initFns_hold ht l1, initOps_hold ht (by rw [initFns_length]; exact l1)]

/-- C83. The construction of an object with constants: it is the construction of the object generated without
constants, when the constants are given as initial values. -/
theorem C83_cpp_construct (hi : ∀ p ∈ G.inits, PairOK G.src p) {junk : Obj N K}
    (hl : junk.args.length = G.src.all.length) :
    G.free.construct (G.hold junk) = (G.construct junk).map G.hold := by
  rw [construct_eq, construct_eq, start_hold ht hl]
  exact init_hold hS ht hi hl

end
end Cpp
end Pyphs
