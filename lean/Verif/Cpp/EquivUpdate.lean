/-
C29, continued: commands, loop, update, histories.
-/
import Verif.Cpp.EquivStep

namespace Pyphs
namespace Cpp
open Numeric

variable {K : Type} [Field K] [LinearOrder K] {N : Type} [DecidableEq N]
variable {G : Gen N K} {Γ : N → Sh} {T : List N}

/-! ### Setting arguments -/

omit [Field K] [LinearOrder K] [DecidableEq N] in
theorem find_inds_eq {l all : List String} (h : l.Sublist all) (hn : all.Nodup) :
    (find l all).2 = l.map fun s => all.idxOf s := by
  have h1 := (C25_find l all).2.2
  rw [find_sublist h hn] at h1
  have hlen : (find l all).2.length = l.length := by simpa using congrArg List.length h1
  apply List.ext_getElem
  · simp [hlen]
  · intro i h2 h3
    have hi : i < l.length := by omega
    have := congrArg (fun L => L[i]?) h1
    simp only [List.getElem?_map, List.getElem?_eq_getElem h2, List.getElem?_eq_getElem hi,
      Option.map_some, Option.some.injEq] at this
    rw [List.getElem_map]
    obtain ⟨hlt, he⟩ := List.getElem?_eq_some_iff.1 this
    rw [← he, hn.idxOf_getElem]

omit [Field K] [LinearOrder K] in
theorem store_fold (S : Src N K) (f : ℕ → K) :
    ∀ (l : List String) (k : ℕ) (args : List K), (∀ s ∈ l, s ∉ S.subs.map Prod.fst) →
    (l.zipIdx k).foldl (fun a p => if p.1 ∈ S.subs.map Prod.fst then a
      else a.set (S.all.idxOf p.1) (f p.2)) args =
    assign args (l.map fun s => S.all.idxOf s) ((List.range' k l.length).map f) := by
  intro l
  induction l with
  | nil => intro k args _; rfl
  | cons s l ih =>
    intro k args h
    rw [List.zipIdx_cons, List.foldl_cons]
    show List.foldl _ (if s ∈ S.subs.map Prod.fst then args else args.set (S.all.idxOf s) (f k)) _ = _
    rw [if_neg (h s (by simp)), ih (k + 1) _ fun s hs => h s (by simp [hs])]
    rfl

omit [LinearOrder K] in
theorem store_eq {S : Src N K} (hS : S.WF) {n : N} {l : List String} (hs : S.syms n = some l)
    (args : List K) (f : ℕ → K) :
    S.store args l f = assign args (find l S.all).2 ((List.range l.length).map f) := by
  unfold Src.store
  rw [store_fold S f l 0 args fun s h => (hS.disj s ((hS.sub n l hs).subset h)).1,
    find_inds_eq (hS.sub n l hs) hS.nodup, List.range_eq_range']

omit [LinearOrder K] in
theorem env_of_eq {o o' : Obj N K} (h1 : o'.args = o.args) (h2 : o'.sr = o.sr) :
    G.env o' = G.env o := by
  funext s
  unfold Gen.env
  rw [h1, h2]

/-- Python sets an argument with a vector of the right length: same assignments. -/
theorem py_set {S : Src N K} {fs0 : K} {sqrt : K → K} (hS : S.WF) {st : St N K} {n : N}
    {l : List String} (hs : S.syms n = some l) {w : List K} (hw : w.length = l.length) :
    (S.prog fs0 sqrt).set st n (.v w) =
      some { st with args := S.store st.args l fun i => w.getD i 0 } := by
  have hlen : w.length = (find l S.all).2.length := by
    rw [find_inds_eq (hS.sub n l hs) hS.nodup]; simpa using hw
  have hi : (S.prog fs0 sqrt).argInds n = some (find l S.all).2 := by
    show (S.syms n).map _ = _
    rw [hs]; rfl
  have hm : (List.range l.length).map (fun i => w.getD i 0) = w := by
    apply List.ext_getElem
    · simp [hw]
    · intro i h1 h2
      simp [List.getD_eq_getElem?_getD, h2]
  unfold Prog.set
  rw [hi]
  dsimp only
  rw [store_eq hS hs, hm]
  unfold setInds
  dsimp only
  rw [if_pos hlen]
  rfl

theorem store_length (S : Src N K) (args : List K) (l : List String) (f : ℕ → K) :
    (S.store args l f).length = args.length := by
  unfold Src.store
  generalize l.zipIdx = z
  induction z generalizing args with
  | nil => rfl
  | cons p z ih => rw [List.foldl_cons, ih]; split_ifs <;> simp

theorem store_congr {S : Src N K} (hS : S.WF) {n : N} {l : List String} (hs : S.syms n = some l)
    (args : List K) {f g : ℕ → K} (h : ∀ i < l.length, f i = g i) :
    S.store args l f = S.store args l g := by
  rw [store_eq hS hs, store_eq hS hs]
  congr 1
  exact List.map_congr_left fun i hi => h i (List.mem_range.1 hi)

/-- Setting the arguments keeps the relation. -/
theorem rel_store (hS : G.src.WF) {st : St N K} {o : Obj N K} (h : Rel G Γ T st o)
    (l : List String) (f : ℕ → K) :
    Rel G Γ T { st with args := G.src.store st.args l f }
      { o with args := G.src.store o.args l f } where
  args := by simp [h.args]
  len := by simp [store_length, h.len]
  sr := h.sr
  vals := h.vals
  const := fun n f ho hf hd i hi j hj hdep =>
    (h.const n f ho hf hd i hi j hj hdep).trans (ev_const hS hdep rfl)

/-! ### Evaluations and commands -/

theorem fe_val_sh (f : FE K) (env : String → K) : HasSh (f.val env) f.sh := by
  cases f <;> simp [FE.val, FE.sh, HasSh]

theorem fe_val_rep {f : FE K} {env : String → K} {A : Mat K} (hr : A.r = f.r) (hc : A.c = f.c)
    (h : ∀ i < f.r, ∀ j < f.c, A.e i j = (f.ent i j).ev env) : Rep (f.val env) (.m A) := by
  cases f with
  | vec n e =>
    refine ⟨by rw [hr]; simp [FE.r], by rw [hc]; simp [FE.c], fun i hi => ?_⟩
    have hi' : i < n := by simpa using hi
    rw [getD_map_range _ hi']
    exact h i hi' 0 (by show 0 < col n; unfold col; rw [if_neg (by omega)]; omega)
  | mat r c e => exact ⟨hr.symm, hc.symm, fun i hi j hj => (h i hi j hj).symm⟩

/-- Evaluation of a name: the C++ member gets the value that Python computes. -/
theorem rel_refresh (hS : G.src.WF) (hG : GenOK G) (hA : ArgsOK G.src Γ) {st : St N K}
    {o : Obj N K} (h : Rel G Γ T st o) {n : N} (hn : EvalOK G.src Γ T n) (hd : n ∈ G.src.deps)
    {v : NV K} (hv : G.py.eval st n = some v) :
    ∃ cv, G.refresh o n = some { o with fld := Function.update o.fld n cv } ∧
      HasSh v (Γ n) ∧ Rep v cv ∧
      ∀ f, G.src.op n = none → G.src.fe n = some f → ∀ i < f.r, ∀ j < f.c,
        G.src.dep (f.ent i j) = false → cv.at i j = (f.ent i j).ev (G.env o) := by
  unfold EvalOK at hn
  unfold Gen.refresh
  cases ho : G.src.op n with
  | some op =>
    rw [ho] at hn
    have e : G.py.eval st n = G.py.evalOp st op := by
      unfold Prog.eval
      show (match G.src.op n with | some op => G.py.evalOp st op | none => _) = _
      rw [ho]
    rw [e] at hv
    obtain ⟨s1, cv, e1, r1⟩ := rel_evalOp hS hG hA h op _ v hn hv
    refine ⟨cv, ?_, s1, r1, fun f hf => by simp at hf⟩
    dsimp only
    unfold Gen.opUpdate
    rw [e1]; rfl
  | none =>
    rw [ho] at hn
    obtain ⟨f, hf, hsh⟩ := hn
    have e : G.py.eval st n = some (f.val (envOf G.src.all (G.src.base G.fs0) st.args)) := by
      have h1 : G.py.op n = none := ho
      have h2 : G.py.func n = some fun a => f.val (envOf G.src.all (G.src.base G.fs0) a) := by
        show (G.src.fe n).map _ = _
        rw [hf]; rfl
      unfold Prog.eval
      rw [h1, h2]; rfl
    rw [e] at hv
    obtain rfl := Option.some.inj hv
    dsimp only
    rw [hf]
    refine ⟨_, rfl, hsh ▸ fe_val_sh f _, ?_, ?_⟩
    · refine fe_val_rep rfl rfl fun i hi j hj => ?_
      rw [← env_eq hS hG h.args h.len h.sr]
      show (if G.src.dep (f.ent i j) then _ else _) = _
      by_cases hdep : G.src.dep (f.ent i j) = true
      · rw [if_pos hdep]
      · rw [if_neg hdep]
        exact h.const n f ho hf hd i hi j hj (by simpa using hdep)
    · intro f' _ hf' i hi j hj hdep
      obtain rfl := Option.some.inj hf'
      show (if G.src.dep (f.ent i j) then _ else (o.fld n).at i j) = _
      rw [hdep]
      exact h.const n f ho hf hd i hi j hj hdep

theorem rel_exec (hS : G.src.WF) (hG : GenOK G) (hA : ArgsOK G.src Γ) {st st' : St N K}
    {o : Obj N K} (h : Rel G Γ T st o) {c : Cmd N} (hc : CmdOK G.src Γ T c)
    (he : G.py.exec st c = some st') : ∃ o', G.exec o c = some o' ∧ Rel G Γ T st' o' := by
  obtain ⟨h1, hd, h2, h3, h4⟩ := hc
  unfold Prog.exec at he
  simp only [Option.bind_eq_bind, Option.bind_eq_some_iff] at he
  obtain ⟨v, hv, he⟩ := he
  obtain ⟨cv, e1, s1, r1, k1⟩ := rel_refresh hS hG hA h h1 hd hv
  have hconst : ∀ n f, G.src.op n = none → G.src.fe n = some f → n ∈ G.src.deps →
      ∀ i < f.r, ∀ j < f.c, G.src.dep (f.ent i j) = false →
      (Function.update o.fld c.eval cv n).at i j = (f.ent i j).ev (G.env o) := by
    intro n f ho hf hdn i hi j hj hdep
    by_cases hne : n = c.eval
    · subst hne
      rw [Function.update_self]
      exact k1 f ho hf i hi j hj hdep
    · rw [Function.update_of_ne hne]
      exact h.const n f ho hf hdn i hi j hj hdep
  by_cases hse : c.set = c.eval
  · rw [if_pos hse] at h4
    refine ⟨{ o with fld := Function.update o.fld c.eval cv }, ?_, ?_⟩
    · unfold Gen.exec
      rw [e1]
      show (if c.set = c.eval then _ else _) = _
      rw [if_pos hse]
    · have hi : G.py.argInds c.set = none := by
        rw [hse, py_laidOut G c.eval, h3]; rfl
      unfold Prog.set at he
      rw [hi] at he
      obtain rfl := Option.some.inj he
      refine ⟨h.args, h.len, h.sr, ?_, hconst⟩
      intro n w hn hs hw
      by_cases hne : n = c.eval
      · subst hne
        rw [hse] at hw
        simp only [Function.update_self, Option.some.injEq] at hw
        subst hw
        simp only [Function.update_self]
        exact ⟨s1, r1⟩
      · simp only [hse, Function.update_of_ne hne] at hw ⊢
        exact h.vals n w hn hs hw
  · rw [if_neg hse] at h4
    obtain ⟨hsome, hT⟩ := h4
    obtain ⟨l, hl⟩ := Option.isSome_iff_exists.1 hsome
    rw [← h2, hA _ _ hl] at s1
    cases v with
    | s a => exact s1.elim
    | m A => exact s1.elim
    | v w =>
      have hw : w.length = l.length := s1
      cases cv with
      | s a => exact r1.elim
      | m A =>
        obtain ⟨q1, q2, q3⟩ := r1
        rw [py_set hS hl hw] at he
        obtain rfl := Option.some.inj he
        have hrel : Rel G Γ T st { o with fld := Function.update o.fld c.eval (.m A) } := by
          refine ⟨h.args, h.len, h.sr, ?_, hconst⟩
          intro n w' hn hs hw'
          have hne : n ≠ c.eval := fun e => hn (e ▸ hT)
          simp only [Function.update_of_ne hne]
          exact h.vals n w' hn hs hw'
        refine ⟨_, ?_, rel_store hS hrel l fun i => w.getD i 0⟩
        unfold Gen.exec
        rw [e1]
        show (if c.set = c.eval then _ else G.setArg { o with fld := Function.update o.fld c.eval (.m A) }
          c.set (Function.update o.fld c.eval (.m A) c.eval)) = _
        rw [if_neg hse, Function.update_self]
        unfold Gen.setArg
        rw [hl]
        dsimp only
        rw [if_pos ⟨by rw [q1, hw], by rw [q2, hw]⟩]
        congr 2
        exact store_congr hS hl _ fun i hi => q3 i (by omega)

theorem rel_execs (hS : G.src.WF) (hG : GenOK G) (hA : ArgsOK G.src Γ) :
    ∀ (l : List (Cmd N)) {st st' : St N K} {o : Obj N K}, Rel G Γ T st o →
    (∀ c ∈ l, CmdOK G.src Γ T c) → G.py.execs st l = some st' →
    ∃ o', G.execs o l = some o' ∧ Rel G Γ T st' o' := by
  intro l
  induction l with
  | nil =>
    intro st st' o h _ he
    obtain rfl := Option.some.inj he
    exact ⟨o, rfl, h⟩
  | cons c l ih =>
    intro st st' o h hc he
    unfold Prog.execs at he
    rw [List.foldlM_cons] at he
    simp only [Option.bind_eq_bind, Option.bind_eq_some_iff] at he
    obtain ⟨st1, h1, h2⟩ := he
    obtain ⟨o1, e1, r1⟩ := rel_exec hS hG hA h (hc c (by simp)) h1
    obtain ⟨o2, e2, r2⟩ := ih r1 (fun c h => hc c (by simp [h])) h2
    refine ⟨o2, ?_, r2⟩
    unfold Gen.execs
    rw [List.foldlM_cons, e1]
    exact e2

/-! ### The loop -/

theorem get_none {st : St N K} {n : N} (hs : G.src.syms n = none) :
    G.py.get st n = st.vals n := by
  have : G.py.argInds n = none := by rw [py_laidOut G n, hs]; rfl
  unfold Prog.get
  rw [this]

theorem cget_none {o : Obj N K} {n : N} (hs : G.src.syms n = none) : G.get o n = o.fld n := by
  unfold Gen.get; rw [hs]

/-- Scalars are equal. -/
theorem rel_scalar {st : St N K} {o : Obj N K} (h : Rel G Γ T st o) {n : N} (hs : G.src.syms n = none)
    (hn : n ∉ T) (hsh : Γ n = .sc) {a : K} (ha : G.py.get st n = some (.s a)) :
    G.get o n = .s a := by
  rw [get_none hs] at ha
  obtain ⟨-, r⟩ := h.vals n _ hn hs ha
  rw [cget_none hs]
  cases hf : o.fld n with
  | s b => rw [hf] at r; rw [show a = b from r]
  | m A => rw [hf] at r; exact r.elim

theorem step_scalar {st : St N K} {o : Obj N K} (h : Rel G Γ T st o) {n : N}
    (hs : G.src.syms n = none) (hn : n ∉ T) (hsh : Γ n = .sc) {v : NV K}
    (ha : st.vals n = some v) : ∃ a, v = .s a ∧ G.get o n = .s a := by
  obtain ⟨s1, -⟩ := h.vals n _ hn hs ha
  rw [hsh] at s1
  cases v with
  | s a => exact ⟨a, rfl, rel_scalar h hs hn hsh (by rw [get_none hs]; exact ha)⟩
  | v l => exact s1.elim
  | m A => exact s1.elim

/-- Names with a value keep one. -/
theorem exec_vals {st st' : St N K} {c : Cmd N} (h : G.py.exec st c = some st') {n : N}
    (hn : (st.vals n).isSome) : (st'.vals n).isSome := by
  unfold Prog.exec at h
  simp only [Option.bind_eq_bind, Option.bind_eq_some_iff] at h
  obtain ⟨v, -, h⟩ := h
  unfold Prog.set at h
  split at h
  · obtain ⟨a, -, rfl⟩ := Option.map_eq_some_iff.1 h
    exact hn
  · obtain rfl := Option.some.inj h
    by_cases hne : n = c.set
    · subst hne; simp
    · simpa [Function.update_of_ne hne] using hn

theorem execs_vals : ∀ (l : List (Cmd N)) {st st' : St N K}, G.py.execs st l = some st' →
    ∀ {n : N}, (st.vals n).isSome → (st'.vals n).isSome := by
  intro l
  induction l with
  | nil => intro st st' h n hn; obtain rfl := Option.some.inj h; exact hn
  | cons c l ih =>
    intro st st' h n hn
    unfold Prog.execs at h
    rw [List.foldlM_cons] at h
    simp only [Option.bind_eq_bind, Option.bind_eq_some_iff] at h
    obtain ⟨st1, h1, h2⟩ := h
    exact ih h2 (exec_vals h1 hn)

theorem rel_cond {st : St N K} {o : Obj N K} (h : Rel G Γ T st o) {eps : K} {maxit : ℕ}
    {res step : N} (hr : Γ res = .sc) (hs : Γ step = .sc) (hrT : res ∉ T) (hsT : step ∉ T)
    (hra : G.src.syms res = none) (hsa : G.src.syms step = none) {it : ℕ} {b : Bool}
    (hv : (st.vals step).isSome) (hc : G.py.cond eps maxit res step st it = some b) :
    G.cond eps maxit res step o it = some b := by
  obtain ⟨v, hv⟩ := Option.isSome_iff_exists.1 hv
  obtain ⟨t, rfl, et⟩ := step_scalar h hsa hsT hs hv
  unfold Prog.cond at hc
  unfold Gen.cond
  split at hc
  · rename_i r hg
    rw [rel_scalar h hra hrT hr hg, et]
    dsimp only
    split_ifs at hc with hlt
    · rw [get_none hsa, hv] at hc
      simp only [Option.some.injEq] at hc
      rw [← hc]
      simp [hlt, Bool.and_comm]
    · obtain rfl := Option.some.inj hc
      simp [hlt]
  · simp at hc

theorem rel_loop (hS : G.src.WF) (hG : GenOK G) (hA : ArgsOK G.src Γ) {eps : K} {maxit : ℕ}
    {l : List (Cmd N)} {res step : N} (ha : ActOK G.src Γ T (.iter l res step)) :
    ∀ (fuel it : ℕ) {st st' : St N K} {k : ℕ} {o : Obj N K}, Rel G Γ T st o →
    (st.vals step).isSome →
    G.py.loop eps maxit l res step fuel it st = .ok (st', k) →
    ∃ o', G.loop eps maxit l res step fuel it o = .ok o' ∧ Rel G Γ T st' o' := by
  obtain ⟨hl, hr, hs, hrT, hsT, hra, hsa, -⟩ := ha
  intro fuel
  induction fuel with
  | zero => intro it st st' k o _ _ h; simp [Prog.loop] at h
  | succ fuel ih =>
    intro it st st' k o h hv hp
    unfold Prog.loop at hp
    unfold Gen.loop
    cases hc : G.py.cond eps maxit res step st it with
    | none => rw [hc] at hp; simp at hp
    | some b =>
      rw [hc] at hp
      rw [rel_cond h hr hs hrT hsT hra hsa hv hc]
      cases b with
      | false =>
        simp only [Run.ok.injEq, Prod.mk.injEq] at hp
        obtain ⟨rfl, rfl⟩ := hp
        exact ⟨o, rfl, h⟩
      | true =>
        dsimp only at hp ⊢
        cases he : G.py.execs st l with
        | none => rw [he] at hp; simp at hp
        | some st1 =>
          rw [he] at hp
          obtain ⟨o1, e1, r1⟩ := rel_execs hS hG hA l h hl he
          rw [e1]
          exact ih (it + 1) r1 (execs_vals l he hv) hp

theorem rel_action (hS : G.src.WF) (hG : GenOK G) (hA : ArgsOK G.src Γ) {eps : K} {maxit : ℕ}
    {a : Action N} (ha : ActOK G.src Γ T a) {st st' : St N K} {o : Obj N K} (h : Rel G Γ T st o)
    (hp : G.py.action eps maxit st a = some st') :
    ∃ o', G.action eps maxit o a = some o' ∧ Rel G Γ T st' o' := by
  cases a with
  | exec l => exact rel_execs hS hG hA l h ha hp
  | iter l res step =>
    obtain ⟨hl, hr, hs, hrT, hsT, hra, hsa, hfe⟩ := id ha
    unfold Prog.action at hp
    dsimp only at hp
    unfold Prog.iterexecs at hp
    have hi : G.py.argInds step = none := by rw [py_laidOut G step, hsa]; rfl
    have hset : G.py.set st step (.s 1) =
        some { st with vals := Function.update st.vals step (some (.s 1)) } := by
      unfold Prog.set; rw [hi]
    rw [hset] at hp
    dsimp only at hp
    cases hloop : G.py.loop eps maxit l res step (maxit + 1) 0
        { st with vals := Function.update st.vals step (some (.s 1)) } with
    | err => rw [hloop] at hp; simp at hp
    | fuel => rw [hloop] at hp; simp at hp
    | ok q =>
      obtain ⟨st1, k⟩ := q
      rw [hloop] at hp
      obtain rfl := Option.some.inj hp
      have hrel : Rel G Γ T { st with vals := Function.update st.vals step (some (.s 1)) }
          { o with fld := Function.update o.fld step (.s 1) } := by
        refine ⟨h.args, h.len, h.sr, ?_, ?_⟩
        · intro n v hn hsn hv
          by_cases hne : n = step
          · subst hne
            simp only [Function.update_self, Option.some.injEq] at hv ⊢
            subst hv
            rw [hs]
            exact ⟨trivial, rfl⟩
          · simp only [Function.update_of_ne hne] at hv ⊢
            exact h.vals n v hn hsn hv
        · intro n f ho hf hd i hi j hj hdep
          have hne : n ≠ step := by rintro rfl; rw [hfe] at hf; simp at hf
          simp only [Function.update_of_ne hne]
          exact h.const n f ho hf hd i hi j hj hdep
      obtain ⟨o1, e1, r1⟩ := rel_loop hS hG hA ha (maxit + 1) 0 hrel (by simp) hloop
      refine ⟨o1, ?_, r1⟩
      unfold Gen.action Gen.iterate
      dsimp only
      rw [e1]

/-! ### The update -/

/-- **C29** (one update): whenever the update of the `Numeric` succeeds, the generated update run on a
related object gives a related object; in particular the arguments are equal. -/
theorem C29_update (hS : G.src.WF) (hG : GenOK G) (hA : ArgsOK G.src Γ) {eps : K} {maxit : ℕ}
    {acts : List (Action N)} (ha : ∀ a ∈ acts, ActOK G.src Γ T a) {nU nP : N}
    {lU lP : List String} (hU : G.src.syms nU = some lU) (hP : G.src.syms nP = some lP)
    {u p : List K} (hu : u.length = lU.length) (hp : p.length = lP.length) {nu np : ℕ}
    {st st' : St N K} {o : Obj N K} (h : Rel G Γ T st o)
    (hst : G.py.update eps maxit acts nU nP nu np (some u) (some p) st = some st') :
    ∃ o', G.update eps maxit acts nU nP u p o = some o' ∧ Rel G Γ T st' o' ∧
      o'.args = st'.args := by
  have main : ∀ (acts : List (Action N)) {st st' : St N K} {o : Obj N K},
      (∀ a ∈ acts, ActOK G.src Γ T a) → Rel G Γ T st o →
      acts.foldlM (G.py.action eps maxit) st = some st' →
      ∃ o', acts.foldlM (G.action eps maxit) o = some o' ∧ Rel G Γ T st' o' := by
    intro acts
    induction acts with
    | nil =>
      intro st st' o _ h he
      obtain rfl := Option.some.inj he
      exact ⟨o, rfl, h⟩
    | cons a acts ih =>
      intro st st' o ha h he
      rw [List.foldlM_cons] at he
      simp only [Option.bind_eq_bind, Option.bind_eq_some_iff] at he
      obtain ⟨st1, h1, h2⟩ := he
      obtain ⟨o1, e1, r1⟩ := rel_action hS hG hA (ha a (by simp)) h h1
      obtain ⟨o2, e2, r2⟩ := ih (fun a h => ha a (by simp [h])) r1 h2
      refine ⟨o2, ?_, r2⟩
      rw [List.foldlM_cons, e1]
      exact e2
  unfold Prog.update at hst
  simp only [Option.bind_eq_bind, Option.getD_some, py_set hS hU hu, py_set hS hP hp,
    Option.bind_some] at hst
  have r1 := rel_store hS h lU fun i => u.getD i 0
  have r2 := rel_store hS r1 lP fun i => p.getD i 0
  obtain ⟨o', e, r⟩ := main acts ha r2 hst
  refine ⟨o', ?_, r, r.args⟩
  unfold Gen.update
  simp only [Gen.setVec, hU, hP, Option.bind_eq_bind, Option.bind_some]
  exact e

/-- **C29** (all runs): any sequence of updates. -/
theorem C29_history (hS : G.src.WF) (hG : GenOK G) (hA : ArgsOK G.src Γ) {eps : K} {maxit : ℕ}
    {acts : List (Action N)} (ha : ∀ a ∈ acts, ActOK G.src Γ T a) {nU nP : N}
    {lU lP : List String} (hU : G.src.syms nU = some lU) (hP : G.src.syms nP = some lP)
    {nu np : ℕ} : ∀ (seq : List (List K × List K))
    (_ : ∀ q ∈ seq, q.1.length = lU.length ∧ q.2.length = lP.length)
    {st st' : St N K} {o : Obj N K} (_ : Rel G Γ T st o)
    (_ : seq.foldlM (fun st q => G.py.update eps maxit acts nU nP nu np (some q.1) (some q.2) st) st
      = some st'),
    ∃ o', seq.foldlM (fun o q => G.update eps maxit acts nU nP q.1 q.2 o) o = some o' ∧
      Rel G Γ T st' o' ∧ o'.args = st'.args := by
  intro seq
  induction seq with
  | nil =>
    intro _ st st' o h he
    obtain rfl := Option.some.inj he
    exact ⟨o, rfl, h, h.args⟩
  | cons q seq ih =>
    intro hq st st' o h he
    rw [List.foldlM_cons] at he
    simp only [Option.bind_eq_bind, Option.bind_eq_some_iff] at he
    obtain ⟨st1, h1, h2⟩ := he
    obtain ⟨q1, q2⟩ := hq q (by simp)
    obtain ⟨o1, e1, r1, -⟩ := C29_update hS hG hA ha hU hP q1 q2 h h1
    obtain ⟨o2, e2, r2⟩ := ih (fun q h => hq q (by simp [h])) r1 h2
    refine ⟨o2, ?_, r2⟩
    rw [List.foldlM_cons, e1]
    exact e2

end Cpp
end Pyphs
