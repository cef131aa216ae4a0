/-
C29, continued: the constructor of the generated object gives the state of a new `Numeric`.
-/
import Verif.Cpp.EquivUpdate
import Verif.Numeric.Init

namespace Pyphs
namespace Cpp
open Numeric

variable {K : Type} [Field K] [LinearOrder K] {N : Type} [DecidableEq N]
variable {G : Gen N K} {Γ : N → Sh} {T : List N}

/-- numerical_core.py:90-108 `build`: initial values of the arguments, then one evaluation of
each name of `update_actions_deps()`, in order. -/
def pyBuild (P : Prog N K) (nargs : ℕ) (inits : List (N × Option (NV K))) (deps : List N) :
    Option (St N K) :=
  match initNumeric P nargs inits with
  | .error _ => none
  | .ok st => deps.foldlM (fun st n => do
      some { st with vals := Function.update st.vals n (some (← P.eval st n)) }) st

/-! ### Initial values -/

/-- Successive settings of arguments. -/
def Src.stores (S : Src N K) (args : List K) (L : List (N × List K)) : List K :=
  L.foldl (fun a p => S.store a ((S.syms p.1).getD []) fun i => p.2.getD i 0) args

theorem stores_length (S : Src N K) (L : List (N × List K)) :
    ∀ args : List K, (S.stores args L).length = args.length := by
  induction L with
  | nil => intro args; rfl
  | cons p L ih =>
    intro args
    show (S.stores (S.store args _ _) L).length = _
    rw [ih, store_length]

/-- Values after one setting. -/
theorem store_env {S : Src N K} (hS : S.WF) {args : List K} (hl : args.length = S.all.length)
    {n : N} {l : List String} (hs : S.syms n = some l) {w : List K} (hw : w.length = l.length)
    {base : String → K} (s : String) :
    envOf S.all base (S.store args l fun i => w.getD i 0) s =
      if s ∈ l then w.getD (l.idxOf s) 0 else envOf S.all base args s := by
  have hsub := hS.sub n l hs
  have hm : (List.range l.length).map (fun i => w.getD i 0) = w := by
    apply List.ext_getElem
    · simp [hw]
    · intro i h1 h2
      simp [List.getD_eq_getElem?_getD, h2]
  rw [store_eq hS hs, hm]
  have hlen : w.length = (find l S.all).2.length := by
    rw [find_inds_eq hsub hS.nodup]; simpa using hw
  split_ifs with h
  · have := slot_set (base := base) hS.nodup hl l w hlen
    rw [find_sublist hsub hS.nodup] at this
    have h2 := congrArg (fun L => L.getD (l.idxOf s) 0) this
    have hi : l.idxOf s < l.length := List.idxOf_lt_length_of_mem h
    simp only [List.getD_eq_getElem?_getD, List.getElem?_map, List.getElem?_eq_getElem hi,
      List.getElem_idxOf, Option.map_some, Option.getD_some] at h2
    rw [h2, List.getD_eq_getElem?_getD]
  · exact slot_frame hl l w h

/-- The pairs are arguments with values of the right length. -/
def PairOK (S : Src N K) (p : N × List K) : Prop :=
  ∃ l, S.syms p.1 = some l ∧ p.2.length = l.length

/-- The two arguments have no symbol in common. -/
def Apart (S : Src N K) (p q : N × List K) : Prop :=
  ∀ s ∈ (S.syms p.1).getD [], s ∉ (S.syms q.1).getD []

theorem stores_frame {S : Src N K} (hS : S.WF) {base : String → K} {s : String} :
    ∀ (L : List (N × List K)) {args : List K}, args.length = S.all.length →
    (∀ p ∈ L, PairOK S p) → (∀ p ∈ L, s ∉ (S.syms p.1).getD []) →
    envOf S.all base (S.stores args L) s = envOf S.all base args s := by
  intro L
  induction L with
  | nil => intro args _ _ _; rfl
  | cons p L ih =>
    intro args hl hok hn
    obtain ⟨l, hs, hw⟩ := hok p (by simp)
    show envOf S.all base (S.stores (S.store args _ _) L) s = _
    rw [ih (by rw [store_length, hl]) (fun q h => hok q (by simp [h]))
      (fun q h => hn q (by simp [h]))]
    have hn' := hn p (by simp)
    rw [hs, Option.getD_some] at hn' ⊢
    rw [store_env hS hl hs hw, if_neg hn']

theorem stores_value {S : Src N K} (hS : S.WF) {base : String → K} {s : String} :
    ∀ (L : List (N × List K)) {args : List K}, args.length = S.all.length →
    (∀ p ∈ L, PairOK S p) → L.Pairwise (Apart S) → ∀ p ∈ L, ∀ l, S.syms p.1 = some l → s ∈ l →
    envOf S.all base (S.stores args L) s = p.2.getD (l.idxOf s) 0 := by
  intro L
  induction L with
  | nil => intro args _ _ _ p hp; simp at hp
  | cons q L ih =>
    intro args hl hok hpw p hp l hs hsl
    obtain ⟨lq, hq, hw⟩ := hok q (by simp)
    have hpw' := List.pairwise_cons.1 hpw
    show envOf S.all base (S.stores (S.store args _ _) L) s = _
    rcases List.mem_cons.1 hp with rfl | hp
    · have : l = lq := by rw [hs] at hq; exact Option.some.inj hq
      subst this
      rw [stores_frame hS L (by rw [store_length, hl]) (fun q h => hok q (by simp [h]))
        (fun q h => hpw'.1 q h s (by rw [hs]; exact hsl)), hs, Option.getD_some,
        store_env hS hl hs hw, if_pos hsl]
    · exact ih (by rw [store_length, hl]) (fun q h => hok q (by simp [h])) hpw'.2 p hp l hs hsl

/-- Initial values: the Python object sets the given arguments in an array of zeros, the C++ object sets
all arguments in uninitialised memory. -/
theorem inits_eq {S : Src N K} (hS : S.WF) {user extra : List (N × List K)} {junk : List K}
    (hj : junk.length = S.all.length) (hok : ∀ p ∈ user ++ extra, PairOK S p)
    (hpw : (user ++ extra).Pairwise (Apart S)) (hz : ∀ p ∈ extra, ∀ a ∈ p.2, a = 0)
    (hcov : ∀ s ∈ S.all, ∃ p ∈ user ++ extra, s ∈ (S.syms p.1).getD []) :
    S.stores junk (user ++ extra) = S.stores (List.replicate S.all.length 0) user := by
  rw [args_eq (base := fun _ => (0 : K)) hS.nodup (args := S.stores junk (user ++ extra))
      (by rw [stores_length, hj]),
    args_eq (base := fun _ => (0 : K)) hS.nodup (args := S.stores (List.replicate S.all.length 0) user)
      (by rw [stores_length]; simp)]
  refine List.map_congr_left fun s hs => ?_
  obtain ⟨p, hp, hsp⟩ := hcov s hs
  obtain ⟨l, hl, hw⟩ := hok p hp
  rw [hl, Option.getD_some] at hsp
  rw [stores_value hS _ hj hok hpw p hp l hl hsp]
  have hpw' := List.pairwise_append.1 hpw
  rcases List.mem_append.1 hp with h | h
  · rw [stores_value hS user (by simp) (fun q h => hok q (by simp [h])) hpw'.1 p h l hl hsp]
  · rw [stores_frame hS user (by simp) (fun q h => hok q (by simp [h])) (fun q hq hsq => by
      refine hpw'.2.2 q hq p h s hsq ?_
      rw [hl]; exact hsp), envOf_mem hs (by simp)]
    have hi : l.idxOf s < p.2.length := by rw [hw]; exact List.idxOf_lt_length_of_mem hsp
    rw [List.getD_eq_getElem?_getD, List.getElem?_eq_getElem hi, Option.getD_some,
      hz p h _ (List.getElem_mem hi)]
    simp [List.getD_eq_getElem?_getD, List.getElem?_replicate]
    split <;> rfl

theorem py_inits {S : Src N K} {fs0 : K} {sqrt : K → K} (hS : S.WF) :
    ∀ (user : List (N × List K)) {st : St N K}, (∀ p ∈ user, PairOK S p) →
    initLoop (S.prog fs0 sqrt) st (user.map fun p => (p.1, some (.v p.2))) =
      .ok { st with args := S.stores st.args user } := by
  intro user
  induction user with
  | nil => intro st _; rfl
  | cons p user ih =>
    intro st hok
    obtain ⟨l, hs, hw⟩ := hok p (by simp)
    have e : initOne (S.prog fs0 sqrt) st p.1 (some (.v p.2)) =
        .ok { st with args := S.store st.args l fun i => p.2.getD i 0 } := by
      have h1 := py_set (fs0 := fs0) (sqrt := sqrt) (st := st) hS hs hw
      have hi : (S.prog fs0 sqrt).argInds p.1 = some (find l S.all).2 := by
        show (S.syms p.1).map _ = _
        rw [hs]; rfl
      have hlen : p.2.length = (find l S.all).2.length := by
        rw [find_inds_eq (hS.sub _ l hs) hS.nodup]; simpa using hw
      unfold Prog.set at h1
      rw [hi] at h1
      dsimp only at h1
      unfold setInds at h1
      dsimp only at h1
      rw [if_pos hlen] at h1
      unfold initOne
      rw [hi]
      dsimp only
      rw [if_pos hlen]
      exact congrArg Except.ok (Option.some.inj h1)
    show (initOne (S.prog fs0 sqrt) st p.1 (some (.v p.2))).bind _ = _
    rw [e]
    show initLoop (S.prog fs0 sqrt) _ (user.map fun p => (p.1, some (.v p.2))) = _
    rw [ih fun q h => hok q (by simp [h])]
    show _ = Except.ok { st with args := S.stores (S.store st.args _ _) user }
    rw [hs]
    rfl

theorem cpp_inits :
    ∀ (L : List (N × List K)) {o : Obj N K}, (∀ p ∈ L, PairOK G.src p) →
    L.foldlM (fun o p => G.setVec o p.1 p.2) o = some { o with args := G.src.stores o.args L } := by
  intro L
  induction L with
  | nil => intro o _; rfl
  | cons p L ih =>
    intro o hok
    obtain ⟨l, hs, -⟩ := hok p (by simp)
    have e : G.setVec o p.1 p.2 =
        some { o with args := G.src.store o.args l fun i => p.2.getD i 0 } := by
      unfold Gen.setVec; rw [hs]
    rw [List.foldlM_cons, e]
    show L.foldlM _ _ = _
    rw [ih fun q h => hok q (by simp [h])]
    show _ = some { o with args := G.src.stores (G.src.store o.args _ _) L }
    rw [hs]
    rfl

/-! ### Functions and operations -/

/-- The members of the functions have their values. -/
def FnOK (G : Gen N K) (o : Obj N K) (l : List N) : Prop :=
  ∀ n ∈ l, ∀ f, G.src.op n = none → G.src.fe n = some f → Rep (f.val (G.env o)) (o.fld n)

/-- The coefficients without arguments have their values. -/
def Const (G : Gen N K) (o : Obj N K) : Prop :=
  ∀ n f, G.src.op n = none → G.src.fe n = some f → n ∈ G.src.deps →
    ∀ i < f.r, ∀ j < f.c, G.src.dep (f.ent i j) = false →
      (o.fld n).at i j = (f.ent i j).ev (G.env o)

/-- The loop of `init()` over the functions. -/
def Gen.fnStep (G : Gen N K) (o : Obj N K) (n : N) : Obj N K :=
  match G.src.op n, G.src.fe n with
  | none, some f => G.fnUpdate o n f
  | _, _ => o

theorem fnStep_spec {o : Obj N K} (hc : Const G o) {n : N} (hd : n ∈ G.src.deps) {l : List N}
    (hl : FnOK G o l) : (G.fnStep o n).args = o.args ∧ (G.fnStep o n).sr = o.sr ∧
      Const G (G.fnStep o n) ∧ FnOK G (G.fnStep o n) (n :: l) := by
  unfold Gen.fnStep
  split
  · rename_i f ho hf
    have henv : G.env (G.fnUpdate o n f) = G.env o := env_of_eq rfl rfl
    have hval : ∀ i < f.r, ∀ j < f.c,
        (if G.src.dep (f.ent i j) then (f.ent i j).ev (G.env o) else (o.fld n).at i j) =
          (f.ent i j).ev (G.env o) := by
      intro i hi j hj
      by_cases hdep : G.src.dep (f.ent i j) = true
      · rw [if_pos hdep]
      · rw [if_neg hdep]
        exact hc n f ho hf hd i hi j hj (by simpa using hdep)
    have hself : (G.fnUpdate o n f).fld n = .m ⟨f.r, f.c, fun i j =>
        if G.src.dep (f.ent i j) then (f.ent i j).ev (G.env o) else (o.fld n).at i j⟩ := by
      unfold Gen.fnUpdate
      simp only [Function.update_self]
    have hother : ∀ k, k ≠ n → (G.fnUpdate o n f).fld k = o.fld k := by
      intro k hk
      unfold Gen.fnUpdate
      simp only [Function.update_of_ne hk]
    refine ⟨rfl, rfl, ?_, ?_⟩
    · intro k g hok hgk hdk i hi j hj hdep
      rw [henv]
      by_cases hk : k = n
      · subst hk
        obtain rfl : f = g := by rw [hf] at hgk; exact Option.some.inj hgk
        rw [hself]
        exact hval i hi j hj
      · rw [hother k hk]
        exact hc k g hok hgk hdk i hi j hj hdep
    · intro k hk g hok hgk
      rw [henv]
      by_cases hkn : k = n
      · subst hkn
        obtain rfl : f = g := by rw [hf] at hgk; exact Option.some.inj hgk
        rw [hself]
        exact fe_val_rep rfl rfl hval
      · rw [hother k hkn]
        exact hl k (by simpa [hkn] using hk) g hok hgk
  · rename_i hno
    refine ⟨rfl, rfl, hc, ?_⟩
    intro k hk g hok hgk
    rcases List.mem_cons.1 hk with rfl | hk
    · exact absurd hgk (hno g hok)
    · exact hl k hk g hok hgk

theorem initFns_spec {o : Obj N K} (hc : Const G o) :
    (G.initFns o).args = o.args ∧ (G.initFns o).sr = o.sr ∧ Const G (G.initFns o) ∧
      FnOK G (G.initFns o) G.src.deps := by
  have main : ∀ (l done : List N) (o : Obj N K), (∀ n ∈ l, n ∈ G.src.deps) → Const G o →
      FnOK G o done → (l.foldl G.fnStep o).args = o.args ∧ (l.foldl G.fnStep o).sr = o.sr ∧
        Const G (l.foldl G.fnStep o) ∧ FnOK G (l.foldl G.fnStep o) (l.reverse ++ done) := by
    intro l
    induction l with
    | nil => intro done o _ hc hf; exact ⟨rfl, rfl, hc, hf⟩
    | cons n l ih =>
      intro done o hd hc hf
      obtain ⟨a1, a2, a3, a4⟩ := fnStep_spec hc (hd n (by simp)) hf
      obtain ⟨b1, b2, b3, b4⟩ := ih (n :: done) _ (fun k h => hd k (by simp [h])) a3 a4
      refine ⟨b1.trans a1, b2.trans a2, b3, ?_⟩
      intro k hk
      exact b4 k (by simpa using hk)
  obtain ⟨a1, a2, a3, a4⟩ := main G.src.deps [] o (fun _ h => h) hc (fun n hn => by simp at hn)
  refine ⟨a1, a2, a3, fun n hn => a4 n (by simpa using hn)⟩

/-- Operations in the order of `deps`, together with the evaluations of `build`. -/
theorem build_spec (hS : G.src.WF) (hG : GenOK G) (hA : ArgsOK G.src Γ) :
    ∀ (l : List N) {st st' : St N K} {o : Obj N K},
    (∀ n ∈ l, EvalOK G.src Γ [] n ∧ n ∈ G.src.deps) → Rel G Γ [] st o → FnOK G o G.src.deps →
    l.foldlM (fun st n => do
      some { st with vals := Function.update st.vals n (some (← G.py.eval st n)) }) st = some st' →
    ∃ o', l.foldlM (fun o n => match G.src.op n with
      | some op => G.opUpdate o n op
      | none => some o) o = some o' ∧ Rel G Γ [] st' o' := by
  intro l
  induction l with
  | nil =>
    intro st st' o _ h _ he
    obtain rfl := Option.some.inj he
    exact ⟨o, rfl, h⟩
  | cons n l ih =>
    intro st st' o hok h hf he
    rw [List.foldlM_cons] at he
    simp only [Option.bind_eq_bind, Option.bind_eq_some_iff] at he
    obtain ⟨st1, ⟨v, hv, h1⟩, h2⟩ := he
    obtain rfl := Option.some.inj h1
    obtain ⟨hev, hd⟩ := hok n (by simp)
    rw [List.foldlM_cons]
    cases ho : G.src.op n with
    | some op =>
      obtain ⟨cv, e1, s1, r1, -⟩ := rel_refresh hS hG hA h hev hd hv
      unfold Gen.refresh at e1
      rw [ho] at e1
      dsimp only at e1 ⊢
      rw [e1]
      show ∃ o', l.foldlM _ _ = some o' ∧ _
      refine ih (fun k h => hok k (by simp [h])) ?_ ?_ h2
      · refine ⟨h.args, h.len, h.sr, ?_, ?_⟩
        · intro k w hk hs hw
          by_cases hkn : k = n
          · subst hkn
            simp only [Function.update_self, Option.some.injEq] at hw ⊢
            subst hw
            exact ⟨s1, r1⟩
          · simp only [Function.update_of_ne hkn] at hw ⊢
            exact h.vals k w hk hs hw
        · intro k f hok' hfe hdk i hi j hj hdep
          have hkn : k ≠ n := by rintro rfl; rw [ho] at hok'; simp at hok'
          simp only [Function.update_of_ne hkn]
          exact h.const k f hok' hfe hdk i hi j hj hdep
      · intro k hk f hok' hfe
        have hkn : k ≠ n := by rintro rfl; rw [ho] at hok'; simp at hok'
        simp only [Function.update_of_ne hkn]
        exact hf k hk f hok' hfe
    | none =>
      unfold EvalOK at hev
      rw [ho] at hev
      obtain ⟨f, hfe, hsh⟩ := hev
      have ev : v = f.val (envOf G.src.all (G.src.base G.fs0) st.args) := by
        have q1 : G.py.op n = none := ho
        have q2 : G.py.func n = some fun a => f.val (envOf G.src.all (G.src.base G.fs0) a) := by
          show (G.src.fe n).map _ = _
          rw [hfe]; rfl
        unfold Prog.eval at hv
        rw [q1, q2] at hv
        exact (Option.some.inj hv).symm
      show ∃ o', l.foldlM _ o = some o' ∧ _
      refine ih (fun k h => hok k (by simp [h])) ?_ hf h2
      refine ⟨h.args, h.len, h.sr, ?_, h.const⟩
      intro k w hk hs hw
      by_cases hkn : k = n
      · subst hkn
        simp only [Function.update_self, Option.some.injEq] at hw
        subst hw
        refine ⟨?_, ?_⟩
        · rw [ev, ← hsh]; exact fe_val_sh f _
        · rw [ev, ← env_eq hS hG h.args h.len h.sr]
          exact hf k hd f ho hfe
      · simp only [Function.update_of_ne hkn] at hw
        exact h.vals k w hk hs hw

/-- `init()` on an object whose coefficients without arguments are right. -/
theorem init_spec (hS : G.src.WF) (hG : GenOK G) (hA : ArgsOK G.src Γ)
    (hd : ∀ n ∈ G.src.deps, EvalOK G.src Γ [] n) {user extra : List (N × List K)}
    (hin : G.inits = user ++ extra) (hok : ∀ p ∈ user ++ extra, PairOK G.src p)
    (hpw : (user ++ extra).Pairwise (Apart G.src)) (hz : ∀ p ∈ extra, ∀ a ∈ p.2, a = 0)
    (hcov : ∀ s ∈ G.src.all, ∃ p ∈ user ++ extra, s ∈ (G.src.syms p.1).getD [])
    {o : Obj N K} (hj : o.args.length = G.src.all.length) (hsr : o.sr = G.fs0)
    (hc : Const G o) {st : St N K}
    (hst : pyBuild G.py G.src.all.length (user.map fun p => (p.1, some (.v p.2))) G.src.deps =
      some st) :
    ∃ o', G.init o = some o' ∧ Rel G Γ [] st o' := by
  have e1 := py_inits (fs0 := G.fs0) (sqrt := G.sqrt) hS user
    (st := ⟨List.replicate G.src.all.length 0, fun _ => none⟩) fun p h => hok p (by simp [h])
  unfold pyBuild initNumeric at hst
  rw [e1] at hst
  dsimp only at hst
  unfold Gen.init
  rw [hin, cpp_inits _ hok]
  dsimp only [Option.bind_eq_bind, Option.bind_some]
  rw [inits_eq hS hj hok hpw hz hcov]
  set o0 : Obj N K := { o with args := G.src.stores (List.replicate G.src.all.length 0) user } with ho0
  have hc' : Const G o0 := by
    intro n f ho hf hdn i hi j hj' hdep
    exact (hc n f ho hf hdn i hi j hj' hdep).trans (ev_const hS hdep rfl)
  obtain ⟨a1, a2, a3, a4⟩ := initFns_spec hc'
  refine build_spec hS hG hA G.src.deps (fun n h => ⟨hd n h, h⟩) ?_ a4 hst
  refine ⟨a1, ?_, a2.trans hsr, fun n v _ _ h => ?_, a3⟩
  · simp only [stores_length, List.length_replicate]
  · simp at h

/-- **C29** (construction): the constructed object is related to the new `Numeric`, whatever the memory
contains before. `extra` are the arguments without initial value, that the C++ constructor sets to
zero. -/
theorem C29_construct (hS : G.src.WF) (hG : GenOK G) (hA : ArgsOK G.src Γ)
    (hd : ∀ n ∈ G.src.deps, EvalOK G.src Γ [] n) {user extra : List (N × List K)}
    (hin : G.inits = user ++ extra) (hok : ∀ p ∈ user ++ extra, PairOK G.src p)
    (hpw : (user ++ extra).Pairwise (Apart G.src)) (hz : ∀ p ∈ extra, ∀ a ∈ p.2, a = 0)
    (hcov : ∀ s ∈ G.src.all, ∃ p ∈ user ++ extra, s ∈ (G.src.syms p.1).getD [])
    {junk : Obj N K} (hj : junk.args.length = G.src.all.length) {st : St N K}
    (hst : pyBuild G.py G.src.all.length (user.map fun p => (p.1, some (.v p.2))) G.src.deps =
      some st) :
    ∃ o, G.construct junk = some o ∧ Rel G Γ [] st o := by
  unfold Gen.construct
  dsimp only
  refine init_spec hS hG hA hd hin hok hpw hz hcov ?_ ?_ ?_ hst
  · exact hj
  · rfl
  intro n f ho hf hdn i hi j hj' hdep
  dsimp only
  rw [ho, hf]
  dsimp only
  rw [if_pos hdn]
  show (if G.src.dep (f.ent i j) then 0 else _) = _
  rw [hdep]
  exact ev_const hS hdep rfl

end Cpp
end Pyphs
