/-
Property C79: the effect made from a method follows the numerical object of Python.
-/
import Verif.Juce.Stream
import Verif.Cpp.SimuMethod

namespace Pyphs
namespace Juce
open Numeric Cpp Scheme

/-! ### Setting one element -/

section
variable {K : Type} [Field K] [LinearOrder K] {N : Type} [DecidableEq N]

omit [Field K] [LinearOrder K] [DecidableEq N] in
theorem elem_fold (S : Src N K) (v : K) (k : ℕ) : ∀ (l : List String) (m : ℕ) (args : List K),
    (∀ s ∈ l, s ∉ S.subs.map Prod.fst) → m ≤ k →
    (l.zipIdx m).foldl (fun a q => if q.1 ∈ S.subs.map Prod.fst then a
      else if k = q.2 then a.set (S.all.idxOf q.1) v else a) args =
    match l[k - m]? with
    | some s => args.set (S.all.idxOf s) v
    | none => args := by
  have skip : ∀ (l : List String) (m : ℕ) (args : List K), k < m →
      (l.zipIdx m).foldl (fun a q => if q.1 ∈ S.subs.map Prod.fst then a
        else if k = q.2 then a.set (S.all.idxOf q.1) v else a) args = args := by
    intro l
    induction l with
    | nil => intro m args _; rfl
    | cons s l ih =>
      intro m args hm
      rw [List.zipIdx_cons, List.foldl_cons, if_neg (show ¬ k = m by omega), ite_self]
      exact ih _ _ (by omega)
  intro l
  induction l with
  | nil => intro m args _ _; simp
  | cons s l ih =>
    intro m args h hm
    rw [List.zipIdx_cons, List.foldl_cons, if_neg (h s (by simp))]
    by_cases hk : k = m
    · subst hk
      rw [if_pos rfl, skip _ _ _ (by omega)]
      simp
    · rw [if_neg (show ¬ k = m from hk), ih _ _ (fun s hs => h s (by simp [hs])) (by omega)]
      have : k - m = (k - (m + 1)) + 1 := by omega
      rw [this, List.getElem?_cons_succ]

/-- Setting one element of an argument whose elements are `w`. -/
theorem setElem_env {G : Gen N K} (hS : G.src.WF) {nm : N} {l : List String} (hs : G.src.syms nm = some l)
    {v : K} {k : ℕ} (hk : k < l.length) {o : Obj N K} (ho : o.args.length = G.src.all.length)
    {base : String → K} :
    ∃ a, setElem G nm v k o = some ⟨a, o.sr, o.fld⟩ ∧ a.length = G.src.all.length ∧
      ∀ s ∈ G.src.all, envOf G.src.all base a s =
        if s = l[k] then v else envOf G.src.all base o.args s := by
  have hsub := hS.sub nm l hs
  have hf := elem_fold G.src v k l 0 o.args (fun s h => (hS.disj s (hsub.subset h)).1) (Nat.zero_le _)
  rw [Nat.sub_zero, List.getElem?_eq_getElem hk] at hf
  refine ⟨o.args.set (G.src.all.idxOf l[k]) v, ?_, ?_, ?_⟩
  · unfold setElem
    rw [hs]
    simp only [Option.map_some]
    rw [hf]
  · simpa using ho
  · intro s hm
    have hlk : l[k] ∈ G.src.all := hsub.subset (List.getElem_mem hk)
    rw [envOf_mem hm (by simpa using ho), envOf_mem hm ho]
    split_ifs with h
    · subst h
      have := List.idxOf_lt_length_of_mem hlk
      simp [List.getD_eq_getElem?_getD, ho, this]
    · have hne : G.src.all.idxOf l[k] ≠ G.src.all.idxOf s := by
        intro e
        exact h (List.idxOf_inj hm |>.1 e.symm)
      simp [List.getD_eq_getElem?_getD, List.getElem?_set_ne hne]

end

/-! ### The relation -/

variable {n : Num} {F : Free} {subs : List (String × ℝ)} {fs : String} {fs0 : ℝ}
  {deps : List Nm} {inits : List (Nm × List ℝ)} {einv : Mat ℝ → Mat ℝ}

/-- The state of the Python object in which `u` and `p` are set. -/
noncomputable def withUP (S : Src Nm ℝ) (n : Num) (st : St Nm ℝ) (u p : List ℝ) : St Nm ℝ :=
  ⟨S.store (S.store st.args n.m.u fun i => u.getD i 0) n.p fun i => p.getD i 0, st.vals⟩

/-- The C++ object of the effect is in the state of the Python object, with inputs and parameters
already set. -/
structure Ready (n : Num) (G : Gen Nm ℝ) (st : St Nm ℝ) (u p : List ℝ) (o : Obj Nm ℝ) : Prop where
  lu : u.length = n.m.u.length
  lp : p.length = n.p.length
  la : st.args.length = n.all.length
  rel : Rel G (msh n) mT (withUP G.src n st u p) o

theorem u_p_apart (h : n.WF) {s : String} (hs : s ∈ n.m.u) : s ∉ n.p := by
  have nd := h.nodup
  unfold Num.all at nd
  have nd1 := (List.nodup_append.1 nd).1
  exact fun hp => (List.nodup_append.1 nd1).2.2 s (by simp [hs]) s hp rfl

/-- Values of the symbols when the inputs and parameters are set. -/
theorem withUP_env (h : MOK n F subs fs fs0) {st : St Nm ℝ} (la : st.args.length = n.all.length)
    {u p : List ℝ} (lu : u.length = n.m.u.length) (lp : p.length = n.p.length) (s : String) :
    envOf n.all n.base (withUP (mSrc n F subs fs deps) n st u p).args s =
      if s ∈ n.p then p.getD (n.p.idxOf s) 0 else if s ∈ n.m.u then u.getD (n.m.u.idxOf s) 0
      else n.E st s := by
  have hS := mSrc_wf (deps := deps) h
  have e1 := store_env hS (n := Nm.p) (l := n.p) (w := p) (base := n.base)
    (args := (mSrc n F subs fs deps).store st.args n.m.u fun i => u.getD i 0)
    (by rw [store_length]; exact la) rfl lp s
  have e2 := store_env hS (n := Nm.u) (l := n.m.u) (w := u) (base := n.base)
    (args := st.args) la rfl lu s
  refine e1.trans ?_
  split_ifs with h1 h2
  · rfl
  · exact e2.trans (if_pos h2)
  · exact e2.trans (if_neg h2)

/-- Two arrays of arguments with the same values of the symbols. -/
theorem args_ext (h : n.WF) {a b : List ℝ} (ha : a.length = n.all.length) (hb : b.length = n.all.length)
    (he : ∀ s ∈ n.all, envOf n.all n.base a s = envOf n.all n.base b s) : a = b := by
  rw [args_eq (base := n.base) h.nodup ha, args_eq (base := n.base) h.nodup hb]
  exact List.map_congr_left he

theorem rel_args {G : Gen Nm ℝ} (hS : G.src.WF) {Γ : Nm → Sh} {T : List Nm} {a b : List ℝ}
    {f : Nm → Option (NV ℝ)} {o : Obj Nm ℝ} (h : Rel G Γ T ⟨a, f⟩ o) (hb : b.length = G.src.all.length) :
    Rel G Γ T ⟨b, f⟩ ⟨b, o.sr, o.fld⟩ where
  args := rfl
  len := hb
  sr := h.sr
  vals := h.vals
  const := fun n f ho hf hd i hi j hj hdep =>
    (h.const n f ho hf hd i hi j hj hdep).trans (ev_const hS hdep rfl)

theorem getD_set {l : List ℝ} {k : ℕ} (hk : k < l.length) (v : ℝ) (j : ℕ) :
    (l.set k v).getD j 0 = if j = k then v else l.getD j 0 := by
  split_ifs with h
  · subst h; simp [List.getD_eq_getElem?_getD, hk]
  · simp [List.getD_eq_getElem?_getD, List.getElem?_set_ne (Ne.symm h)]

theorem idxOf_eq_iff {l : List String} (hn : l.Nodup) {s : String} (hs : s ∈ l) {k : ℕ} (hk : k < l.length) :
    l.idxOf s = k ↔ s = l[k] := by
  constructor
  · rintro rfl; simp
  · rintro rfl; exact hn.idxOf_getElem k hk

/-- The object generated from a method follows its numerical object. -/
theorem method_sim (h : MOK n F subs fs fs0) (he : ∀ A B : Mat ℝ, A.IsInv B → A.IsInv (einv A))
    (hd : ∀ c ∈ n.pre ++ (if 0 < n.nl then n.imp else []) ++ n.post, c.eval ∈ deps) :
    Sim (plug (mGen n F subs fs deps fs0 inits einv) n.eps n.maxit n.actions .u .p .y)
      (fun u p st => n.update (some u) (some p) st) (fun st => Record.vec n st .y)
      (Ready n (mGen n F subs fs deps fs0 inits einv)) := by
  set G := mGen n F subs fs deps fs0 inits einv with hG
  have hS : G.src.WF := mSrc_wf h
  have hall : G.src.all = n.all := rfl
  have nu : n.m.u.Nodup := (hS.sub .u n.m.u rfl).nodup hS.nodup
  have np : n.p.Nodup := (hS.sub .p n.p rfl).nodup hS.nodup
  have lenUP : ∀ {st : St Nm ℝ} (u p : List ℝ), st.args.length = n.all.length →
      (withUP G.src n st u p).args.length = n.all.length := by
    intro st u p hl
    unfold withUP
    rw [store_length, store_length, hl]
  have wenv : ∀ {st : St Nm ℝ}, st.args.length = n.all.length → ∀ {u p : List ℝ}, u.length = n.m.u.length →
      p.length = n.p.length → ∀ s, envOf n.all n.base (withUP G.src n st u p).args s =
      if s ∈ n.p then p.getD (n.p.idxOf s) 0 else if s ∈ n.m.u then u.getD (n.m.u.idxOf s) 0
      else n.E st s := fun la _ _ lu lp s => withUP_env h la lu lp s
  refine ⟨?_, ?_, ?_⟩
  · intro t u p o v i hR hi
    have hi' : i < n.m.u.length := by rw [← hR.lu]; exact hi
    obtain ⟨a, e1, e2, e3⟩ := setElem_env (G := G) (base := n.base) hS (nm := .u) (l := n.m.u) rfl (v := v) hi'
      (o := o) (by rw [hR.rel.args]; exact hR.rel.len)
    refine ⟨_, e1, by simpa using hR.lu, hR.lp, hR.la, ?_⟩
    have ha : a = (withUP G.src n t (u.set i v) p).args := by
      refine args_ext h.num e2 (lenUP _ _ hR.la) ?_
      intro s hs
      refine (e3 s hs).trans ?_
      rw [hR.rel.args]
      show (if s = n.m.u[i] then v else envOf n.all n.base (withUP G.src n t u p).args s) =
        envOf n.all n.base (withUP G.src n t (u.set i v) p).args s
      rw [wenv hR.la hR.lu hR.lp s,
        wenv hR.la (u := u.set i v) (by simpa using hR.lu) hR.lp s]
      by_cases hsu : s ∈ n.m.u
      · rw [if_neg (u_p_apart h.num hsu), if_pos hsu, if_neg (u_p_apart h.num hsu), if_pos hsu, getD_set hi]
        simp only [idxOf_eq_iff nu hsu hi']
      · have : s ≠ n.m.u[i] := fun e => hsu (e ▸ List.getElem_mem hi')
        rw [if_neg this, if_neg hsu, if_neg hsu]
    have := rel_args hS (b := a) (f := t.vals) hR.rel e2
    rw [ha] at this ⊢
    exact this
  · intro t u p o v i hR hi
    have hi' : i < n.p.length := by rw [← hR.lp]; exact hi
    obtain ⟨a, e1, e2, e3⟩ := setElem_env (G := G) (base := n.base) hS (nm := .p) (l := n.p) rfl (v := v) hi'
      (o := o) (by rw [hR.rel.args]; exact hR.rel.len)
    refine ⟨_, e1, hR.lu, by simpa using hR.lp, hR.la, ?_⟩
    have ha : a = (withUP G.src n t u (p.set i v)).args := by
      refine args_ext h.num e2 (lenUP _ _ hR.la) ?_
      intro s hs
      refine (e3 s hs).trans ?_
      rw [hR.rel.args]
      show (if s = n.p[i] then v else envOf n.all n.base (withUP G.src n t u p).args s) =
        envOf n.all n.base (withUP G.src n t u (p.set i v)).args s
      rw [wenv hR.la hR.lu hR.lp s,
        wenv hR.la (p := p.set i v) hR.lu (by simpa using hR.lp) s]
      by_cases hsp : s ∈ n.p
      · rw [if_pos hsp, if_pos hsp, getD_set hi]
        simp only [idxOf_eq_iff np hsp hi']
      · have : s ≠ n.p[i] := fun e => hsp (e ▸ List.getElem_mem hi')
        rw [if_neg this, if_neg hsp, if_neg hsp]
    have := rel_args hS (b := a) (f := t.vals) hR.rel e2
    rw [ha] at this ⊢
    exact this
  · intro t t' u p o hR hst
    have hpy : G.py = n.prog := mSrc_prog h
    -- setting again the same inputs and parameters
    have hkeep : ∀ {st : St Nm ℝ} (hl : st.args.length = n.all.length)
        (_ : n.m.u.map (n.E st) = u) (_ : n.p.map (n.E st) = p), withUP G.src n st u p = st := by
      intro st hl hu hp
      have : (withUP G.src n st u p).args = st.args := by
        refine args_ext h.num (lenUP _ _ hl) hl ?_
        intro s hs
        rw [wenv hl hR.lu hR.lp]
        split_ifs with h1 h2
        · have hi := List.idxOf_lt_length_of_mem h1
          rw [← hp]
          simp [List.getD_eq_getElem?_getD, hi, Num.E, Num.env]
        · have hi := List.idxOf_lt_length_of_mem h2
          rw [← hu]
          simp [List.getD_eq_getElem?_getD, hi, Num.E, Num.env]
        · rfl
      cases st
      unfold withUP at this ⊢
      simp only at this ⊢
      rw [this]
    -- the update from the state with the inputs and parameters
    have hup : n.update (some u) (some p) (withUP G.src n t u p) = some t' := by
      have h1 : ∀ st : St Nm ℝ, n.update (some u) (some p) st =
          n.actions.foldlM (n.prog.action n.eps n.maxit) (withUP G.src n st u p) := by
        intro st
        unfold Num.update Prog.update
        rw [← hpy]
        simp only [Option.bind_eq_bind, Option.getD_some]
        rw [show G.py = G.src.prog G.fs0 G.sqrt from rfl, py_set hS (n := Nm.u) (l := n.m.u) rfl hR.lu,
          Option.bind_some, py_set hS (n := Nm.p) (l := n.p) rfl hR.lp, Option.bind_some]
        rfl
      rw [h1] at hst ⊢
      rw [hkeep (lenUP _ _ hR.la)]
      · exact hst
      · apply List.ext_getElem
        · simp [hR.lu]
        · intro i hi1 hi2
          simp only [List.getElem_map]
          have hm : n.m.u[i]'(by simpa using hi1) ∈ n.m.u := List.getElem_mem _
          show envOf n.all n.base (withUP G.src n t u p).args _ = _
          rw [wenv hR.la hR.lu hR.lp, if_neg (u_p_apart h.num hm), if_pos hm,
            nu.idxOf_getElem]
          simp [List.getD_eq_getElem?_getD, hi2]
      · apply List.ext_getElem
        · simp [hR.lp]
        · intro i hi1 hi2
          simp only [List.getElem_map]
          have hm : n.p[i]'(by simpa using hi1) ∈ n.p := List.getElem_mem _
          show envOf n.all n.base (withUP G.src n t u p).args _ = _
          rw [wenv hR.la hR.lu hR.lp, if_pos hm, np.idxOf_getElem]
          simp [List.getD_eq_getElem?_getD, hi2]
    have hself : withUP G.src n (withUP G.src n t u p) u p = withUP G.src n t u p := by
      have : (withUP G.src n (withUP G.src n t u p) u p).args = (withUP G.src n t u p).args := by
        refine args_ext h.num (lenUP _ _ (lenUP _ _ hR.la)) (lenUP _ _ hR.la) ?_
        intro s hs
        rw [wenv (lenUP u p hR.la) hR.lu hR.lp s, wenv hR.la hR.lu hR.lp s]
        split_ifs with h1 h2
        · rfl
        · rfl
        · show envOf n.all n.base (withUP G.src n t u p).args s = _
          rw [wenv hR.la hR.lu hR.lp, if_neg h1, if_neg h2]
      show (⟨(withUP G.src n (withUP G.src n t u p) u p).args, t.vals⟩ : St Nm ℝ) = _
      rw [this]
      rfl
    obtain ⟨o', e, r, -⟩ := C29_update (G := G) (nu := n.m.y.length) (np := n.p.length) (eps := n.eps)
      (maxit := n.maxit) (acts := n.actions) hS ⟨rfl, he⟩ mSrc_args (mSrc_actions hd) (nU := .u) (nP := .p)
      (lU := n.m.u) (lP := n.p) rfl rfl hR.lu hR.lp hR.rel (st' := t') (by rw [hpy]; exact hup)
    have hset : G.update n.eps n.maxit n.actions .u .p u p o = n.actions.foldlM (G.action n.eps n.maxit) o := by
      unfold Gen.update Gen.setVec
      show n.actions.foldlM (G.action n.eps n.maxit)
        ⟨G.src.store (G.src.store o.args n.m.u fun i => u.getD i 0) n.p fun i => p.getD i 0, o.sr, o.fld⟩ = _
      congr 1
      have : G.src.store (G.src.store o.args n.m.u fun i => u.getD i 0) n.p (fun i => p.getD i 0) = o.args := by
        rw [hR.rel.args]
        exact congrArg St.args hself
      rw [this]
    rw [hset] at e
    obtain ⟨l', -, u', p'⟩ := C24_step h.num hR.la hR.lu hR.lp hst
    refine ⟨o', e, ⟨hR.lu, hR.lp, l', ?_⟩, ?_⟩
    · rw [hkeep l' u' p']; exact r
    · intro i
      obtain ⟨v1, v2⟩ := vec_step (inits := inits) h he hst r (k := .y) (by simp)
      show getElem G .y i o' = _
      have hget : G.vector o' .y = Record.vec n t' .y := v2
      have hsh : HasSh (.v (Record.vec n t' .y)) (msh n .y) := v1
      have hv : G.py.get t' .y = some (.v (Record.vec n t' .y)) := by
        unfold Num.update Prog.update at hst
        rw [← hpy] at hst
        simp only [Option.bind_eq_bind, Option.bind_eq_some_iff] at hst
        obtain ⟨s1, -, s2, -, hst⟩ := hst
        unfold Num.actions at hst
        rw [List.foldlM_append] at hst
        simp only [Option.bind_eq_bind, Option.bind_eq_some_iff] at hst
        obtain ⟨s3, -, hst⟩ := hst
        have hex : G.py.execs s3 n.post = some t' := by
          simpa [Prog.action] using hst
        have hs := execs_some (G := G) n.post hex (k := .y) rfl (mem_post n (by simp))
        obtain ⟨v, hv⟩ := Option.isSome_iff_exists.1 hs
        have hv' : G.py.get t' .y = some v := by rw [get_none (G := G) (n := Nm.y) rfl]; exact hv
        obtain ⟨g1, -⟩ := rel_get hS ⟨rfl, he⟩ mSrc_args r (n := Nm.y) (by decide) hv'
        rw [hv']
        congr 1
        have : Record.vec n t' .y = match n.prog.get t' .y with
          | some (.v l) => l
          | some (.s c) => [c]
          | _ => [] := rfl
        rw [this, ← hpy, hv']
        cases v with
        | v l => rfl
        | s c => exact g1.elim
        | m A => exact g1.elim
      obtain ⟨-, g2⟩ := rel_get hS ⟨rfl, he⟩ mSrc_args r (n := Nm.y) (by decide) hv
      rw [cget_none (G := G) (n := Nm.y) rfl] at g2
      unfold getElem
      cases hf : o'.fld .y with
      | s c => rw [hf] at g2; exact g2.elim
      | m A =>
        rw [hf] at g2
        obtain ⟨a1, a2, a3⟩ := g2
        show (if i < A.r ∧ 0 < A.c then some (A.e i 0) else none) = _
        by_cases hi : i < (Record.vec n t' .y).length
        · have : 0 < A.c := by
            rw [a2]; unfold col; rw [if_neg (by omega)]; omega
          rw [if_pos ⟨by omega, this⟩, List.getElem?_eq_getElem hi, a3 i hi]
          simp [List.getD_eq_getElem?_getD, hi]
        · rw [if_neg (by omega), List.getElem?_eq_none (by omega)]

end Juce
end Pyphs
