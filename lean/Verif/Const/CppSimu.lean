/-
C83, end: simulations with constants, in Python and in C++.
-/
import Verif.Const.Cpp
import Verif.Const.File
import Verif.Cpp.SimuRun

namespace Pyphs
namespace Cpp
open Numeric H5 Scheme

variable {n : Num} {F : Free} {subs : List (String × ℝ)} {fs : String} {fs0 : ℝ}
  {deps : List Nm} {inits : List (Nm × List ℝ)} {einv : Mat ℝ → Mat ℝ}

/-- The parameters of `subs` that are not arguments. -/
def params (n : Num) (subs : List (String × ℝ)) : List (String × ℝ) := subs.filter fun q => q.1 ∉ n.all

/-- The constants: the arguments that are keys of `subs`. -/
def consts (n : Num) (subs : List (String × ℝ)) : List (String × ℝ) := subs.filter fun q => q.1 ∈ n.all

/-- A method with values for some inputs and parameters can be generated: it can without these values, and
the values of the states and of the other unknowns are not given. -/
structure ConstOK (n : Num) (F : Free) (subs : List (String × ℝ)) (fs : String) (fs0 : ℝ) : Prop where
  mok : MOK n F (params n subs) fs fs0
  up : ∀ q ∈ consts n subs, q.1 ∈ n.m.u ++ n.p

theorem constWF (h : ConstOK n F subs fs fs0) : (mGen n F subs fs deps fs0 inits einv).src.ConstWF where
  nodup := h.mok.num.nodup
  sub := (mSrc_wf (deps := deps) h.mok).sub
  fs := fun hm => (h.mok.disj fs hm).2 rfl

theorem free_gen : (mGen n F subs fs deps fs0 inits einv).free =
    mGen n F (params n subs) fs deps fs0
      (inits.map fun p => (p.1, constIn (consts n subs) ((n.syms p.1).getD []) p.2)) einv := rfl

theorem free_name (h : ConstOK n F subs fs fs0) {k : Nm} (hk : k ∉ [Nm.u, Nm.p]) :
    (mGen n F subs fs deps fs0 inits einv).src.FreeName k := by
  intro l hs s hsl hm
  obtain ⟨q, hq, rfl⟩ := List.mem_map.1 hm
  have hall : q.1 ∈ n.all := ((mSrc_wf (deps := deps) h.mok).sub k l hs).subset hsl
  have hf := (masked h.mok.num h.up).free k hk (find l n.all).2 (by
    show (n.syms k).map _ = _
    rw [show n.syms k = some l from hs]; rfl) (n.all.idxOf q.1) (by
      rw [find_inds_eq (all := n.all) ((mSrc_wf (deps := deps) h.mok).sub k l hs) h.mok.num.nodup]
      exact List.mem_map.2 ⟨q.1, hsl, rfl⟩)
  have h2 : slots n (consts n subs) (n.all.idxOf q.1) = subs.lookup q.1 :=
    Src.slots_idx (S := mSrc n F subs fs deps) hall
  rw [hf] at h2
  have h3 : (subs.lookup q.1).isSome := lookup_isSome.2 hm
  rw [← h2] at h3
  cases h3

theorem act_free (h : ConstOK n F subs fs fs0) :
    ∀ a ∈ n.actions, ActFree (mGen n F subs fs deps fs0 inits einv).src a := by
  intro a ha
  have := actions_avoid n a ha
  cases a with
  | exec l => exact fun c hc => free_name h (this c hc)
  | iter l r s => exact fun c hc => free_name h (this.1 c hc)

/-- The two objects agree, up to the slots of the constants. -/
structure ConstRel (n : Num) (F : Free) (subs : List (String × ℝ)) (fs : String) (deps : List Nm) (fs0 : ℝ)
    (inits : List (Nm × List ℝ)) (einv : Mat ℝ → Mat ℝ) (T : List Nm) (st : St Nm ℝ) (o : Obj Nm ℝ) :
    Prop where
  py : st.args.length = n.all.length
  cpp : o.args.length = n.all.length
  rel : Rel (mGen n F subs fs deps fs0 inits einv).free (msh n) T (hold n (consts n subs) st)
    ((mGen n F subs fs deps fs0 inits einv).hold o)

/-- C83. One update, in Python and in C++. -/
theorem C83_cpp_step (h : ConstOK n F subs fs fs0) (he : ∀ A B : Mat ℝ, A.IsInv B → A.IsInv (einv A))
    (hd : ∀ c ∈ n.pre ++ (if 0 < n.nl then n.imp else []) ++ n.post, c.eval ∈ deps) {st st' : St Nm ℝ}
    {o : Obj Nm ℝ} (hr : ConstRel n F subs fs deps fs0 inits einv mT st o) {u p : List ℝ}
    (hu : u.length = n.m.u.length) (hp : p.length = n.p.length)
    (hst : n.constUpdate (consts n subs) (some u) (some p) st = some st') :
    ∃ o', (mGen n F subs fs deps fs0 inits einv).update n.eps n.maxit n.actions .u .p u p o = some o' ∧
      ConstRel n F subs fs deps fs0 inits einv mT st' o' ∧
      ∀ k ∈ [Nm.x, .dx, .dxH, .w, .z, .y], HasSh (.v (Record.vec n st' k)) (msh n k) ∧
        (mGen n F subs fs deps fs0 inits einv).vector o' k = Record.vec n st' k := by
  set G := mGen n F subs fs deps fs0 inits einv with hG
  have hup := C83_update h.mok.num h.up hr.py hu hp
  rw [hst, Option.map_some] at hup
  have hcu := Record.constIn_length (consts n subs) hu
  have hcp := Record.constIn_length (consts n subs) hp
  obtain ⟨o1, e, r, -⟩ := C29_update (G := G.free) (nu := n.m.y.length) (np := n.p.length) (eps := n.eps)
    (maxit := n.maxit) (acts := n.actions) (mSrc_wf h.mok) ⟨rfl, he⟩ mSrc_args (mSrc_actions hd) (nU := .u)
    (nP := .p) (lU := n.m.u) (lP := n.p) rfl rfl hcu hcp hr.rel (st' := hold n (consts n subs) st') (by
      have : G.free.py = n.prog := mSrc_prog h.mok
      rw [this]
      exact hup)
  have hc := C83_cpp_update (G := G) (constWF h) rfl (eps := n.eps) (maxit := n.maxit) hr.cpp (act_free h)
    (nU := .u) (nP := .p) (lU := n.m.u) (lP := n.p) rfl rfl hu hp
  rw [show G.free.update n.eps n.maxit n.actions .u .p
    (List.zipWith (fun s v => (G.src.fix.lookup s).getD v) n.m.u u)
    (List.zipWith (fun s v => (G.src.fix.lookup s).getD v) n.p p) (G.hold o) = some o1 from e] at hc
  obtain ⟨o', h1, h2⟩ := Option.map_eq_some_iff.1 hc.symm
  have hlen : o'.args.length = n.all.length := by
    have e1 : o1.args.length = n.all.length := (congrArg List.length r.args).trans r.len
    rw [← h2] at e1
    exact (mask_length _ _).symm.trans e1
  refine ⟨o', h1, ⟨(constUpdate_length hst).trans hr.py, hlen, by rw [h2]; exact r⟩, ?_⟩
  intro k hk
  have hkX : k ∉ [Nm.u, Nm.p] := by
    simp only [List.mem_cons, List.not_mem_nil, or_false] at hk
    rcases hk with rfl | rfl | rfl | rfl | rfl | rfl <;> decide
  have hv : Record.vec n (hold n (consts n subs) st') k = Record.vec n st' k := by
    unfold Record.vec hold
    rw [get_mask ((masked h.mok.num h.up).free k hkX)]
  obtain ⟨a, b⟩ := vec_step (deps := deps) (inits := G.free.inits) h.mok he hup r hk
  rw [hv] at a b
  refine ⟨a, ?_⟩
  rw [← b, ← h2]
  unfold Gen.vector
  have := get_hold (G := G) rfl hlen k
  rw [← this]
  rfl

/-- C83. A Python simulation and a C++ simulation with constants, from objects that agree, write the same
file. -/
theorem C83_cpp_loop (h : ConstOK n F subs fs fs0) (he : ∀ A B : Mat ℝ, A.IsInv B → A.IsInv (einv A))
    (hd : ∀ c ∈ n.pre ++ (if 0 < n.nl then n.imp else []) ++ n.post, c.eval ∈ deps)
    {w : Window} (hw : 1 ≤ w.step) {ds : Ds ℝ} (hc : ds.c = (Record.layout n).dim)
    (hstop : w.stop = ds.r) {st : ℕ → St Nm ℝ} {o : Obj Nm ℝ}
    (hr : ConstRel n F subs fs deps fs0 inits einv mT (st 0) o)
    (hst : ∀ i < ds.r, n.constUpdate (consts n subs) (some (rowOf (Record.layout n) ds i "u"))
      (some (rowOf (Record.layout n) ds i "p")) (st i) = some (st (i + 1))) (mem : ℕ → ℝ) :
    ∃ dpy s, process (Record.layout n) w (Record.constMachine n (consts n subs)) ds.r (st 0) ds =
        .ok (st ds.r, dpy) ∧
      mainLoop (mDevice n F subs fs deps fs0 inits einv) (Record.layout n) ds.r ⟨o, mem, ds⟩ = some s ∧
      SameFile dpy s.ds := by
  have hnames : (Record.layout n).names = "u" :: "p" :: ["x", "dx", "dxH", "w", "z", "y"] := rfl
  have nd := Record.names_nodup n
  have hlenU : ∀ i, (rowOf (Record.layout n) ds i "u").length = n.m.u.length := by
    intro i
    obtain ⟨a, ha, -⟩ := (Record.layout n).inds_mem nd (name := "u") (by simp [hnames])
    unfold rowOf
    rw [List.length_map, Layout.seg_eq ha, seg_length, h.mok.meth.uy]
    rfl
  have hlenP : ∀ i, (rowOf (Record.layout n) ds i "p").length = n.p.length := by
    intro i
    obtain ⟨a, ha, -⟩ := (Record.layout n).inds_mem nd (name := "p") (by simp [hnames])
    unfold rowOf
    rw [List.length_map, Layout.seg_eq ha, seg_length]
    rfl
  have hsim : ∀ i < ds.r, ∀ o, ConstRel n F subs fs deps fs0 inits einv mT (st i) o →
      ∃ o', (mDevice n F subs fs deps fs0 inits einv).step (Record.layout n)
        (inputs (Record.layout n) ds i).1 (inputs (Record.layout n) ds i).2 o = some o' ∧
        ConstRel n F subs fs deps fs0 inits einv mT (st (i + 1)) o' ∧
        ∀ k ∈ [Nm.x, .dx, .dxH, .w, .z, .y], HasSh (.v (Record.vec n (st (i + 1)) k)) (msh n k) ∧
          (mGen n F subs fs deps fs0 inits einv).vector o' k = Record.vec n (st (i + 1)) k := by
    intro i hi o ho
    obtain ⟨o', e, r, v⟩ := C83_cpp_step h he hd ho (hlenU i) (hlenP i) (hst i hi)
    refine ⟨o', ?_, r, v⟩
    unfold mDevice
    exact (device_step (G := mGen n F subs fs deps fs0 inits einv) (nm := nmOf)
      (L := Record.layout n) (lU := n.m.u) (lP := n.p) rfl rfl (by rw [h.mok.meth.uy]; rfl) rfl
      (hlenU i) (hlenP i) o).trans e
  have hrel : ∀ i ≤ ds.r, ∃ o, ConstRel n F subs fs deps fs0 inits einv mT (st i) o := by
    intro i
    induction i with
    | zero => intro _; exact ⟨o, hr⟩
    | succ i ih =>
      intro hi
      obtain ⟨o1, h1⟩ := ih (by omega)
      obtain ⟨o2, -, h2, -⟩ := hsim i hi o1 h1
      exact ⟨o2, h2⟩
  have hq : ∀ i, ∀ q ∈ (Record.constMachine n (consts n subs)).vecs (st (i + 1)),
      ∃ k ∈ [Nm.x, .dx, .dxH, .w, .z, .y], nmOf q.1 = k ∧ q.2 = Record.vec n (st (i + 1)) k ∧
      msh n k = .vec ((Record.layout n).dimOf q.1) := by
    intro i q hq
    simp only [Record.constMachine, Record.machine, List.mem_cons, List.not_mem_nil, or_false] at hq
    rcases hq with rfl | rfl | rfl | rfl | rfl | rfl
    · exact ⟨.x, by simp, rfl, rfl, rfl⟩
    · exact ⟨.dx, by simp, rfl, rfl, rfl⟩
    · exact ⟨.dxH, by simp, rfl, rfl, rfl⟩
    · exact ⟨.w, by simp, rfl, rfl, rfl⟩
    · exact ⟨.z, by simp, rfl, rfl, rfl⟩
    · exact ⟨.y, by simp, rfl, rfl, rfl⟩
  obtain ⟨dpy, s, a1, a2, -, a4⟩ := C73_loop (m := Record.constMachine n (consts n subs))
    (D := mDevice n F subs fs deps fs0 inits einv)
    (R := ConstRel n F subs fs deps fs0 inits einv mT) (st := st) nd hnames hw hc hstop
    (by
      intro i hi
      show (n.constUpdate (consts n subs) (some (rowOf (Record.layout n) ds i "u"))
        (some (rowOf (Record.layout n) ds i "p")) (st i)).getD (st i) = _
      rw [hst i hi]
      rfl)
    (fun i hi => rfl)
    (by
      intro i hi q hqm
      obtain ⟨k, hk, -, e2, e3⟩ := hq i q hqm
      obtain ⟨o1, ho1⟩ := hrel i (by omega)
      obtain ⟨_, _, _, hv⟩ := hsim i hi o1 ho1
      have := (hv k hk).1
      rw [e3] at this
      rw [e2]
      exact this)
    (by
      intro i hi o ho
      obtain ⟨o', e, r, hv⟩ := hsim i hi o ho
      refine ⟨o', e, r, ?_⟩
      intro q hqm
      obtain ⟨k, hk, e1, e2, -⟩ := hq i q hqm
      show (mGen n F subs fs deps fs0 inits einv).vector o' (nmOf q.1) = _
      rw [e1, e2]
      exact (hv k hk).2)
    hr mem
  exact ⟨dpy, s, a1, a2, a4⟩

/-! ### Construction -/

/-- Initial values, with the constants. -/
def constInits (n : Num) (subs : List (String × ℝ)) (l : List (Nm × List ℝ)) : List (Nm × List ℝ) :=
  l.map fun p => (p.1, constIn (consts n subs) ((n.syms p.1).getD []) p.2)

theorem initLoop_const (n : Num) (fix : List (String × ℝ)) (l : List (Nm × Option (NV ℝ))) :
    ∀ st, initLoop (n.constProg fix) st l = initLoop n.prog st l := by
  induction l with
  | nil => intro st; rfl
  | cons p l ih =>
    intro st
    obtain ⟨k, v⟩ := p
    show (initOne n.prog st k v).bind _ = (initOne n.prog st k v).bind _
    cases initOne n.prog st k v with
    | error e => rfl
    | ok s => exact ih s

/-- Settings of arguments, with the constants. -/
theorem stores_mask {S : Src Nm ℝ} (hS : S.WF) {fix : List (String × ℝ)} (hsy : S.syms = n.syms)
    (hall : S.all = n.all) : ∀ (L : List (Nm × List ℝ)) {a : List ℝ}, (∀ p ∈ L, PairOK S p) →
    S.stores (mask (slots n fix) a) (L.map fun p => (p.1, constIn fix ((n.syms p.1).getD []) p.2)) =
      mask (slots n fix) (S.stores a L) := by
  intro L
  induction L with
  | nil => intro a _; rfl
  | cons p L ih =>
    intro a hok
    obtain ⟨l, hs, hw⟩ := hok p (by simp)
    have hs' : n.syms p.1 = some l := by rw [← hsy]; exact hs
    have key : S.store (mask (slots n fix) a) l (fun i => (constIn fix l p.2).getD i 0) =
        mask (slots n fix) (S.store a l fun i => p.2.getD i 0) := by
      rw [store_eq hS hs, store_eq hS hs, mask_assign]
      congr 1
      have hm : ∀ v : List ℝ, v.length = l.length → (List.range l.length).map (fun i => v.getD i 0) = v := by
        intro v hv
        apply List.ext_getElem
        · simp [hv]
        · intro i h1 h2
          simp [List.getD_eq_getElem?_getD, h2]
      rw [hm _ (Record.constIn_length fix hw), hm _ hw, find_inds_eq (hS.sub _ l hs) hS.nodup]
      unfold constIn
      rw [List.zipWith_map_left]
      have hmem : ∀ s ∈ l, (slots n fix (S.all.idxOf s)) = fix.lookup s := by
        intro s hsl
        have hsa := (hS.sub _ l hs).subset hsl
        unfold slots
        rw [← hall, List.getElem?_eq_getElem (List.idxOf_lt_length_of_mem hsa), List.getElem_idxOf]
        rfl
      apply List.ext_getElem?
      intro i
      rw [List.getElem?_zipWith, List.getElem?_zipWith]
      by_cases hi : i < l.length
      · rw [List.getElem?_eq_getElem hi, List.getElem?_eq_getElem (by omega)]
        simp only [Option.bind_some, Option.map_some]
        rw [hmem _ (List.getElem_mem hi)]
      · rw [List.getElem?_eq_none (l := l) (by omega)]
    show S.stores (S.store (mask (slots n fix) a) ((S.syms p.1).getD [])
      fun i => (constIn fix ((n.syms p.1).getD []) p.2).getD i 0) _ = mask _ (S.stores (S.store a _ _) L)
    rw [hs, hs', Option.getD_some, key]
    exact ih fun q hq => hok q (List.mem_cons_of_mem _ hq)

/-- C83. The objects constructed in Python and in C++ agree. -/
theorem C83_cpp_build (h : ConstOK n F subs fs fs0) (he : ∀ A B : Mat ℝ, A.IsInv B → A.IsInv (einv A))
    (hdeps : ∀ k ∈ deps, n.syms k = none ∧ (k = .ud_vl → 0 < n.l) ∧
      (k = .Fnl ∨ k = .ud_vnl → 0 < n.nl))
    {user extra : List (Nm × List ℝ)}
    (hok : ∀ p ∈ user ++ extra, PairOK (mSrc n F subs fs deps) p)
    (hpw : (user ++ extra).Pairwise (Apart (mSrc n F subs fs deps)))
    (hz : ∀ p ∈ extra, ∀ a ∈ p.2, a = 0)
    (hcov : ∀ s ∈ n.all, ∃ p ∈ user ++ extra, s ∈ (n.syms p.1).getD [])
    {junk : Obj Nm ℝ} (hj : junk.args.length = n.all.length) {st : St Nm ℝ}
    (hb : pyBuild (n.constProg (consts n subs)) n.all.length (user.map fun p => (p.1, some (.v p.2))) deps =
      some st) :
    ∃ o, (mGen n F subs fs deps fs0 (user ++ extra) einv).construct junk = some o ∧
      ConstRel n F subs fs deps fs0 (user ++ extra) einv [] st o := by
  set G := mGen n F subs fs deps fs0 (user ++ extra) einv with hG
  set fix := consts n subs with hfix
  have hS : G.free.src.WF := mSrc_wf h.mok
  have hpy : G.free.py = n.prog := mSrc_prog h.mok
  have hok' : ∀ p ∈ user ++ extra, PairOK G.free.src p := hok
  have hmok : ∀ p ∈ constInits n subs (user ++ extra), PairOK G.free.src p := by
    intro p hp
    obtain ⟨q, hq, rfl⟩ := List.mem_map.1 hp
    obtain ⟨l, h1, h2⟩ := hok q hq
    refine ⟨l, h1, ?_⟩
    have h1' : n.syms q.1 = some l := h1
    dsimp only
    rw [h1']
    exact Record.constIn_length _ h2
  have hmpw : (constInits n subs (user ++ extra)).Pairwise (Apart G.free.src) := by
    unfold constInits
    rw [List.pairwise_map]
    exact hpw
  have hmcov : ∀ s ∈ n.all, ∃ p ∈ constInits n subs (user ++ extra), s ∈ (n.syms p.1).getD [] := by
    intro s hs
    obtain ⟨p, hp, hsp⟩ := hcov s hs
    exact ⟨_, List.mem_map_of_mem hp, hsp⟩
  -- the Python object
  have hinit : ∀ (L : List (Nm × List ℝ)), (∀ p ∈ L, PairOK G.free.src p) →
      initLoop n.prog ⟨List.replicate n.all.length 0, fun _ => none⟩ (L.map fun p => (p.1, some (.v p.2))) =
      .ok ⟨G.free.src.stores (List.replicate n.all.length 0) L, fun _ => none⟩ := by
    intro L hL
    have := py_inits (fs0 := fs0) (sqrt := Real.sqrt) hS L
      (st := ⟨List.replicate n.all.length 0, fun _ => none⟩) hL
    rwa [show G.free.src.prog fs0 Real.sqrt = n.prog from mSrc_prog h.mok] at this
  unfold pyBuild initNumeric at hb
  rw [initLoop_const, hinit user fun p hp => hok' p (by simp [hp])] at hb
  dsimp only at hb
  have M := masked h.mok.num h.up
  have hargs : mask (slots n fix) (G.free.src.stores (List.replicate n.all.length 0) user) =
      G.free.src.stores (List.replicate n.all.length 0) (constInits n subs (user ++ extra)) := by
    have e1 : G.free.src.stores (List.replicate n.all.length 0) (user ++ extra) =
        G.free.src.stores (List.replicate n.all.length 0) user :=
      inits_eq hS (junk := List.replicate n.all.length 0) (by simp; rfl) hok' hpw hz hcov
    rw [← e1, ← stores_mask (n := n) (fix := fix) hS rfl rfl _ hok']
    have e2 := inits_eq hS (user := constInits n subs (user ++ extra)) (extra := [])
      (junk := mask (slots n fix) (List.replicate n.all.length 0)) (by rw [mask_length]; simp; rfl)
      (by rw [List.append_nil]; exact hmok) (by rw [List.append_nil]; exact hmpw) (by simp)
      (by rw [List.append_nil]; exact hmcov)
    rw [List.append_nil] at e2
    exact e2
  have hlen0 : (G.free.src.stores (List.replicate n.all.length 0) user).length = n.all.length := by
    rw [stores_length]; simp
  have hfold := foldlM_mask (m := maskSt (slots n fix))
    (I := fun s : St Nm ℝ => s.args.length = n.all.length) (l := deps)
    (f := fun st k => do
      some { st with vals := Function.update st.vals k (some (← (n.constProg fix).eval st k)) })
    (g := fun st k => do
      some { st with vals := Function.update st.vals k (some (← n.prog.eval st k)) })
    (by
      intro s hs k _
      show (n.prog.eval (maskSt (slots n fix) s) k).bind _ = (((n.constProg fix).eval s k).bind _).map _
      rw [M.eval hs k]
      cases (n.constProg fix).eval s k <;> rfl)
    (by
      intro s s' k hs hk
      obtain ⟨v, -, hv⟩ := Option.bind_eq_some_iff.1 hk
      cases hv
      exact hs)
    (s := ⟨G.free.src.stores (List.replicate n.all.length 0) user, fun _ => none⟩) hlen0
  rw [hb, Option.map_some] at hfold
  have hbuild : pyBuild G.free.py n.all.length
      ((constInits n subs (user ++ extra)).map fun p => (p.1, some (.v p.2))) deps =
      some (hold n fix st) := by
    rw [hpy]
    unfold pyBuild initNumeric
    rw [hinit _ hmok, ← hargs]
    exact hfold
  have hstlen : st.args.length = n.all.length :=
    foldlM_inv (I := fun s : St Nm ℝ => s.args.length = n.all.length)
      (by
        intro s s' k hs hk
        obtain ⟨v, -, hv⟩ := Option.bind_eq_some_iff.1 hk
        cases hv
        exact hs) hlen0 hb
  -- the C++ object
  obtain ⟨o1, b1, b2⟩ := C29_construct (G := G.free) (Γ := msh n) hS ⟨rfl, he⟩ mSrc_args
    (fun k hk => mSrc_eval (by simp) (hdeps k hk).1 (hdeps k hk).2.1 (hdeps k hk).2.2)
    (user := constInits n subs (user ++ extra)) (extra := []) (by rw [List.append_nil]; rfl)
    (by rw [List.append_nil]; exact hmok) (by rw [List.append_nil]; exact hmpw) (by simp)
    (by rw [List.append_nil]; exact hmcov) (junk := G.hold junk) ((mask_length _ _).trans hj) hbuild
  rw [C83_cpp_construct (constWF h) rfl hok hj] at b1
  obtain ⟨o, c1, c2⟩ := Option.map_eq_some_iff.1 b1
  refine ⟨o, c1, hstlen, ?_, by rw [c2]; exact b2⟩
  have e1 : o1.args.length = n.all.length := (congrArg List.length b2.args).trans b2.len
  rw [← c2] at e1
  exact (mask_length _ _).symm.trans e1

/-- C83. Simulations with constants: the simulation in Python and the simulation in C++ of the same method,
from the construction of the objects, write the same file, whatever the number of steps, as soon as the
updates in Python succeed. -/
theorem C83_cpp_run (h : ConstOK n F subs fs fs0) (he : ∀ A B : Mat ℝ, A.IsInv B → A.IsInv (einv A))
    (hd : ∀ c ∈ n.pre ++ (if 0 < n.nl then n.imp else []) ++ n.post, c.eval ∈ deps)
    (hdeps : ∀ k ∈ deps, n.syms k = none ∧ (k = .ud_vl → 0 < n.l) ∧
      (k = .Fnl ∨ k = .ud_vnl → 0 < n.nl))
    {user extra : List (Nm × List ℝ)} {flt : ℝ → ℝ}
    (hfl : ∀ p ∈ user ++ extra, ∀ a ∈ p.2, flt a = a)
    (hok : ∀ p ∈ user ++ extra, PairOK (mSrc n F subs fs deps) p)
    (hpw : (user ++ extra).Pairwise (Apart (mSrc n F subs fs deps)))
    (hz : ∀ p ∈ extra, ∀ a ∈ p.2, a = 0)
    (hcov : ∀ s ∈ n.all, ∃ p ∈ user ++ extra, s ∈ (n.syms p.1).getD [])
    {junk : Obj Nm ℝ} (hj : junk.args.length = n.all.length) (mem : ℕ → ℝ) {nt : ℕ}
    {sequ seqp : List (List ℝ)} {st : ℕ → St Nm ℝ}
    (hr : Record.ConstRun n (consts n subs) nt sequ seqp st)
    (hb : pyBuild (n.constProg (consts n subs)) n.all.length (user.map fun p => (p.1, some (.v p.2))) deps =
      some (st 0))
    {w : Window} (hw : 1 ≤ w.step) (hstop : w.stop = nt) :
    ∃ ds o dpy s, initFile (Record.layout n) nt sequ seqp = .ok ds ∧
      (mGen n F subs fs deps fs0 (floatInits flt (user ++ extra)) einv).construct junk = some o ∧
      process (Record.layout n) w (Record.constMachine n (consts n subs)) nt (st 0) ds = .ok (st nt, dpy) ∧
      mainLoop (mDevice n F subs fs deps fs0 (floatInits flt (user ++ extra)) einv) (Record.layout n) nt
        ⟨o, mem, ds⟩ = some s ∧
      SameFile dpy s.ds ∧ ∀ (w' : Window) (name : String) (t : TSel) (v : VSel),
        read (Record.layout n) w' dpy name t v = read (Record.layout n) w' s.ds name t v := by
  obtain ⟨ds, a1, a2, a3, a4, a5, -⟩ := C33_init (Record.names_nodup n) (by simp [Record.layout])
    (by simp [Record.layout]) hr.lu hr.lp
    (by intro r hm; rw [hr.du r hm, h.mok.meth.uy]; rfl) (by intro r hm; rw [hr.dp r hm]; rfl)
  rw [floatInits_eq hfl]
  obtain ⟨o, b1, b2⟩ := C83_cpp_build (einv := einv) h he hdeps hok hpw hz hcov hj hb
  have get : ∀ {l : List (List ℝ)} {i : ℕ} {r : List ℝ}, some r = l[i]? → l.getD i [] = r := by
    intro l i r e
    rw [List.getD_eq_getElem?_getD, ← e]; rfl
  obtain ⟨dpy, s, c1, c2, c3⟩ := C83_cpp_loop (inits := user ++ extra) h he hd hw (ds := ds) a3
    (by rw [a2]; exact hstop) (st := st)
    ⟨b2.py, b2.cpp, b2.rel.mono fun _ hm => by simp at hm⟩ (by
      intro i hi
      rw [a2] at hi
      rw [← get (a4 i hi), ← get (a5 i hi)]
      exact hr.step i hi) mem
  rw [a2] at c1 c2
  exact ⟨ds, o, dpy, s, a1, b1, c1, c2, c3, fun w' name t v => c3.read _ w' name t v⟩

end Cpp
end Pyphs
