/-
C73, second part: simulations of a method, in Python and in C++.
-/
import Verif.Cpp.SimuProps
import Verif.Cpp.EquivMethod
import Verif.Cpp.EquivInit
import Verif.Record.Props

namespace Pyphs
namespace Cpp
open Numeric H5 Scheme

/-! ### The object in the loop -/

section
variable {K : Type} [Field K] [LinearOrder K] {N : Type} [DecidableEq N] {G : Gen N K}

/-- Setting the members of the struct, then updating. -/
theorem device_step {eps : K} {maxit : ℕ} {acts : List (Action N)} {nm : String → N} {L : Layout}
    {lU lP : List String} (hU : G.src.syms (nm "u") = some lU) (hP : G.src.syms (nm "p") = some lP)
    (hlU : lU.length = L.dimOf "u") (hlP : lP.length = L.dimOf "p") {u p : List K}
    (hu : u.length = lU.length) (hp : p.length = lP.length) (o : Obj N K) :
    (G.device eps maxit acts nm).step L u p o = G.update eps maxit acts (nm "u") (nm "p") u p o := by
  have key : ∀ {n : N} {l : List String} {v : List K} (o : Obj N K), G.src.syms n = some l →
      v.length = l.length → (if 0 < l.length then G.setArg o n (.m ⟨v.length, 1, fun i _ => v.getD i 0⟩)
        else some o) = G.setVec o n v := by
    intro n l v o hs hv
    unfold Gen.setArg Gen.setVec
    rw [hs]
    dsimp only
    by_cases h0 : 0 < l.length
    · rw [if_pos h0, if_pos ⟨hv, by rw [col, if_neg (by omega)]⟩]
    · rw [if_neg h0]
      have : l = [] := List.length_eq_zero_iff.1 (by omega)
      subst this
      rfl
  unfold Device.step Gen.update
  rw [← hlU, ← hlP]
  have hset : ∀ (s : String) (v : List K) (o : Obj N K), (G.device eps maxit acts nm).set s v o =
      G.setArg o (nm s) (.m ⟨v.length, 1, fun i _ => v.getD i 0⟩) := fun _ _ _ => rfl
  simp only [hset, key _ hU hu, key _ hP hp]
  rfl

theorem rep_vector {o : Obj N K} {n : N} {l : List K} (h : Rep (.v l) (G.get o n)) :
    G.vector o n = l := by
  unfold Gen.vector
  cases hg : G.get o n with
  | s c => rw [hg] at h; exact h.elim
  | m A =>
    rw [hg] at h
    obtain ⟨h1, -, h3⟩ := h
    show (List.range A.r).map _ = l
    rw [h1]
    apply List.ext_getElem
    · simp
    · intro i hi1 hi2
      simp only [List.getElem_map, List.getElem_range]
      rw [h3 i hi2]
      simp [List.getD_eq_getElem?_getD, hi2]

/-- A name that has been executed has a value. -/
theorem exec_some {st st' : St N K} {k : N} (hs : G.src.syms k = none)
    (h : G.py.exec st ⟨k, k⟩ = some st') : (st'.vals k).isSome := by
  unfold Prog.exec at h
  simp only [Option.bind_eq_bind, Option.bind_eq_some_iff] at h
  obtain ⟨v, -, h⟩ := h
  unfold Prog.set at h
  rw [show G.py.argInds k = none by rw [py_laidOut G k, hs]; rfl] at h
  dsimp only at h
  obtain rfl := Option.some.inj h
  simp

theorem execs_some : ∀ (l : List (Cmd N)) {st st' : St N K}, G.py.execs st l = some st' →
    ∀ {k : N}, G.src.syms k = none → ⟨k, k⟩ ∈ l → (st'.vals k).isSome := by
  intro l
  induction l with
  | nil => intro st st' _ k _ h; simp at h
  | cons c l ih =>
    intro st st' h k hk hm
    unfold Prog.execs at h
    rw [List.foldlM_cons] at h
    simp only [Option.bind_eq_bind, Option.bind_eq_some_iff] at h
    obtain ⟨st1, h1, h2⟩ := h
    rcases List.mem_cons.1 hm with rfl | hm
    · exact execs_vals l h2 (exec_some hk h1)
    · exact ih h2 hk hm

end

/-! ### Methods -/

variable {n : Num} {F : Free} {subs : List (String × ℝ)} {fs : String} {fs0 : ℝ}
  {deps : List Nm} {inits : List (Nm × List ℝ)} {einv : Mat ℝ → Mat ℝ}

/-- The variables of the file. -/
def nmOf (s : String) : Nm :=
  if s = "u" then .u else if s = "p" then .p else if s = "x" then .x else if s = "dx" then .dx
  else if s = "dxH" then .dxH else if s = "w" then .w else if s = "z" then .z else .y

/-- The object of `simu.cpp` for a method. -/
noncomputable def mDevice (n : Num) (F : Free) (subs : List (String × ℝ)) (fs : String)
    (deps : List Nm) (fs0 : ℝ) (inits : List (Nm × List ℝ)) (einv : Mat ℝ → Mat ℝ) :
    Device (Obj Nm ℝ) ℝ :=
  (mGen n F subs fs deps fs0 inits einv).device n.eps n.maxit n.actions nmOf

theorem mem_post (n : Num) {k : Nm} (hk : k ∈ [Nm.dxH, .z, .y]) : (⟨k, k⟩ : Cmd Nm) ∈ n.post := by
  unfold Num.post
  refine List.mem_append_right _ ?_
  simp only [List.mem_cons, List.not_mem_nil, or_false] at hk
  rcases hk with rfl | rfl | rfl <;> simp [c1]

/-- The vectors that Python writes after an update, and those that C++ copies. -/
theorem vec_step (h : MOK n F subs fs fs0) (he : ∀ A B : Mat ℝ, A.IsInv B → A.IsInv (einv A))
    {st st' : St Nm ℝ} {o : Obj Nm ℝ} {u p : List ℝ}
    (hst : n.update (some u) (some p) st = some st')
    (hr : Rel (mGen n F subs fs deps fs0 inits einv) (msh n) mT st' o) {k : Nm}
    (hk : k ∈ [Nm.x, .dx, .dxH, .w, .z, .y]) :
    HasSh (.v (Record.vec n st' k)) (msh n k) ∧
      (mGen n F subs fs deps fs0 inits einv).vector o k = Record.vec n st' k := by
  set G := mGen n F subs fs deps fs0 inits einv with hG
  have hp : G.py = n.prog := mSrc_prog h
  have hkT : k ∉ mT := by
    simp only [List.mem_cons, List.not_mem_nil, or_false] at hk
    rcases hk with rfl | rfl | rfl | rfl | rfl | rfl <;> decide
  have hmsh : ∃ d, msh n k = .vec d := by
    simp only [List.mem_cons, List.not_mem_nil, or_false] at hk
    rcases hk with rfl | rfl | rfl | rfl | rfl | rfl <;> exact ⟨_, rfl⟩
  have hget : ∃ v, G.py.get st' k = some v := by
    cases hs : G.src.syms k with
    | some l =>
      exact ⟨_, get_arg (base := G.src.base G.fs0) (py_laidOut G) (mSrc_wf (deps := deps) h).nodup
        hr.len hs ((mSrc_wf h).sub k l hs)⟩
    | none =>
      have hk' : k ∈ [Nm.dxH, .z, .y] := by
        simp only [List.mem_cons, List.not_mem_nil, or_false] at hk ⊢
        rcases hk with rfl | rfl | rfl | rfl | rfl | rfl
        · cases hs
        · cases hs
        · exact .inl rfl
        · cases hs
        · exact .inr (.inl rfl)
        · exact .inr (.inr rfl)
      unfold Num.update Prog.update at hst
      rw [← hp] at hst
      simp only [Option.bind_eq_bind, Option.bind_eq_some_iff] at hst
      obtain ⟨s1, -, s2, -, hst⟩ := hst
      unfold Num.actions at hst
      rw [List.foldlM_append] at hst
      simp only [Option.bind_eq_bind, Option.bind_eq_some_iff] at hst
      obtain ⟨s3, -, hst⟩ := hst
      have hex : G.py.execs s3 n.post = some st' := by
        simpa [Prog.action] using hst
      have := execs_some n.post hex hs (mem_post n hk')
      obtain ⟨v, hv⟩ := Option.isSome_iff_exists.1 this
      exact ⟨v, by rw [get_none hs]; exact hv⟩
  obtain ⟨v, hv⟩ := hget
  obtain ⟨g1, g2⟩ := rel_get (mSrc_wf h) ⟨rfl, he⟩ mSrc_args hr hkT hv
  obtain ⟨d, hd⟩ := hmsh
  have hvec : v = .v (Record.vec n st' k) := by
    unfold Record.vec
    rw [← hp, hv]
    rw [hd] at g1
    cases v with
    | v l => rfl
    | s c => exact g1.elim
    | m A => exact g1.elim
  rw [hvec] at g1 g2
  exact ⟨g1, rep_vector g2⟩

/-- **C73** (methods): a Python simulation and a C++ simulation of the same method, from the same file of
inputs and from related objects, write the same file, whatever the number of steps, as soon as the updates
of the Python object succeed. -/
theorem C73_method (h : MOK n F subs fs fs0) (he : ∀ A B : Mat ℝ, A.IsInv B → A.IsInv (einv A))
    (hd : ∀ c ∈ n.pre ++ (if 0 < n.nl then n.imp else []) ++ n.post, c.eval ∈ deps)
    {w : Window} (hw : 1 ≤ w.step) {ds : Ds ℝ} (hc : ds.c = (Record.layout n).dim)
    (hstop : w.stop = ds.r) {st : ℕ → St Nm ℝ} {o : Obj Nm ℝ}
    (hr : Rel (mGen n F subs fs deps fs0 inits einv) (msh n) mT (st 0) o)
    (hst : ∀ i < ds.r, n.update (some (rowOf (Record.layout n) ds i "u"))
      (some (rowOf (Record.layout n) ds i "p")) (st i) = some (st (i + 1))) (mem : ℕ → ℝ) :
    ∃ dpy s, process (Record.layout n) w (Record.machine n) ds.r (st 0) ds = .ok (st ds.r, dpy) ∧
      mainLoop (mDevice n F subs fs deps fs0 inits einv) (Record.layout n) ds.r ⟨o, mem, ds⟩ = some s ∧
      SameFile dpy s.ds := by
  have hnames : (Record.layout n).names = "u" :: "p" :: ["x", "dx", "dxH", "w", "z", "y"] := rfl
  have nd := Record.names_nodup n
  have hlenU : ∀ i, (rowOf (Record.layout n) ds i "u").length = n.m.u.length := by
    intro i
    obtain ⟨a, ha, -⟩ := (Record.layout n).inds_mem nd (name := "u") (by simp [hnames])
    unfold rowOf
    rw [List.length_map, Layout.seg_eq ha, seg_length, h.meth.uy]
    rfl
  have hlenP : ∀ i, (rowOf (Record.layout n) ds i "p").length = n.p.length := by
    intro i
    obtain ⟨a, ha, -⟩ := (Record.layout n).inds_mem nd (name := "p") (by simp [hnames])
    unfold rowOf
    rw [List.length_map, Layout.seg_eq ha, seg_length]
    rfl
  -- one step keeps the relation
  have hsim : ∀ i < ds.r, ∀ o, Rel (mGen n F subs fs deps fs0 inits einv) (msh n) mT (st i) o →
      ∃ o', (mDevice n F subs fs deps fs0 inits einv).step (Record.layout n)
        (inputs (Record.layout n) ds i).1 (inputs (Record.layout n) ds i).2 o = some o' ∧
        Rel (mGen n F subs fs deps fs0 inits einv) (msh n) mT (st (i + 1)) o' := by
    intro i hi o ho
    obtain ⟨o', e, r, -⟩ := C29_update (G := mGen n F subs fs deps fs0 inits einv)
      (nu := n.m.y.length) (np := n.p.length) (eps := n.eps) (maxit := n.maxit)
      (acts := n.actions) (mSrc_wf h) ⟨rfl, he⟩ mSrc_args (mSrc_actions hd) (nU := .u) (nP := .p)
      (lU := n.m.u) (lP := n.p) rfl rfl (hlenU i) (hlenP i) ho (st' := st (i + 1)) (by
        have : (mGen n F subs fs deps fs0 inits einv).py = n.prog := mSrc_prog h
        rw [this]
        exact hst i hi)
    refine ⟨o', ?_, r⟩
    unfold mDevice
    exact (device_step (G := mGen n F subs fs deps fs0 inits einv) (nm := nmOf)
      (L := Record.layout n) (lU := n.m.u) (lP := n.p) rfl rfl (by rw [h.meth.uy]; rfl) rfl
      (hlenU i) (hlenP i) o).trans e
  -- the related objects exist at each step, for the lengths
  have hrel : ∀ i ≤ ds.r, ∃ o, Rel (mGen n F subs fs deps fs0 inits einv) (msh n) mT (st i) o := by
    intro i
    induction i with
    | zero => intro _; exact ⟨o, hr⟩
    | succ i ih =>
      intro hi
      obtain ⟨o1, h1⟩ := ih (by omega)
      obtain ⟨o2, -, h2⟩ := hsim i hi o1 h1
      exact ⟨o2, h2⟩
  have hq : ∀ i, ∀ q ∈ (Record.machine n).vecs (st (i + 1)), ∃ k ∈ [Nm.x, .dx, .dxH, .w, .z, .y],
      nmOf q.1 = k ∧ q.2 = Record.vec n (st (i + 1)) k ∧
      msh n k = .vec ((Record.layout n).dimOf q.1) := by
    intro i q hq
    simp only [Record.machine, List.mem_cons, List.not_mem_nil, or_false] at hq
    rcases hq with rfl | rfl | rfl | rfl | rfl | rfl
    · exact ⟨.x, by simp, rfl, rfl, rfl⟩
    · exact ⟨.dx, by simp, rfl, rfl, rfl⟩
    · exact ⟨.dxH, by simp, rfl, rfl, rfl⟩
    · exact ⟨.w, by simp, rfl, rfl, rfl⟩
    · exact ⟨.z, by simp, rfl, rfl, rfl⟩
    · exact ⟨.y, by simp, rfl, rfl, rfl⟩
  obtain ⟨dpy, s, a1, a2, -, a4⟩ := C73_loop (m := Record.machine n)
    (D := mDevice n F subs fs deps fs0 inits einv)
    (R := Rel (mGen n F subs fs deps fs0 inits einv) (msh n) mT) (st := st) nd hnames hw hc hstop
    (by
      intro i hi
      show (n.update (some (rowOf (Record.layout n) ds i "u")) (some _) (st i)).getD (st i) = _
      have := hst i hi
      show (n.update (some (rowOf (Record.layout n) ds i "u"))
        (some (rowOf (Record.layout n) ds i "p")) (st i)).getD (st i) = _
      rw [this]
      rfl)
    (fun i hi => rfl)
    (by
      intro i hi q hqm
      obtain ⟨k, hk, -, e2, e3⟩ := hq i q hqm
      obtain ⟨o', ho'⟩ := hrel (i + 1) hi
      have := (vec_step h he (hst i hi) ho' hk).1
      rw [e3] at this
      rw [e2]
      exact this)
    (by
      intro i hi o ho
      obtain ⟨o', e, r⟩ := hsim i hi o ho
      refine ⟨o', e, r, ?_⟩
      intro q hqm
      obtain ⟨k, hk, e1, e2, -⟩ := hq i q hqm
      show (mGen n F subs fs deps fs0 inits einv).vector o' (nmOf q.1) = _
      rw [e1, e2]
      exact (vec_step h he (hst i hi) r hk).2)
    hr mem
  exact ⟨dpy, s, a1, a2, a4⟩

end Cpp
end Pyphs
