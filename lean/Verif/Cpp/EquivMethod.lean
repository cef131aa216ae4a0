/-
C29 for the programs that methods build (Numeric/Program.lean).
-/
import Verif.Cpp.EquivInit
import Verif.Numeric.StepExamples

namespace Pyphs
namespace Cpp
open Numeric Scheme

/-- Functions of a method, of the values of the symbols. -/
noncomputable def fenv (n : Num) : Nm → Option (Env ℝ → NV ℝ)
  | .ud_o => some fun e => .v (n.obs.map fun f => f e)
  | .jactempFll => some fun e => .m (n.m.J .l .l e)
  | .jactempFnll => some fun e => .m (n.m.J .nl .l e)
  | .Gl => some fun e => .v (vlist n.l fun i => n.m.G .l i e)
  | .Gnl => some fun e => .v (vlist n.nl fun i => n.m.G .nl i e)
  | .jacGlnl => some fun e => .m (n.m.JG .l .nl e)
  | .jacGnlnl => some fun e => .m (n.m.JG .nl .nl e)
  | .dxH => some fun e => .v (n.m.dxH.map fun f => f e)
  | .z => some fun e => .v (n.m.z.map fun f => f e)
  | .y => some fun e => .v (n.m.out e)
  | _ => none

theorem func_eq (n : Num) (k : Nm) : n.func k = (fenv n k).map fun g a => g (n.env a) := by
  cases k <;> rfl

/-- Shapes of the names of a method. -/
noncomputable def msh (n : Num) : Nm → Sh
  | .x | .dx | .ud_x | .dxH => .vec n.m.g.x.length
  | .w | .z => .vec n.m.w.length
  | .u => .vec n.m.u.length
  | .y => .vec n.m.y.length
  | .p => .vec n.p.length
  | .o | .ud_o => .vec n.o.length
  | .vl | .Gl | .ud_vl => .vec n.l
  | .vnl | .Gnl | .Fnl | .save_Fnl | .ud_vnl => .vec n.nl
  | .jactempFll | .ijactempFll => .mat n.l n.l
  | .jactempFnll => .mat n.nl n.l
  | .jacGlnl => .mat n.l n.nl
  | .jacGnlnl | .jacFnl | .ijacFnl => .mat n.nl n.nl
  | .res_Fnl | .step_Fnl => .sc

/-- The names that are evaluated only to set an argument. -/
def mT : List Nm := [.ud_x, .ud_o, .ud_vnl, .ud_vl]

/-- Values of the symbols `F`. -/
def restrict (F : List String) (e : Env ℝ) : Env ℝ := fun s => if s ∈ F then e s else 0

theorem restrict_congr {F : List String} {e e' : Env ℝ} (h : ∀ s ∈ F, e s = e' s) :
    restrict F e = restrict F e' := by
  funext s
  unfold restrict
  split_ifs with hs
  · exact h s hs
  · rfl

/-- Coefficient of a numpy value. -/
def coef (v : NV ℝ) (i j : ℕ) : ℝ :=
  match v with
  | .s c => c
  | .v l => l.getD i 0
  | .m A => A.e i j

/-- The free symbols of each coefficient of each function. -/
abbrev Free := Nm → ℕ → ℕ → List String

/-- The expressions of a function whose coefficients have the free symbols `F`. -/
noncomputable def toFE (F : ℕ → ℕ → List String) (g : Env ℝ → NV ℝ) : Sh → Option (FE ℝ)
  | .sc => none
  | .vec m => some (.vec m fun i => ⟨fun e => coef (g (restrict (F i 0) e)) i 0, F i 0,
      fun _ _ h => by rw [restrict_congr h]⟩)
  | .mat r c => some (.mat r c fun i j => ⟨fun e => coef (g (restrict (F i j) e)) i j, F i j,
      fun _ _ h => by rw [restrict_congr h]⟩)

/-- What the generator reads in a method. -/
noncomputable def mSrc (n : Num) (F : Free) (subs : List (String × ℝ)) (fs : String)
    (deps : List Nm) : Src Nm ℝ where
  all := n.all
  syms := n.syms
  op := n.op
  fe := fun k => (fenv n k).bind fun g => toFE (F k) g (msh n k)
  subs := subs
  fs := fs
  deps := deps

/-- The method can be generated: its functions depend on the symbols given by `F`, the lengths agree, the
names of the arguments are distinct from those of the parameters. -/
structure MOK (n : Num) (F : Free) (subs : List (String × ℝ)) (fs : String) (fs0 : ℝ) :
    Prop where
  num : n.WF
  meth : MethWF n.m
  obs : n.obs.length = n.o.length
  dep : ∀ k g, fenv n k = some g → ∀ i j e, coef (g (restrict (F k i j) e)) i j = coef (g e) i j
  keys : (subs.map Prod.fst).Nodup
  disj : ∀ s ∈ n.all, s ∉ subs.map Prod.fst ∧ s ≠ fs
  base : n.base = fun s => if s = fs then fs0 else (subs.lookup s).getD 0

variable {n : Num} {F : Free} {subs : List (String × ℝ)} {fs : String} {fs0 : ℝ}
  {deps : List Nm}

theorem fenv_sh (h : MOK n F subs fs fs0) {k : Nm} {g : Env ℝ → NV ℝ} (hg : fenv n k = some g)
    (e : Env ℝ) : HasSh (g e) (msh n k) := by
  cases k <;> simp only [fenv, reduceCtorEq, Option.some.injEq] at hg <;> subst hg
  · simpa [HasSh, msh] using h.obs
  · exact ⟨rfl, rfl⟩
  · simp [HasSh, msh, vlist]
  · exact ⟨rfl, rfl⟩
  · simp [HasSh, msh, vlist]
  · exact ⟨rfl, rfl⟩
  · exact ⟨rfl, rfl⟩
  · simpa [HasSh, msh] using h.meth.gx
  · simpa [HasSh, msh] using h.meth.wz.symm
  · simp [HasSh, msh, out_length]

theorem toFE_val {F : ℕ → ℕ → List String} {g : Env ℝ → NV ℝ} {sh : Sh} {f : FE ℝ}
    (hf : toFE F g sh = some f) (hd : ∀ i j e, coef (g (restrict (F i j) e)) i j = coef (g e) i j) {e : Env ℝ} (hs : HasSh (g e) sh) : f.val e = g e := by
  cases sh with
  | sc => simp [toFE] at hf
  | vec m =>
    obtain rfl := Option.some.inj hf
    show NV.v ((List.range m).map fun i => coef (g (restrict (F i 0) e)) i 0) = _
    simp only [hd]
    cases hv : g e with
    | s c => rw [hv] at hs; exact hs.elim
    | m A => rw [hv] at hs; exact hs.elim
    | v l =>
      rw [hv] at hs
      have hs' : l.length = m := hs
      congr 1
      apply List.ext_getElem
      · simp [hs']
      · intro i h1 h2
        simp [coef, List.getD_eq_getElem?_getD, h2]
  | mat r c =>
    obtain rfl := Option.some.inj hf
    show NV.m ⟨r, c, fun i j => coef (g (restrict (F i j) e)) i j⟩ = _
    simp only [hd]
    cases hv : g e with
    | s c => rw [hv] at hs; exact hs.elim
    | v l => rw [hv] at hs; exact hs.elim
    | m A =>
      rw [hv] at hs
      obtain ⟨h1, h2⟩ : A.r = r ∧ A.c = c := hs
      subst h1 h2
      rfl

theorem toFE_sh {F : ℕ → ℕ → List String} {g : Env ℝ → NV ℝ} {sh : Sh} {f : FE ℝ} (hf : toFE F g sh = some f) :
    f.sh = sh := by
  cases sh <;> simp only [toFE, reduceCtorEq, Option.some.injEq] at hf <;> subst hf <;> rfl

/-- The Python program of the expressions is the program of the method. -/
theorem mSrc_prog (h : MOK n F subs fs fs0) : (mSrc n F subs fs deps).prog fs0 Real.sqrt = n.prog := by
  have hb : (mSrc n F subs fs deps).base fs0 = n.base := by rw [h.base]; rfl
  unfold Src.prog Num.prog
  congr 1
  funext k
  rw [hb, func_eq]
  show ((fenv n k).bind fun g => toFE (F k) g (msh n k)).map _ = _
  cases hg : fenv n k with
  | none => rfl
  | some g =>
    have hns : msh n k ≠ .sc := by
      intro hsc
      cases k <;> simp_all [msh, fenv]
    rw [Option.bind_some]
    cases hf : toFE (F k) g (msh n k) with
    | none =>
      cases hs : msh n k with
      | sc => exact absurd hs hns
      | vec m => rw [hs] at hf; simp [toFE] at hf
      | mat r c => rw [hs] at hf; simp [toFE] at hf
    | some f =>
      show some _ = some _
      congr 1
      funext a
      exact toFE_val hf (h.dep k g hg) (fenv_sh h hg _)

theorem mSrc_wf (h : MOK n F subs fs fs0) : (mSrc n F subs fs deps).WF where
  nodup := h.num.nodup
  sub := by
    intro k l hs
    change n.syms k = some l at hs
    cases k <;> simp only [Num.syms, reduceCtorEq, Option.some.injEq] at hs <;> subst hs
    · exact sub_x n
    · exact sub_dx n
    · show n.m.w.Sublist n.all
      unfold Num.all
      exact ((List.sublist_append_right _ _).trans (List.sublist_append_left _ _)).trans
        ((List.sublist_append_left _ _).trans (List.sublist_append_left _ _))
    · exact sub_u n
    · exact sub_p n
    · exact sub_o n
    · exact sub_v n .l
    · exact sub_v n .nl
  keys := h.keys
  disj := h.disj

theorem mSrc_args : ArgsOK (mSrc n F subs fs deps) (msh n) := by
  intro k l hs
  change n.syms k = some l at hs
  cases k <;> simp only [Num.syms, reduceCtorEq, Option.some.injEq] at hs <;> subst hs <;>
    simp [msh, Num.l, Num.nl]

/-- Names that can be evaluated: all of them, but those of the implicit part need unknowns. -/
theorem mSrc_eval {T : List Nm} (hT : ∀ k ∈ T, k ∈ mT) {k : Nm} (hs : n.syms k = none)
    (hl : k = .ud_vl → 0 < n.l) (hnl : k = .Fnl ∨ k = .ud_vnl → 0 < n.nl) :
    EvalOK (mSrc n F subs fs deps) (msh n) T k := by
  have hx : ∀ k, k ∉ mT → k ∉ T := fun k h h' => h (hT k h')
  unfold EvalOK
  cases k <;> simp only [Num.syms, reduceCtorEq] at hs <;> simp only [mSrc, Num.op]
  all_goals first
    | (refine ⟨_, rfl, ?_⟩; rfl)
    | skip
  case ud_x => simp [opTy, hx, mT, msh]
  case ijactempFll => simp [opTy, hx, mT, msh]
  case ud_vl =>
    have := hl rfl
    simp [opTy, hx, mT, msh, this]
  case Fnl =>
    have := hnl (.inl rfl)
    by_cases h0 : 0 < n.l
    · rw [if_pos h0]; simp [opTy, hx, mT, msh, this, h0]
    · rw [if_neg h0]; simp [opTy, hx, mT, msh]
  case res_Fnl => simp [opTy, hx, mT, msh]
  case save_Fnl => simp [opTy, hx, mT, msh]
  case jacFnl =>
    by_cases h0 : 0 < n.l
    · rw [if_pos h0]; simp [opTy, hx, mT, msh]
    · rw [if_neg h0]; simp [opTy, hx, mT, msh]
  case ijacFnl => simp [opTy, hx, mT, msh]
  case ud_vnl =>
    have := hnl (.inr rfl)
    simp [opTy, hx, mT, msh, this]
  case step_Fnl => simp [opTy, hx, mT, msh]

/-- A command given by one name. -/
theorem mSrc_c1 {k : Nm} (hd : k ∈ deps) (hs : n.syms k = none) (hT : k ∉ mT)
    (hnl : k = .Fnl → 0 < n.nl) : CmdOK (mSrc n F subs fs deps) (msh n) mT (c1 k) := by
  refine ⟨mSrc_eval (fun _ h => h) hs ?_ ?_, hd, rfl, hs, ?_⟩
  · rintro rfl; exact absurd (by decide) hT
  · rintro (h | rfl)
    · exact hnl h
    · exact absurd (by decide) hT
  · show (if k = k then _ else _)
    rw [if_pos rfl]; exact hT

/-- The actions of a method can be generated. -/
theorem mSrc_actions (hd : ∀ c ∈ n.pre ++ (if 0 < n.nl then n.imp else []) ++ n.post, c.eval ∈ deps) :
    ∀ a ∈ n.actions, ActOK (mSrc n F subs fs deps) (msh n) mT a := by
  have h2 : ∀ {a k : Nm}, k ∈ deps → n.syms k = none → k ∈ mT → (n.syms a).isSome →
      msh n a = msh n k → (k = .ud_vl → 0 < n.l) → (k = .ud_vnl → 0 < n.nl) →
      CmdOK (mSrc n F subs fs deps) (msh n) mT ⟨a, k⟩ := by
    intro a k hk hs hT ha hsh hl hnl
    refine ⟨mSrc_eval (fun _ h => h) hs hl ?_, hk, hsh, hs, ?_⟩
    · rintro (rfl | h)
      · exact absurd hT (by decide)
      · exact hnl h
    · show (if a = k then _ else _)
      have hne : a ≠ k := by rintro rfl; rw [hs] at ha; simp at ha
      rw [if_neg hne]
      exact ⟨ha, hT⟩
  have hpre : ∀ c ∈ n.pre, CmdOK (mSrc n F subs fs deps) (msh n) mT c := by
    intro c hc
    have hdc : c.eval ∈ deps := hd c (by simp [hc])
    unfold Num.pre at hc
    simp only [List.mem_append, List.mem_cons, List.not_mem_nil, or_false] at hc
    rcases hc with ((rfl | rfl) | hc) | hc
    · exact h2 hdc rfl (by decide) rfl rfl (by simp) (by simp)
    · exact h2 hdc rfl (by decide) rfl rfl (by simp) (by simp)
    · split_ifs at hc with h0
      · simp only [List.mem_cons, List.not_mem_nil, or_false] at hc
        rcases hc with rfl | rfl | rfl <;> exact mSrc_c1 hdc rfl (by decide) (by simp)
      · simp at hc
    · split_ifs at hc with h0 h1
      · simp only [List.mem_append, List.mem_cons, List.not_mem_nil, or_false] at hc
        rcases hc with rfl | rfl | rfl | rfl <;>
          exact mSrc_c1 hdc rfl (by decide) (fun _ => h0)
      · simp only [List.nil_append, List.mem_cons, List.not_mem_nil, or_false] at hc
        rcases hc with rfl | rfl | rfl <;>
          exact mSrc_c1 hdc rfl (by decide) (fun _ => h0)
      · simp at hc
  have hpost : ∀ c ∈ n.post, CmdOK (mSrc n F subs fs deps) (msh n) mT c := by
    intro c hc
    have hdc : c.eval ∈ deps := hd c (by simp [hc])
    unfold Num.post at hc
    simp only [List.mem_append, List.mem_cons, List.not_mem_nil, or_false] at hc
    rcases hc with hc | rfl | rfl | rfl
    · split_ifs at hc with h0
      · simp only [List.mem_cons, List.not_mem_nil, or_false] at hc
        subst hc
        exact h2 hdc rfl (by decide) rfl rfl (fun _ => h0) (by simp)
      · simp at hc
    all_goals exact mSrc_c1 hdc rfl (by decide) (by simp)
  intro a ha
  unfold Num.actions at ha
  simp only [List.mem_append, List.mem_cons, List.not_mem_nil, or_false] at ha
  rcases ha with (rfl | ha) | rfl
  · exact hpre
  · split_ifs at ha with h0
    · simp only [List.mem_cons, List.not_mem_nil, or_false] at ha
      subst ha
      refine ⟨?_, rfl, rfl, by decide, by decide, rfl, rfl, rfl⟩
      intro c hc
      have hdc : c.eval ∈ deps := hd c (by simp [hc, h0])
      unfold Num.imp at hc
      simp only [List.mem_append, List.mem_cons, List.not_mem_nil, or_false] at hc
      rcases hc with (((rfl | hc) | rfl | rfl | rfl | rfl) | hc) | rfl | rfl | rfl | rfl
      · exact mSrc_c1 hdc rfl (by decide) (fun _ => h0)
      · split_ifs at hc with h1
        · simp only [List.mem_cons, List.not_mem_nil, or_false] at hc
          subst hc
          exact mSrc_c1 hdc rfl (by decide) (fun _ => h0)
        · simp at hc
      · exact mSrc_c1 hdc rfl (by decide) (fun _ => h0)
      · exact mSrc_c1 hdc rfl (by decide) (fun _ => h0)
      · exact mSrc_c1 hdc rfl (by decide) (fun _ => h0)
      · exact h2 hdc rfl (by decide) rfl rfl (by simp) (fun _ => h0)
      · split_ifs at hc with h1
        · simp only [List.mem_cons, List.not_mem_nil, or_false] at hc
          subst hc
          exact mSrc_c1 hdc rfl (by decide) (fun _ => h0)
        · simp at hc
      all_goals exact mSrc_c1 hdc rfl (by decide) (fun _ => h0)
    · simp at ha
  · exact hpost

/-- The generated code of a method; `einv` is `Matrix::inverse`. -/
noncomputable def mGen (n : Num) (F : Free) (subs : List (String × ℝ)) (fs : String)
    (deps : List Nm) (fs0 : ℝ) (inits : List (Nm × List ℝ)) (einv : Mat ℝ → Mat ℝ) : Gen Nm ℝ where
  src := mSrc n F subs fs deps
  tab := [subs.map Prod.snd]
  fs0 := fs0
  inits := inits
  sqrt := Real.sqrt
  einv := einv

/-- **C29** (methods): for every method, every history of inputs and every number of steps, whenever
the updates of the `Numeric` succeed, so do those of the generated object and the arguments are equal
after each of them. -/
theorem C29_method (h : MOK n F subs fs fs0) {inits : List (Nm × List ℝ)} {einv : Mat ℝ → Mat ℝ}
    (he : ∀ A B : Mat ℝ, A.IsInv B → A.IsInv (einv A))
    (hd : ∀ c ∈ n.pre ++ (if 0 < n.nl then n.imp else []) ++ n.post, c.eval ∈ deps)
    (seq : List (List ℝ × List ℝ))
    (hq : ∀ q ∈ seq, q.1.length = n.m.u.length ∧ q.2.length = n.p.length) {st st' : St Nm ℝ}
    {o : Obj Nm ℝ} (hr : Rel (mGen n F subs fs deps fs0 inits einv) (msh n) mT st o)
    (hst : seq.foldlM (fun st q => n.update (some q.1) (some q.2) st) st = some st') :
    ∃ o', seq.foldlM (fun o q => (mGen n F subs fs deps fs0 inits einv).update n.eps n.maxit
        n.actions .u .p q.1 q.2 o) o = some o' ∧
      Rel (mGen n F subs fs deps fs0 inits einv) (msh n) mT st' o' ∧ o'.args = st'.args := by
  refine C29_history (G := mGen n F subs fs deps fs0 inits einv) (nu := n.m.y.length)
    (np := n.p.length) (mSrc_wf h) ⟨rfl, he⟩ mSrc_args (mSrc_actions hd) (nU := .u) (nP := .p)
    rfl rfl seq hq hr ?_
  have : (mGen n F subs fs deps fs0 inits einv).py = n.prog := mSrc_prog h
  rw [this]
  exact hst

/-! ### Free symbols -/

section
variable {F : List String}

/-- The value of `f` is given by the values of the symbols `F`. -/
def On {α : Type} (F : List String) (f : Env ℝ → α) : Prop := ∀ e, f (restrict F e) = f e

theorem getD_lt {α : Type} {l : List α} {i : ℕ} {d : α} (h : i < l.length) : l.getD i d = l[i] := by
  simp [List.getD_eq_getElem?_getD, h]

theorem getD_ge {α : Type} {l : List α} {i : ℕ} {d : α} (h : l.length ≤ i) : l.getD i d = d := by
  simp [List.getD_eq_getElem?_getD, h]

theorem on_vals {l : List Sc} (h : ∀ f ∈ l, On F f) : On F (vals l) := by
  intro e
  funext i
  unfold vals
  by_cases hi : i < l.length
  · rw [getD_lt hi]; exact h _ (List.getElem_mem hi) e
  · rw [getD_ge (by omega)]

theorem on_svals {l : List String} (h : ∀ s ∈ l, s ∈ F) (h0 : "" ∈ F) : On F (svals l) := by
  intro e
  funext i
  unfold svals restrict
  by_cases hi : i < l.length
  · rw [getD_lt hi, if_pos (h _ (List.getElem_mem hi))]
  · rw [getD_ge (by omega), if_pos h0]

theorem restrict_update {s : String} (hs : s ∈ F) (e : Env ℝ) (t : ℝ) :
    restrict F (Function.update e s t) = Function.update (restrict F e) s t := by
  funext r
  unfold restrict
  by_cases hr : r = s
  · subst hr; simp [hs]
  · simp [Function.update, hr]

theorem on_pdiff {f : Sc} {s : String} (hf : On F f) (hs : s ∈ F) : On F (pdiff f s) := by
  intro e
  unfold pdiff
  have h1 : restrict F e s = e s := if_pos hs
  rw [h1]
  congr 1
  funext t
  rw [← restrict_update hs]
  exact hf _

/-- The free symbols of the expressions of a method are among `F` (and the variables are). -/
structure MDep (n : Num) (F : List String) : Prop where
  dxH : ∀ f ∈ n.m.dxH, On F f
  z : ∀ f ∈ n.m.z, On F f
  M : On F n.m.M
  obs : ∀ f ∈ n.obs, On F f
  v : ∀ s ∈ n.m.v .all, s ∈ F
  u : ∀ s ∈ n.m.u, s ∈ F
  /-- components out of range are read as this symbol -/
  nil : "" ∈ F

theorem MDep.core (h : MDep n F) (e : Env ℝ) : n.m.core (restrict F e) = n.m.core e := by
  unfold Meth.core
  rw [h.M e]

theorem MDep.vs (h : MDep n F) (s : Sfx) : ∀ x ∈ n.m.v s, x ∈ F := by
  intro x hx
  apply h.v
  unfold Meth.v at hx ⊢
  simp only [List.mem_append, List.mem_map] at hx ⊢
  have hp : ∀ {α : Type} (k : ℕ) (l : List α) (a : α), a ∈ s.pick k l → a ∈ l := by
    intro α k l a ha
    cases s with
    | all => exact ha
    | l => exact List.mem_of_mem_take ha
    | nl => exact List.mem_of_mem_drop ha
  rcases hx with ⟨a, ha, rfl⟩ | hx
  · exact .inl ⟨a, hp _ _ _ ha, rfl⟩
  · exact .inr (hp _ _ _ hx)

theorem MDep.ff (h : MDep n F) (s : Sfx) : ∀ f ∈ n.m.f s, On F f := by
  intro f hf
  unfold Meth.f at hf
  rw [List.mem_append] at hf
  have hp : ∀ {α : Type} (k : ℕ) (l : List α) (a : α), a ∈ s.pick k l → a ∈ l := by
    intro α k l a ha
    cases s with
    | all => exact ha
    | l => exact List.mem_of_mem_take ha
    | nl => exact List.mem_of_mem_drop ha
  rcases hf with hf | hf
  · exact h.dxH f (hp _ _ _ hf)
  · exact h.z f (hp _ _ _ hf)

theorem MDep.FF (h : MDep n F) (s : Sfx) (i : ℕ) : On F (n.m.F s i) := by
  intro e
  have hI : n.m.I s (restrict F e) = n.m.I s e := by unfold Meth.I; rw [h.core]
  have hV : ∀ b, n.m.Mvv s b (restrict F e) = n.m.Mvv s b e := by
    intro b; unfold Meth.Mvv; rw [h.core]
  have hY : n.m.Mvy s (restrict F e) = n.m.Mvy s e := by unfold Meth.Mvy; rw [h.core]
  have hv := on_svals (h.vs s) h.nil e
  have hu := on_svals h.u h.nil e
  have hf := fun b => on_vals (h.ff b) e
  cases s <;> simp only [Meth.F, hI, hV, hY, hv, hu, hf]

theorem MDep.getD (h : MDep n F) (s : Sfx) (j : ℕ) : (n.m.v s).getD j "" ∈ F := by
  by_cases hi : j < (n.m.v s).length
  · rw [getD_lt hi]; exact h.vs s _ (List.getElem_mem hi)
  · rw [getD_ge (by omega)]; exact h.nil

theorem MDep.J (h : MDep n F) (a b : Sfx) : On F (n.m.J a b) := by
  intro e
  unfold Meth.J
  congr 1
  funext i j
  exact on_pdiff (h.FF a i) (h.getD b j) e

theorem MDep.G (h : MDep n F) (a : Sfx) (i : ℕ) : On F (n.m.G a i) := by
  intro e
  unfold Meth.G
  rw [h.FF a i e, h.J a .l e, on_svals (h.vs .l) h.nil e]

theorem MDep.JG (h : MDep n F) (a b : Sfx) : On F (n.m.JG a b) := by
  intro e
  unfold Meth.JG
  congr 1
  funext i j
  exact on_pdiff (h.G a i) (h.getD b j) e

theorem on_map {l : List Sc} (h : ∀ f ∈ l, On F f) (e : Env ℝ) :
    l.map (fun f => f (restrict F e)) = l.map fun f => f e :=
  List.map_congr_left fun f hf => h f hf e

/-- The functions of a method read only the free symbols of its expressions. -/
theorem fenv_on (h : MDep n F) {k : Nm} {g : Env ℝ → NV ℝ} (hg : fenv n k = some g) : On F g := by
  intro e
  cases k <;> simp only [fenv, reduceCtorEq, Option.some.injEq] at hg <;> subst hg <;> dsimp only
  · rw [on_map h.obs]
  · rw [h.J]
  · congr 1; unfold vlist; exact List.map_congr_left fun i _ => h.G .l i e
  · rw [h.J]
  · congr 1; unfold vlist; exact List.map_congr_left fun i _ => h.G .nl i e
  · rw [h.JG]
  · rw [h.JG]
  · rw [on_map h.dxH]
  · rw [on_map h.z]
  · unfold Meth.out
    rw [h.core, on_vals h.dxH e, on_vals h.z e, on_svals h.u h.nil e]

/-- A method can be generated with the values of its parameters. -/
theorem mok {n : Num} {F : List String} {subs : List (String × ℝ)} {fs : String} {fs0 : ℝ}
    (hn : n.WF) (hm : MethWF n.m) (ho : n.obs.length = n.o.length) (hF : MDep n F)
    (hk : (subs.map Prod.fst).Nodup) (hd : ∀ s ∈ n.all, s ∉ subs.map Prod.fst ∧ s ≠ fs)
    (hb : n.base = fun s => if s = fs then fs0 else (subs.lookup s).getD 0) :
    MOK n (fun _ _ _ => F) subs fs fs0 :=
  ⟨hn, hm, ho, fun _ _ hg i j e => by rw [fenv_on hF hg e], hk, hd, hb⟩

end

/-! ### Example -/

/-- A resistance and the sample rate. -/
noncomputable def exBase : Env ℝ := fun s => if s = "F_S" then 2 else ([("r", 3)].lookup s).getD 0

theorem exN_dep : MDep (exN exBase) ["", "a", "da", "w"] where
  dxH := by
    intro f hf e
    have : (exN exBase).m.dxH = [fun e => e "a" + 1 / 2 * e "da"] := rfl
    rw [this, List.mem_singleton] at hf
    subst hf
    simp [restrict]
  z := by
    intro f hf e
    have : (exN exBase).m.z = [fun e => e "w" ^ 3] := rfl
    rw [this, List.mem_singleton] at hf
    subst hf
    simp [restrict]
  M := fun _ => rfl
  obs := by intro f hf; exact absurd hf (by simp [exN])
  v := by
    have : (exN exBase).m.v .all = ["da", "w"] := exSp_v
    rw [this]; decide
  u := by intro s hs; exact absurd hs (by simp [exN, exSp])
  nil := by decide

theorem exN_mok : MOK (exN exBase) (fun _ _ _ => ["", "a", "da", "w"]) [("r", 3)] "F_S" 2 :=
  mok (exN_wf _) exSp_wf rfl exN_dep (by decide) (by rw [exN_all]; decide) rfl

/-- Names in the order of their evaluation. -/
def exDeps : List Nm :=
  [.ud_x, .ud_o, .jactempFll, .ijactempFll, .Gl, .jactempFnll, .Gnl, .Fnl, .res_Fnl, .save_Fnl,
    .jacGlnl, .jacGnlnl, .jacFnl, .ijacFnl, .ud_vnl, .step_Fnl, .ud_vl, .dxH, .z, .y]

/-- The generated code of the example. -/
noncomputable def exGen (einv : Mat ℝ → Mat ℝ) : Gen Nm ℝ :=
  mGen (exN exBase) (fun _ _ _ => ["", "a", "da", "w"]) [("r", 3)] "F_S" exDeps 2 [] einv

/-- Values of the members. -/
noncomputable def exFld (einv : Mat ℝ → Mat ℝ) (a : List ℝ) (n : Nm) : CV ℝ :=
  match (exGen einv).src.fe n with
  | some f => .m ⟨f.r, f.c, fun i j => (f.ent i j).ev ((exGen einv).env ⟨a, 2, fun _ => .s 0⟩)⟩
  | none => .s 0

/-- A step of the generated code of the example, from any values of the arguments. -/
example (einv : Mat ℝ → Mat ℝ) (he : ∀ A B : Mat ℝ, A.IsInv B → A.IsInv (einv A)) (a : List ℝ)
    (ha : a.length = 3) :
    ∃ st', (exN exBase).update (some []) (some []) ⟨a, fun _ => none⟩ = some st' ∧
      ∃ o', (exGen einv).update (exN exBase).eps (exN exBase).maxit (exN exBase).actions .u .p [] []
        ⟨a, 2, exFld einv a⟩ = some o' ∧ o'.args = st'.args := by
  obtain ⟨st', h⟩ := exN_runs exBase ⟨a, fun _ => none⟩ ha
  have h' : (exN exBase).update (some []) (some []) ⟨a, fun _ => none⟩ = some st' := h
  refine ⟨st', h', ?_⟩
  have hr : Rel (exGen einv) (msh (exN exBase)) mT ⟨a, fun _ => none⟩ ⟨a, 2, exFld einv a⟩ := by
    refine ⟨rfl, by rw [ha]; exact (congrArg List.length (exN_all exBase)).symm, rfl,
      fun n v _ _ hv => by simp at hv, ?_⟩
    intro n f _ hf _ i _ j _ _
    show (exFld einv a n).at i j = _
    unfold exFld
    rw [hf]
    rfl
  have hseq : [(([] : List ℝ), ([] : List ℝ))].foldlM
      (fun st q => (exN exBase).update (some q.1) (some q.2) st) ⟨a, fun _ => none⟩ = some st' := by
    rw [List.foldlM_cons, h']; rfl
  obtain ⟨o', e, -, hargs⟩ := C29_method exN_mok (inits := []) he (deps := exDeps)
    (by
      have h1 : (exN exBase).pre = [⟨.x, .ud_x⟩, ⟨.o, .ud_o⟩, c1 .jactempFll, c1 .ijactempFll, c1 .Gl,
        c1 .jactempFnll, c1 .Gnl, c1 .Fnl, c1 .res_Fnl] := rfl
      have h2 : (exN exBase).post = [⟨.vl, .ud_vl⟩, c1 .dxH, c1 .z, c1 .y] := rfl
      have h3 : (exN exBase).imp = [c1 .save_Fnl, c1 .jacGlnl, c1 .jacGnlnl, c1 .jacFnl, c1 .ijacFnl,
        ⟨.vnl, .ud_vnl⟩, c1 .Gl, c1 .Gnl, c1 .Fnl, c1 .res_Fnl, c1 .step_Fnl] := rfl
      rw [h1, h2, h3, exN_nl]; decide)
    [([], [])] (by intro q hq; rw [List.mem_singleton] at hq; subst hq; exact ⟨rfl, rfl⟩) hr hseq
  refine ⟨o', ?_, hargs⟩
  rw [List.foldlM_cons] at e
  unfold exGen
  simpa using e

end Cpp
end Pyphs
