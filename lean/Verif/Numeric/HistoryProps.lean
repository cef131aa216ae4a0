/-
Property C24: the state over histories of updates.
-/
import Verif.Numeric.Program
import Verif.Numeric.IterProps
import Mathlib.Algebra.BigOperators.Group.Finset.Basic

namespace Pyphs
namespace Numeric
open Scheme

/-- Names of arguments are distinct; the numbers of inputs and outputs agree; one expression for
each observer. -/
structure Num.WF (n : Num) : Prop where
  nodup : n.all.Nodup
  uy : n.m.u.length = n.m.y.length

theorem laidOut (n : Num) : LaidOut n.prog n.all n.syms := fun _ => rfl

theorem execs_cons {N K : Type} [Field K] [LinearOrder K] [DecidableEq N] (P : Prog N K)
    (st : St N K) (c : Cmd N) (l : List (Cmd N)) :
    P.execs st (c :: l) = (P.exec st c).bind fun s => P.execs s l := by
  unfold Prog.execs; rw [List.foldlM_cons]; rfl

theorem execs_append {N K : Type} [Field K] [LinearOrder K] [DecidableEq N] (P : Prog N K)
    (st : St N K) (l l' : List (Cmd N)) :
    P.execs st (l ++ l') = (P.execs st l).bind fun s => P.execs s l' := by
  unfold Prog.execs; rw [List.foldlM_append]; rfl

/-- Setting anything other than an argument that owns `s` does not change `s`. -/
theorem set_frame {n : Num} {st st' : St Nm ℝ} {k : Nm} {val : NV ℝ}
    (hl : st.args.length = n.all.length) (h : n.prog.set st k val = some st') :
    st'.args.length = n.all.length ∧
      ∀ s, (∀ l, n.syms k = some l → s ∉ l) → n.E st' s = n.E st s := by
  cases hs : n.syms k with
  | none =>
    have : n.prog.argInds k = none := by rw [laidOut n k, hs]; rfl
    unfold Prog.set at h
    rw [this] at h
    simp only [Option.some.injEq] at h
    subst h
    exact ⟨hl, fun s _ => rfl⟩
  | some l =>
    obtain ⟨_, h2, h3⟩ := set_arg (base := n.base) (laidOut n) hl hs h
    exact ⟨h2, fun s hsl => h3 s (hsl l rfl)⟩

theorem execs_frame {n : Num} {cmds : List (Cmd Nm)} {st st' : St Nm ℝ}
    (hl : st.args.length = n.all.length) (h : n.prog.execs st cmds = some st') :
    st'.args.length = n.all.length ∧
      ∀ s, (∀ c ∈ cmds, ∀ l, n.syms c.set = some l → s ∉ l) → n.E st' s = n.E st s := by
  induction cmds generalizing st with
  | nil =>
    simp only [Prog.execs, List.foldlM_nil, Option.pure_def, Option.some.injEq] at h
    subst h; exact ⟨hl, fun _ _ => rfl⟩
  | cons c l ih =>
    rw [execs_cons] at h
    obtain ⟨s1, e1, h⟩ := Option.bind_eq_some_iff.1 h
    obtain ⟨v, _, e1⟩ := Option.bind_eq_some_iff.1 e1
    obtain ⟨a1, a2⟩ := set_frame hl e1
    obtain ⟨b1, b2⟩ := ih a1 h
    refine ⟨b1, fun s hs => ?_⟩
    rw [b2 s fun c hc => hs c (by simp [hc]), a2 s (hs c (by simp))]

theorem action_frame {n : Num} {a : Action Nm} {st st' : St Nm ℝ}
    (hl : st.args.length = n.all.length) (h : n.prog.action n.eps n.maxit st a = some st') :
    st'.args.length = n.all.length ∧
      ∀ s, (∀ c ∈ (match a with | .exec l => l | .iter l _ _ => l), ∀ l, n.syms c.set = some l → s ∉ l) →
        (∀ l res step, a = .iter l res step → n.syms step = none) → n.E st' s = n.E st s := by
  cases a with
  | exec l =>
    obtain ⟨h1, h2⟩ := execs_frame hl h
    exact ⟨h1, fun s hs _ => h2 s hs⟩
  | iter l res step =>
    unfold Prog.action at h
    cases hr : n.prog.iterexecs n.eps n.maxit l res step (n.maxit + 1) st with
    | err => simp [hr] at h
    | fuel => simp [hr] at h
    | ok q =>
      obtain ⟨s2, k⟩ := q
      simp only [hr, Option.some.injEq] at h
      subst h
      obtain ⟨_, tr, h0, hn, hs, _⟩ := C23_exit hr
      obtain ⟨a1, a2⟩ := set_frame hl h0
      have key : ∀ j ≤ k, (tr j).args.length = n.all.length ∧
          ∀ s, (∀ c ∈ l, ∀ l, n.syms c.set = some l → s ∉ l) → n.E (tr j) s = n.E (tr 0) s := by
        intro j hj
        induction j with
        | zero => exact ⟨a1, fun _ _ => rfl⟩
        | succ j ih =>
          obtain ⟨i1, i2⟩ := ih (by omega)
          obtain ⟨b1, b2⟩ := execs_frame i1 (hs j (by omega)).1
          exact ⟨b1, fun s h => by rw [b2 s h, i2 s h]⟩
      obtain ⟨k1, k2⟩ := key k le_rfl
      rw [hn] at k1 k2
      refine ⟨k1, fun s h1 h2 => ?_⟩
      rw [k2 s h1, a2 s]
      intro l' hl'
      rw [h2 l res step rfl] at hl'
      simp at hl'

/-- Symbols of the unknowns and observers. -/
def Num.solved (n : Num) : List String := n.m.v .l ++ n.m.v .nl ++ n.o

theorem imp_frame {n : Num} {s : String} (hs : s ∉ n.m.v .nl) :
    ∀ c ∈ n.imp, ∀ l, n.syms c.set = some l → s ∉ l := by
  intro c hc l hl
  unfold Num.imp at hc
  split_ifs at hc <;> simp only [List.mem_append, List.mem_cons, List.not_mem_nil, or_false,
    List.append_nil, false_or] at hc
  · rcases hc with (((h | h) | (h | h | h | h)) | h) | (h | h | h | h) <;> subst h <;>
      simp [c1, Num.syms] at hl
    subst hl; exact hs
  · rcases hc with (h | (h | h | h | h)) | (h | h | h | h) <;> subst h <;>
      simp [c1, Num.syms] at hl
    subst hl; exact hs

theorem post_frame {n : Num} {s : String} (hs : s ∉ n.m.v .l) :
    ∀ c ∈ n.post, ∀ l, n.syms c.set = some l → s ∉ l := by
  intro c hc l hl
  unfold Num.post at hc
  split_ifs at hc <;> simp only [List.mem_append, List.mem_cons, List.not_mem_nil, or_false,
    List.nil_append, false_or] at hc
  · rcases hc with h | (h | h | h) <;> subst h <;> simp [c1, Num.syms] at hl
    subst hl; exact hs
  · rcases hc with (h | h | h) <;> subst h <;> simp [c1, Num.syms] at hl

/-- The commands of `preimplicit` after the update of `x`. -/
def Num.pre' (n : Num) : List (Cmd Nm) := n.pre.drop 1

theorem pre'_frame {n : Num} {s : String} (hs : s ∉ n.o) :
    ∀ c ∈ n.pre', ∀ l, n.syms c.set = some l → s ∉ l := by
  intro c hc l hl
  unfold Num.pre' Num.pre at hc
  split_ifs at hc <;> simp only [List.cons_append, List.nil_append, List.append_nil,
    List.drop_succ_cons, List.drop_zero, List.mem_cons, List.not_mem_nil, or_false] at hc
  · rcases hc with h | h | h | h | h | h | h | h <;> subst h <;> simp [c1, Num.syms] at hl
    subst hl; exact hs
  · rcases hc with h | h | h | h <;> subst h <;> simp [c1, Num.syms] at hl
    subst hl; exact hs
  · rcases hc with h | h | h | h <;> subst h <;> simp [c1, Num.syms] at hl
    subst hl; exact hs
  · subst hc; simp [Num.syms] at hl
    subst hl; exact hs

theorem pre_eq (n : Num) : n.pre = ⟨.x, .ud_x⟩ :: n.pre' := by
  unfold Num.pre' Num.pre; simp

theorem sub_x (n : Num) : n.m.g.x.Sublist n.all := by
  unfold Num.all; simp only [List.append_assoc]; exact List.sublist_append_left _ _
theorem sub_dx (n : Num) : (n.m.g.x.map dn).Sublist n.all := by
  unfold Num.all; simp only [List.append_assoc]
  exact (List.sublist_append_left _ _).trans (List.sublist_append_right _ _)
theorem sub_u (n : Num) : n.m.u.Sublist n.all := by
  unfold Num.all; simp only [List.append_assoc]
  exact (List.sublist_append_left _ _).trans ((List.sublist_append_right _ _).trans
    ((List.sublist_append_right _ _).trans (List.sublist_append_right _ _)))
theorem sub_p (n : Num) : n.p.Sublist n.all := by
  unfold Num.all; simp only [List.append_assoc]
  exact (List.sublist_append_left _ _).trans ((List.sublist_append_right _ _).trans
    ((List.sublist_append_right _ _).trans ((List.sublist_append_right _ _).trans
      (List.sublist_append_right _ _))))
theorem sub_o (n : Num) : n.o.Sublist n.all := by
  unfold Num.all; exact List.sublist_append_right _ _

theorem pick_sublist {α : Type} (s : Sfx) (k : ℕ) (l : List α) : (s.pick k l).Sublist l := by
  cases s with
  | all => exact List.Sublist.refl _
  | l => exact List.take_sublist _ _
  | nl => exact List.drop_sublist _ _

/-- The unknowns are in the order of the arguments. -/
theorem sub_v (n : Num) (s : Sfx) : (n.m.v s).Sublist n.all := by
  have h1 : (n.m.v s).Sublist (n.m.g.x.map dn ++ n.m.w) :=
    ((pick_sublist s _ _).map dn).append (pick_sublist s _ _)
  refine h1.trans ?_
  unfold Num.all; simp only [List.append_assoc]
  refine List.Sublist.trans ?_ (List.sublist_append_right _ _)
  exact List.Sublist.append_left (List.sublist_append_left _ _) _

theorem mem_v {n : Num} {s : Sfx} {k : String} (h : k ∈ n.m.v s) :
    k ∈ n.m.g.x.map dn ∨ k ∈ n.m.w :=
  (List.mem_append.1 h).imp (fun h => ((pick_sublist s _ _).map dn).subset h)
    fun h => (pick_sublist s _ _).subset h

/-- The groups of arguments are disjoint. -/
theorem disjoint_all {n : Num} (h : n.WF) {k : String} :
    (k ∈ n.m.g.x → k ∉ n.m.g.x.map dn ∧ k ∉ n.m.w ∧ k ∉ n.m.u ∧ k ∉ n.p ∧ k ∉ n.o) ∧
    (k ∈ n.m.g.x.map dn → k ∉ n.m.w ∧ k ∉ n.m.u ∧ k ∉ n.p ∧ k ∉ n.o) ∧
    (k ∈ n.m.w → k ∉ n.m.u ∧ k ∉ n.p ∧ k ∉ n.o) ∧
    (k ∈ n.m.u → k ∉ n.p ∧ k ∉ n.o) ∧ (k ∈ n.p → k ∉ n.o) := by
  have hn := h.nodup
  unfold Num.all at hn
  simp only [List.append_assoc, List.nodup_append, List.mem_append] at hn
  obtain ⟨_, ⟨_, ⟨_, ⟨_, ⟨_, _, h5⟩, h4⟩, h3⟩, h2⟩, h1⟩ := hn
  refine ⟨fun hk => ⟨fun hk' => h1 k hk k (.inl hk') rfl, fun hk' => h1 k hk k (.inr (.inl hk')) rfl,
    fun hk' => h1 k hk k (.inr (.inr (.inl hk'))) rfl,
    fun hk' => h1 k hk k (.inr (.inr (.inr (.inl hk')))) rfl,
    fun hk' => h1 k hk k (.inr (.inr (.inr (.inr hk')))) rfl⟩, fun hk => ⟨
    fun hk' => h2 k hk k (.inl hk') rfl,
    fun hk' => h2 k hk k (.inr (.inl hk')) rfl,
    fun hk' => h2 k hk k (.inr (.inr (.inl hk'))) rfl,
    fun hk' => h2 k hk k (.inr (.inr (.inr hk'))) rfl⟩, fun hk => ⟨
    fun hk' => h3 k hk k (.inl hk') rfl,
    fun hk' => h3 k hk k (.inr (.inl hk')) rfl,
    fun hk' => h3 k hk k (.inr (.inr hk')) rfl⟩, fun hk => ⟨
    fun hk' => h4 k hk k (.inl hk') rfl,
    fun hk' => h4 k hk k (.inr hk') rfl⟩, fun hk hk' => h5 k hk k hk' rfl⟩

theorem map_zip_self (l : List String) (f g : String → ℝ) :
    (l.map f).zipWith (· + ·) (l.map g) = l.map fun s => f s + g s := by
  induction l with
  | nil => rfl
  | cons a l ih => simp [ih]

theorem map_inj_on {l : List String} {f g : String → ℝ} (h : l.map f = l.map g) :
    ∀ s ∈ l, f s = g s := by
  intro s hs
  induction l with
  | nil => simp at hs
  | cons a l ih =>
    simp only [List.map_cons, List.cons.injEq] at h
    rcases List.mem_cons.1 hs with rfl | hs
    · exact h.1
    · exact ih h.2 hs

/-- The command `('x', 'ud_x')`. -/
theorem exec_x {n : Num} (h : n.WF) {st st' : St Nm ℝ} (hl : st.args.length = n.all.length)
    (hx : n.prog.exec st ⟨.x, .ud_x⟩ = some st') :
    ∀ s ∈ n.m.g.x, n.E st' s = n.E st s + n.E st (dn s) := by
  have gx := get_arg (base := n.base) (laidOut n) h.nodup hl (n := Nm.x) rfl (sub_x n)
  have gdx := get_arg (base := n.base) (laidOut n) h.nodup hl (n := Nm.dx) rfl (sub_dx n)
  have hev : n.prog.eval st .ud_x = some (.v (n.m.g.x.map fun s => n.E st s + n.E st (dn s))) := by
    show n.prog.evalOp st (.add (.ref .x) (.ref .dx)) = _
    simp only [Prog.evalOp, gx, gdx, Option.bind_eq_bind, Option.bind_some, NV.pointwise]
    rw [if_pos (by simp), List.map_map, map_zip_self]
    rfl
  unfold Prog.exec at hx
  simp only [hev, Option.bind_eq_bind, Option.bind_some] at hx
  obtain ⟨st'', h1, h2⟩ := set_arg_v (base := n.base) (laidOut n) h.nodup hl (n := Nm.x) rfl
    (sub_x n) (w := n.m.g.x.map fun s => n.E st s + n.E st (dn s)) (by simp)
  rw [h1] at hx
  simp only [Option.some.injEq] at hx
  subst hx
  exact map_inj_on h2

/-- What `update` does before the actions. -/
theorem update_split {n : Num} {u p : Option (List ℝ)} {st st' : St Nm ℝ}
    (hu : n.update u p st = some st') :
    ∃ s1 s2, n.prog.set st .u (.v (u.getD (List.replicate n.m.y.length 0))) = some s1 ∧
      n.prog.set s1 .p (.v (p.getD (List.replicate n.p.length 0))) = some s2 ∧
      n.actions.foldlM (n.prog.action n.eps n.maxit) s2 = some st' := by
  unfold Num.update Prog.update at hu
  obtain ⟨s1, h1, hu⟩ := Option.bind_eq_some_iff.1 hu
  obtain ⟨s2, h2, hu⟩ := Option.bind_eq_some_iff.1 hu
  exact ⟨s1, s2, h1, h2, hu⟩

/-- The actions: `preimplicit`, the iterations if there are nonlinear unknowns,
`postimplicit`. -/
theorem actions_split {n : Num} {s2 st' : St Nm ℝ}
    (h : n.actions.foldlM (n.prog.action n.eps n.maxit) s2 = some st') :
    ∃ s3 s4 s5, n.prog.exec s2 ⟨.x, .ud_x⟩ = some s3 ∧ n.prog.execs s3 n.pre' = some s4 ∧
      ((n.nl = 0 ∧ s5 = s4) ∨ (0 < n.nl ∧
        n.prog.action n.eps n.maxit s4 (.iter n.imp .res_Fnl .step_Fnl) = some s5)) ∧
      n.prog.execs s5 n.post = some st' := by
  unfold Num.actions at h
  rw [List.append_assoc, List.singleton_append, List.foldlM_cons] at h
  obtain ⟨s4, h4, h⟩ := Option.bind_eq_some_iff.1 h
  have h4' : n.prog.execs s2 n.pre = some s4 := h4
  rw [pre_eq, execs_cons] at h4'
  obtain ⟨s3, h3, h4'⟩ := Option.bind_eq_some_iff.1 h4'
  by_cases hn : 0 < n.nl
  · rw [if_pos hn, List.singleton_append, List.foldlM_cons] at h
    obtain ⟨s5, h5, h⟩ := Option.bind_eq_some_iff.1 h
    rw [List.foldlM_cons] at h
    obtain ⟨s6, h6, h⟩ := Option.bind_eq_some_iff.1 h
    simp only [List.foldlM_nil, Option.pure_def, Option.some.injEq] at h
    subst h
    exact ⟨s3, s4, s5, h3, h4', .inr ⟨hn, h5⟩, h6⟩
  · rw [if_neg hn, List.nil_append, List.foldlM_cons] at h
    obtain ⟨s6, h6, h⟩ := Option.bind_eq_some_iff.1 h
    simp only [List.foldlM_nil, Option.pure_def, Option.some.injEq] at h
    subst h
    exact ⟨s3, s4, s4, h3, h4', .inl ⟨by omega, rfl⟩, h6⟩

/-- **C24**, one call of `update`: the new state is the previous state plus the increment that
was stored before the call, the inputs and parameters are those given, whatever the solver
does. -/
theorem C24_step {n : Num} (h : n.WF) {u p : List ℝ} {st st' : St Nm ℝ}
    (hl : st.args.length = n.all.length) (hu : u.length = n.m.u.length) (hp : p.length = n.p.length)
    (hup : n.update (some u) (some p) st = some st') :
    st'.args.length = n.all.length ∧
    (∀ s ∈ n.m.g.x, n.E st' s = n.E st s + n.E st (dn s)) ∧
    n.m.u.map (n.E st') = u ∧ n.p.map (n.E st') = p := by
  obtain ⟨s1, s2, h1, h2, h3⟩ := update_split hup
  obtain ⟨s3, s4, s5, e3, e4, e5, e6⟩ := actions_split h3
  simp only [Option.getD_some] at h1 h2
  obtain ⟨l1, f1⟩ := set_frame hl h1
  obtain ⟨l2, f2⟩ := set_frame l1 h2
  have e3' : n.prog.execs s2 [⟨.x, .ud_x⟩] = some s3 := by rw [execs_cons, e3]; rfl
  obtain ⟨l3, f3⟩ := execs_frame l2 e3'
  obtain ⟨l4, f4⟩ := execs_frame l3 e4
  have l5f5 : s5.args.length = n.all.length ∧ ∀ s, s ∉ n.m.v .nl → n.E s5 s = n.E s4 s := by
    rcases e5 with ⟨_, rfl⟩ | ⟨_, e5⟩
    · exact ⟨l4, fun _ _ => rfl⟩
    · obtain ⟨a, b⟩ := action_frame l4 e5
      refine ⟨a, fun s hs => b s (imp_frame hs) ?_⟩
      intro l res step he
      simp only [Action.iter.injEq] at he
      rw [← he.2.2]; rfl
  obtain ⟨l5, f5⟩ := l5f5
  obtain ⟨l6, f6⟩ := execs_frame l5 e6
  have tail : ∀ s, s ∉ n.m.g.x.map dn → s ∉ n.m.w → s ∉ n.o → n.E st' s = n.E s3 s := by
    intro s a b c
    have hv : ∀ σ, s ∉ n.m.v σ := fun σ hs => (mem_v hs).elim a b
    rw [f6 s (post_frame (hv _)), f5 s (hv _), f4 s (pre'_frame c)]
  have gu : n.m.u.map (n.E s1) = u := by
    obtain ⟨q, hq1, hq2⟩ := set_arg_v (base := n.base) (laidOut n) h.nodup hl (n := Nm.u) rfl
      (sub_u n) hu
    rw [h1] at hq1
    simp only [Option.some.injEq] at hq1
    subst hq1; exact hq2
  have gp : n.p.map (n.E s2) = p := by
    obtain ⟨q, hq1, hq2⟩ := set_arg_v (base := n.base) (laidOut n) h.nodup l1 (n := Nm.p) rfl
      (sub_p n) hp
    rw [h2] at hq1
    simp only [Option.some.injEq] at hq1
    subst hq1; exact hq2
  have f12 : ∀ s, s ∉ n.m.u → s ∉ n.p → n.E s2 s = n.E st s := fun s a b => by
    rw [f2 s (fun l hl => by cases hl; exact b), f1 s (fun l hl => by cases hl; exact a)]
  have nodx : ∀ s, s ∉ n.m.g.x → n.E s3 s = n.E s2 s := fun s hs =>
    f3 s (by intro c hc l hl; simp at hc; subst hc; cases hl; exact hs)
  refine ⟨l6, ?_, ?_, ?_⟩
  · intro s hs
    obtain ⟨d1, d2, d3, d4, d5⟩ := (disjoint_all h (k := s)).1 hs
    rw [tail s d1 d2 d5, exec_x h l2 e3 s hs, f12 s d3 d4]
    have hd : dn s ∈ n.m.g.x.map dn := List.mem_map_of_mem hs
    obtain ⟨_, d7, d8, _⟩ := (disjoint_all h (k := dn s)).2.1 hd
    rw [f12 _ d7 d8]
  · rw [← gu]
    refine List.map_congr_left fun s hs => ?_
    have D := disjoint_all h (k := s)
    obtain ⟨d1, d2⟩ := D.2.2.2.1 hs
    have n1 : s ∉ n.m.g.x := fun hx => (D.1 hx).2.2.1 hs
    rw [tail s (fun hx => (D.2.1 hx).2.1 hs) (fun hx => (D.2.2.1 hx).1 hs) d2, nodx s n1,
      f2 s (fun l hl => by cases hl; exact d1)]
  · rw [← gp]
    refine List.map_congr_left fun s hs => ?_
    have D := disjoint_all h (k := s)
    have n1 : s ∉ n.m.g.x := fun hx => (D.1 hx).2.2.2.1 hs
    rw [tail s (fun hx => (D.2.1 hx).2.2.1 hs) (fun hx => (D.2.2.1 hx).2.1 hs)
      (D.2.2.2.2 hs), nodx s n1]

/-- **C24**, histories: after any number of calls of `update` with any inputs and parameters,
each state variable is its initial value plus the sum of all the increments computed before the
last call. -/
theorem C24_history {n : Num} (h : n.WF) (u p : ℕ → List ℝ) (st : ℕ → St Nm ℝ)
    (hl : (st 0).args.length = n.all.length) (hu : ∀ k, (u k).length = n.m.u.length)
    (hp : ∀ k, (p k).length = n.p.length)
    (hst : ∀ k, n.update (some (u k)) (some (p k)) (st k) = some (st (k + 1))) (k : ℕ) :
    (st k).args.length = n.all.length ∧
    ∀ s ∈ n.m.g.x, n.E (st k) s = n.E (st 0) s + ∑ j ∈ Finset.range k, n.E (st j) (dn s) := by
  induction k with
  | zero => exact ⟨hl, fun s _ => by simp⟩
  | succ k ih =>
    obtain ⟨i1, i2⟩ := ih
    obtain ⟨a1, a2, _, _⟩ := C24_step h i1 (hu k) (hp k) (hst k)
    refine ⟨a1, fun s hs => ?_⟩
    rw [a2 s hs, i2 s hs, Finset.sum_range_succ, add_assoc]

/-- **C24**: setting the inputs, the parameters or the observers does not change the state, the
increments or the dissipation variables. -/
theorem C24_inputs {n : Num} (h : n.WF) {st st' : St Nm ℝ} {val : NV ℝ} {k : Nm}
    (hk : k = .u ∨ k = .p ∨ k = .o) (hl : st.args.length = n.all.length)
    (hs : n.prog.set st k val = some st') :
    ∀ s, s ∈ n.m.g.x ∨ s ∈ n.m.g.x.map dn ∨ s ∈ n.m.w → n.E st' s = n.E st s := by
  intro s hsx
  obtain ⟨_, f⟩ := set_frame hl hs
  apply f
  have D := disjoint_all h (k := s)
  have : s ∉ n.m.u ∧ s ∉ n.p ∧ s ∉ n.o := by
    rcases hsx with hx | hx | hx
    · exact (D.1 hx).2.2
    · exact (D.2.1 hx).2
    · exact D.2.2.1 hx
  intro l hl
  rcases hk with rfl | rfl | rfl <;> cases hl
  · exact this.1
  · exact this.2.1
  · exact this.2.2

end Numeric
end Pyphs
