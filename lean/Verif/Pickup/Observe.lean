/-
Property C82: the values of the observers in a simulation.
-/
import Verif.Numeric.HistoryProps

namespace Pyphs
namespace Numeric
open Scheme

/-- The values with which an update from `st` to `st'` computes the observers: the states, inputs and
parameters are the new ones; the increments, the dissipative variables and the observers are still those of
the previous update. -/
def seenEnv (n : Num) (st st' : St Nm ℝ) : Env ℝ :=
  fun s => if s ∈ n.m.g.x ++ n.m.u ++ n.p then n.E st' s else n.E st s

/-- **C82**. The values of the observers in the equations of a step. -/
theorem C82_observers {n : Num} (h : n.WF) (ho : n.obs.length = n.o.length) {u p : Option (List ℝ)}
    {st st' : St Nm ℝ} (hl : st.args.length = n.all.length) (hup : n.update u p st = some st') :
    n.o.map (n.E st') = n.obs.map fun g => g (seenEnv n st st') := by
  obtain ⟨s1, s2, h1, h2, h3⟩ := update_split hup
  obtain ⟨s3, s4, s5, e3, e4, e5, e6⟩ := actions_split h3
  obtain ⟨l1, f1⟩ := set_frame hl h1
  obtain ⟨l2, f2⟩ := set_frame l1 h2
  have e3' : n.prog.execs s2 [⟨.x, .ud_x⟩] = some s3 := by rw [execs_cons, e3]; rfl
  obtain ⟨l3, f3⟩ := execs_frame l2 e3'
  have epre : n.pre' = ⟨.o, .ud_o⟩ :: n.pre'.drop 1 := by
    unfold Num.pre' Num.pre; split_ifs <;> rfl
  have hrest : ∀ c ∈ n.pre'.drop 1, n.syms c.set = none := by
    intro c hc
    unfold Num.pre' Num.pre at hc
    split_ifs at hc <;> simp only [List.cons_append, List.nil_append, List.append_nil,
      List.drop_succ_cons, List.drop_zero, List.mem_cons, List.not_mem_nil, or_false] at hc
    · rcases hc with h | h | h | h | h | h | h <;> subst h <;> rfl
    · rcases hc with h | h | h <;> subst h <;> rfl
    · rcases hc with h | h | h <;> subst h <;> rfl
  have l4f4 := execs_frame l3 e4
  rw [epre, execs_cons] at e4
  obtain ⟨a0, b0, e4⟩ := Option.bind_eq_some_iff.1 e4
  have b0' : n.prog.execs s3 [⟨.o, .ud_o⟩] = some a0 := by rw [execs_cons, b0]; rfl
  obtain ⟨la, fa⟩ := execs_frame l3 b0'
  obtain ⟨l4, f4⟩ := execs_frame la e4
  have f4' : ∀ s, n.E s4 s = n.E a0 s := fun s => f4 s fun c hc l hl => by
    rw [hrest c hc] at hl; cases hl
  have l5f5 : s5.args.length = n.all.length ∧ ∀ s, s ∉ n.m.v .nl → n.E s5 s = n.E s4 s := by
    rcases e5 with ⟨_, rfl⟩ | ⟨_, e5⟩
    · exact ⟨l4, fun _ _ => rfl⟩
    · obtain ⟨a, b⟩ := action_frame l4 e5
      refine ⟨a, fun s hs => b s (imp_frame hs) ?_⟩
      intro l res step he
      simp only [Action.iter.injEq] at he
      rw [← he.2.2]; rfl
  obtain ⟨l5, f5⟩ := l5f5
  obtain ⟨l6, f6⟩ := execs_frame l5 e6
  have tail : ∀ s, s ∉ n.m.g.x.map dn → s ∉ n.m.w → n.E st' s = n.E a0 s := by
    intro s a b
    have hv : ∀ σ, s ∉ n.m.v σ := fun σ hs => (mem_v hs).elim a b
    rw [f6 s (post_frame (hv _)), f5 s (hv _), f4' s]
  have fo : ∀ s, s ∉ n.o → n.E a0 s = n.E s3 s := fun s hs =>
    fa s (by intro c hc l hl; simp at hc; subst hc; cases hl; exact hs)
  have nodx : ∀ s, s ∉ n.m.g.x → n.E s3 s = n.E s2 s := fun s hs =>
    f3 s (by intro c hc l hl; simp at hc; subst hc; cases hl; exact hs)
  have f12 : ∀ s, s ∉ n.m.u → s ∉ n.p → n.E s2 s = n.E st s := fun s a b => by
    rw [f2 s (fun l hl => by cases hl; exact b), f1 s (fun l hl => by cases hl; exact a)]
  have henv : n.E s3 = seenEnv n st st' := by
    funext s
    have D := disjoint_all h (k := s)
    unfold seenEnv
    by_cases hs : s ∈ n.m.g.x ++ n.m.u ++ n.p
    · rw [if_pos hs]
      rw [List.mem_append, List.mem_append] at hs
      rcases hs with (hs | hs) | hs
      · obtain ⟨d1, d2, d3, d4, d5⟩ := D.1 hs
        rw [tail s d1 d2, fo s d5]
      · obtain ⟨d1, d2⟩ := D.2.2.2.1 hs
        rw [tail s (fun hx => (D.2.1 hx).2.1 hs) (fun hx => (D.2.2.1 hx).1 hs), fo s d2]
      · rw [tail s (fun hx => (D.2.1 hx).2.2.1 hs) (fun hx => (D.2.2.1 hx).2.1 hs),
          fo s (D.2.2.2.2 hs)]
    · rw [if_neg hs]
      simp only [List.mem_append, not_or] at hs
      rw [nodx s hs.1.1, f12 s hs.1.2 hs.2]
  have hset : n.o.map (n.E a0) = n.obs.map fun g => g (n.E s3) := by
    have hev : n.prog.eval s3 .ud_o = some (.v (n.obs.map fun g => g (n.E s3))) := rfl
    unfold Prog.exec at b0
    simp only [hev, Option.bind_eq_bind, Option.bind_some] at b0
    obtain ⟨q, hq1, hq2⟩ := set_arg_v (base := n.base) (laidOut n) h.nodup l3 (n := Nm.o) rfl
      (sub_o n) (w := n.obs.map fun g => g (n.E s3)) (by simpa using ho)
    rw [hq1] at b0
    obtain rfl := Option.some.inj b0
    exact hq2
  rw [← henv, ← hset]
  refine List.map_congr_left fun s hs => ?_
  have D := disjoint_all h (k := s)
  exact tail s (fun hx => (D.2.1 hx).2.2.2 hs) (fun hx => (D.2.2.1 hx).2.2 hs)

/-- The observers of `Observerec` (edges/observers.py:56-73) at positions `i` and `i + 1` for the state
`x`. -/
structure HasObserver (n : Num) (q dtq x : String) (i j : ℕ) : Prop where
  q : n.o[i]? = some q
  dtq : n.o[j]? = some dtq
  qx : n.obs[i]? = some fun e => e x
  dtqx : n.obs[j]? = some fun e => e (dn x) * e "F_S"
  x : x ∈ n.m.g.x
  fs : "F_S" ∉ n.all
  base : n.base "F_S" = n.m.fs

/-- **C82**. In a simulation, the position given by an observer is the state at the beginning of the step,
and its velocity is the increase of that state in the previous step, times the sample rate: the backward
difference of the position. -/
theorem C82_motion {n : Num} (h : n.WF) (ho : n.obs.length = n.o.length) {q dtq x : String} {i j : ℕ}
    (hob : HasObserver n q dtq x i j) {u p : List ℝ} {st st' : St Nm ℝ}
    (hl : st.args.length = n.all.length) (hu : u.length = n.m.u.length) (hp : p.length = n.p.length)
    (hup : n.update (some u) (some p) st = some st') :
    n.E st' q = n.E st' x ∧ n.E st' dtq = n.m.fs * (n.E st' x - n.E st x) := by
  have key := C82_observers h ho hl hup
  obtain ⟨-, hx, -⟩ := C24_step h hl hu hp hup
  have D := disjoint_all h (k := dn x)
  have hd : dn x ∈ n.m.g.x.map dn := List.mem_map_of_mem hob.x
  have e1 : seenEnv n st st' x = n.E st' x :=
    if_pos (by simp [hob.x])
  have e2 : seenEnv n st st' (dn x) = n.E st (dn x) := by
    refine if_neg ?_
    simp only [List.mem_append, not_or]
    exact ⟨⟨fun hx => (disjoint_all h (k := dn x)).1 hx |>.1 hd, (D.2.1 hd).2.1⟩, (D.2.1 hd).2.2.1⟩
  have e3 : seenEnv n st st' "F_S" = n.m.fs := by
    have hn : "F_S" ∉ n.m.g.x ++ n.m.u ++ n.p := by
      intro hm
      refine hob.fs ?_
      unfold Num.all
      simp only [List.mem_append] at hm ⊢
      tauto
    rw [← hob.base]
    refine (if_neg hn).trans ?_
    exact envOf_not_mem hob.fs
  have r1 := congrArg (fun l => l[i]?) key
  have r2 := congrArg (fun l => l[j]?) key
  simp only [List.getElem?_map, hob.q, hob.dtq, hob.qx, hob.dtqx, Option.map_some, Option.some.injEq] at r1 r2
  refine ⟨r1.trans e1, r2.trans ?_⟩
  rw [e2, e3, hx x hob.x]; ring

end Numeric
end Pyphs
