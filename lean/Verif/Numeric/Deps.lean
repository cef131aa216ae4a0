/-
Model of `Method.update_actions_deps`
(/repo/pyphs/numerics/numerical_method/_method.py:175-198) and property C26.
-/
import Verif.Tools.Props
import Mathlib.Logic.Relation

namespace Pyphs
namespace Numeric

/-- _method.py:187-193 `add_update`. `ops` are the names of operations, `deps n` the set
`n_deps` (in any order of iteration). The fuel is the recursion depth of python; `none` is the
`RecursionError`. -/
def addUpdate (ops : List String) (deps : String → List String) :
    ℕ → String → List String → Option (List String)
  | 0, _, _ => none
  | n + 1, name, updates =>
    if name ∈ updates then some updates
    else
      (if name ∈ ops then (deps name).foldlM (fun up d => addUpdate ops deps n d up) updates
        else some updates).map (· ++ [name])

/-- _method.py:175-198 `update_actions_deps`. -/
def updateActionsDeps (ops : List String) (deps : String → List String) (fuel : ℕ)
    (actions : Nested) : Option (List String) := do
  let names := removeDuplicates (getStrings ["exec", "iter"] actions)
  let updates ← names.foldlM (fun up d => addUpdate ops deps fuel d up) []
  return removeDuplicates (updates ++ ["dx", "w", "u", "p"])

/-! ### Specification -/

/-- `d` is a dependency of the operation `n`. -/
def Dep (ops : List String) (deps : String → List String) (n d : String) : Prop :=
  n ∈ ops ∧ d ∈ deps n

/-- Every operation of the list comes after all its dependencies. -/
def Scheduled (ops : List String) (deps : String → List String) (l : List String) : Prop :=
  ∀ i n, l[i]? = some n → n ∈ ops → ∀ d ∈ deps n, d ∈ l.take i

/-! ### Lemmas -/

variable {ops : List String} {deps : String → List String}

theorem scheduled_append {l : List String} (h : Scheduled ops deps l) {n : String}
    (hn : n ∈ ops → ∀ d ∈ deps n, d ∈ l) : Scheduled ops deps (l ++ [n]) := by
  intro i m hi hm d hd
  by_cases hlt : i < l.length
  · rw [List.getElem?_append_left hlt] at hi
    rw [List.take_append_of_le_length (by omega)]
    exact h i m hi hm d hd
  · rw [List.getElem?_append_right (by omega)] at hi
    have : i - l.length = 0 := by
      by_contra h0
      rw [List.getElem?_eq_none (by simp; omega)] at hi
      simp at hi
    rw [this] at hi
    simp only [List.getElem?_cons_zero, Option.some.injEq] at hi
    subst hi
    rw [List.take_append, List.take_of_length_le (by omega)]
    exact List.mem_append_left _ (hn hm d hd)

/-- What a call of `add_update` does to the list. -/
structure Ext (ops : List String) (deps : String → List String) (src : String → Prop)
    (up up' : List String) : Prop where
  pre : up <+: up'
  nodup : up'.Nodup
  sched : Scheduled ops deps up'
  reach : ∀ s ∈ up', s ∈ up ∨ ∃ r, src r ∧ Relation.ReflTransGen (Dep ops deps) r s

theorem fold_ext (f : List String → String → Option (List String)) (names : List String)
    (hf : ∀ n ∈ names, ∀ up, up.Nodup → Scheduled ops deps up →
      ∃ up', f up n = some up' ∧ n ∈ up' ∧ Ext ops deps (· = n) up up')
    (up : List String) (h1 : up.Nodup) (h2 : Scheduled ops deps up) :
    ∃ up', names.foldlM f up = some up' ∧ (∀ n ∈ names, n ∈ up') ∧
      Ext ops deps (· ∈ names) up up' := by
  induction names generalizing up with
  | nil => exact ⟨up, rfl, by simp, List.prefix_rfl, h1, h2, fun s hs => .inl hs⟩
  | cons n names ih =>
    obtain ⟨u1, e1, m1, x1⟩ := hf n (by simp) up h1 h2
    obtain ⟨u2, e2, m2, x2⟩ := ih (fun m hm => hf m (by simp [hm])) u1 x1.nodup x1.sched
    refine ⟨u2, ?_, ?_, x1.pre.trans x2.pre, x2.nodup, x2.sched, ?_⟩
    · rw [List.foldlM_cons, e1]; exact e2
    · intro m hm
      rcases List.mem_cons.1 hm with rfl | hm
      · exact x2.pre.subset m1
      · exact m2 m hm
    · intro s hs
      rcases x2.reach s hs with h | ⟨r, hr, hp⟩
      · rcases x1.reach s h with h | ⟨r, rfl, hp⟩
        · exact .inl h
        · exact .inr ⟨_, by simp, hp⟩
      · exact .inr ⟨r, by simp [hr], hp⟩

theorem addUpdate_spec (rank : String → ℕ)
    (hrank : ∀ n d, Dep ops deps n d → rank d < rank n) (fuel : ℕ) (name : String)
    (hr : rank name < fuel) (up : List String) (h1 : up.Nodup) (h2 : Scheduled ops deps up) :
    ∃ up', addUpdate ops deps fuel name up = some up' ∧ name ∈ up' ∧
      Ext ops deps (· = name) up up' ∧ (∀ s ∈ up', s ∉ up → rank s ≤ rank name) := by
  induction fuel generalizing name up with
  | zero => omega
  | succ fuel ih =>
    unfold addUpdate
    by_cases hn : name ∈ up
    · rw [if_pos hn]
      exact ⟨up, rfl, hn, ⟨List.prefix_rfl, h1, h2, fun s hs => .inl hs⟩, fun s hs h => absurd hs h⟩
    · rw [if_neg hn]
      by_cases ho : name ∈ ops
      · rw [if_pos ho]
        have hf : ∀ d ∈ deps name, ∀ up, up.Nodup → Scheduled ops deps up →
            ∃ up', addUpdate ops deps fuel d up = some up' ∧ d ∈ up' ∧
              Ext ops deps (· = d) up up' := fun d hd up a b => by
          have := hrank name d ⟨ho, hd⟩
          obtain ⟨up', e, m, x, _⟩ := ih d (by omega) up a b
          exact ⟨up', e, m, x⟩
        have hranks : ∀ (ds : List String) (up up' : List String), (∀ d ∈ ds, d ∈ deps name) →
            up.Nodup → Scheduled ops deps up →
            ds.foldlM (fun up d => addUpdate ops deps fuel d up) up = some up' →
            ∀ s ∈ up', s ∉ up → rank s < rank name := by
          intro ds
          induction ds with
          | nil =>
            intro up up' _ _ _ h s hs hns
            simp only [List.foldlM_nil, Option.pure_def, Option.some.injEq] at h
            subst h; exact absurd hs hns
          | cons d ds ihd =>
            intro up up' hd a b h s hs hns
            rw [List.foldlM_cons] at h
            obtain ⟨u1, e1, h⟩ := Option.bind_eq_some_iff.1 h
            have hrd := hrank name d ⟨ho, hd d (by simp)⟩
            obtain ⟨u1', e1', _, x1, r1⟩ := ih d (by omega) up a b
            rw [e1] at e1'
            simp only [Option.some.injEq] at e1'
            subst e1'
            by_cases hs1 : s ∈ u1
            · have := r1 s hs1 hns; omega
            · exact ihd u1 up' (fun d' hd' => hd d' (by simp [hd'])) x1.nodup x1.sched h s hs hs1
        obtain ⟨u1, e1, m1, x1⟩ := fold_ext _ (deps name) hf up h1 h2
        have hnu : name ∉ u1 := fun hm => by
          have := hranks (deps name) up u1 (fun _ h => h) h1 h2 e1 name hm hn
          omega
        refine ⟨u1 ++ [name], by rw [e1]; rfl, by simp, ⟨x1.pre.trans (List.prefix_append _ _),
          ?_, scheduled_append x1.sched fun _ d hd => m1 d hd, ?_⟩, ?_⟩
        · rw [List.nodup_append]
          refine ⟨x1.nodup, by simp, ?_⟩
          intro a ha b hb
          simp only [List.mem_singleton] at hb
          subst hb
          rintro rfl
          exact hnu ha
        · intro s hs
          rcases List.mem_append.1 hs with hs | hs
          · rcases x1.reach s hs with h | ⟨r, hr', hp⟩
            · exact .inl h
            · exact .inr ⟨name, rfl, Relation.ReflTransGen.head ⟨ho, hr'⟩ hp⟩
          · simp only [List.mem_singleton] at hs
            subst hs
            exact .inr ⟨_, rfl, Relation.ReflTransGen.refl⟩
        · intro s hs hns
          rcases List.mem_append.1 hs with hs | hs
          · exact (hranks (deps name) up u1 (fun _ h => h) h1 h2 e1 s hs hns).le
          · simp only [List.mem_singleton] at hs
            rw [hs]
      · rw [if_neg ho]
        refine ⟨up ++ [name], rfl, by simp, ⟨List.prefix_append _ _, ?_,
          scheduled_append h2 fun h => absurd h ho, ?_⟩, ?_⟩
        · rw [List.nodup_append]
          refine ⟨h1, by simp, ?_⟩
          intro a ha b hb
          simp only [List.mem_singleton] at hb
          subst hb
          rintro rfl
          exact hn ha
        · intro s hs
          rcases List.mem_append.1 hs with hs | hs
          · exact .inl hs
          · simp only [List.mem_singleton] at hs
            subst hs
            exact .inr ⟨_, rfl, Relation.ReflTransGen.refl⟩
        · intro s hs hns
          rcases List.mem_append.1 hs with hs | hs
          · exact absurd hs hns
          · simp only [List.mem_singleton] at hs
            rw [hs]

theorem scheduled_reach {l : List String} (h : Scheduled ops deps l) {r s : String}
    (hr : r ∈ l) (hp : Relation.ReflTransGen (Dep ops deps) r s) : s ∈ l := by
  induction hp with
  | refl => exact hr
  | tail _ hd ih =>
    obtain ⟨i, hi⟩ := List.mem_iff_getElem?.1 ih
    exact List.mem_of_mem_take (h i _ hi hd.1 _ hd.2)

theorem scheduled_removeDuplicatesLoop (ls : List String) (hls : ∀ s ∈ ls, s ∉ ops) :
    ∀ out : List String, Scheduled ops deps out →
      Scheduled ops deps (removeDuplicatesLoop out ls) := by
  induction ls with
  | nil => intro out h; exact h
  | cons a ls ih =>
    intro out h
    rw [removeDuplicatesLoop]
    have ih' := ih fun s hs => hls s (by simp [hs])
    split_ifs with ha
    · exact ih' out h
    · exact ih' _ (scheduled_append h fun h0 => absurd h0 (hls a (by simp)))

theorem removeDuplicatesLoop_nodup (l r : List String) (hl : l.Nodup) :
    ∀ out : List String, (∀ s ∈ out, s ∉ l) →
      removeDuplicatesLoop out (l ++ r) = removeDuplicatesLoop (out ++ l) r := by
  induction l with
  | nil => intro out _; simp
  | cons a l ih =>
    intro out h
    have hn := List.nodup_cons.1 hl
    rw [List.cons_append, removeDuplicatesLoop, if_neg (fun h0 => h a h0 (by simp)),
      ih hn.2 (out ++ [a])]
    · simp
    · intro s hs
      rcases List.mem_append.1 hs with hs | hs
      · exact fun h0 => h s hs (by simp [h0])
      · simp only [List.mem_singleton] at hs
        subst hs; exact hn.1

/-- **C26**: for acyclic dependencies (a rank decreases along dependencies) and enough
recursion depth, `update_actions_deps` succeeds; the result lists exactly the names of the
update actions, their dependencies at any depth, and `dx`, `w`, `u`, `p`; each once; and each
operation after everything it depends on. -/
theorem C26_schedule (rank : String → ℕ) (hrank : ∀ n d, Dep ops deps n d → rank d < rank n)
    (fuel : ℕ) (actions : Nested) (hfuel : ∀ n, Occurs n actions → rank n < fuel)
    (hargs : ∀ s ∈ ["dx", "w", "u", "p"], s ∉ ops) :
    ∃ l, updateActionsDeps ops deps fuel actions = some l ∧ l.Nodup ∧
      (∀ s, s ∈ l ↔ (∃ n, n ≠ "exec" ∧ n ≠ "iter" ∧ Occurs n actions ∧
        Relation.ReflTransGen (Dep ops deps) n s) ∨ s ∈ ["dx", "w", "u", "p"]) ∧
      Scheduled ops deps l := by
  have hnames : ∀ n, n ∈ removeDuplicates (getStrings ["exec", "iter"] actions) ↔
      n ≠ "exec" ∧ n ≠ "iter" ∧ Occurs n actions := by
    intro n
    rw [(C54_removeDuplicates _).2.1, C54_getStrings]
    simp only [List.mem_cons, List.not_mem_nil, or_false, not_or]
    tauto
  obtain ⟨up, e, m, x⟩ := fold_ext (ops := ops) (deps := deps)
    (fun up d => addUpdate ops deps fuel d up)
    (removeDuplicates (getStrings ["exec", "iter"] actions))
    (fun n hn up a b => by
      obtain ⟨up', e, m, x, _⟩ := addUpdate_spec rank hrank fuel n
        (hfuel n ((hnames n).1 hn).2.2) up a b
      exact ⟨up', e, m, x⟩) [] (by simp) (by intro i n h; simp at h)
  refine ⟨removeDuplicates (up ++ ["dx", "w", "u", "p"]), ?_, (C54_removeDuplicates _).1, ?_, ?_⟩
  · unfold updateActionsDeps
    dsimp only
    rw [e]; rfl
  · intro s
    rw [(C54_removeDuplicates _).2.1, List.mem_append]
    constructor
    · rintro (hs | hs)
      · rcases x.reach s hs with h | ⟨r, hr, hp⟩
        · simp at h
        · obtain ⟨a, b, c⟩ := (hnames r).1 hr
          exact .inl ⟨r, a, b, c, hp⟩
      · exact .inr hs
    · rintro (⟨n, a, b, c, hp⟩ | hs)
      · exact .inl (scheduled_reach x.sched (m n ((hnames n).2 ⟨a, b, c⟩)) hp)
      · exact .inr hs
  · unfold removeDuplicates
    rw [removeDuplicatesLoop_nodup up _ x.nodup [] (by simp)]
    exact scheduled_removeDuplicatesLoop _ hargs _ (by simpa using x.sched)

/-- **C26**, cyclic dependencies: if every name of `S` is an operation with a dependency in
`S`, a schedule that needs a name of `S` does not exist and the recursion never ends,
whatever the depth allowed. -/
theorem C26_cycle (S : String → Prop) (hS : ∀ n, S n → n ∈ ops ∧ ∃ d ∈ deps n, S d)
    (fuel : ℕ) (name : String) (up : List String) (hup : ∀ s ∈ up, ¬ S s) :
    (S name → addUpdate ops deps fuel name up = none) ∧
    (∀ up', addUpdate ops deps fuel name up = some up' → ∀ s ∈ up', ¬ S s) := by
  induction fuel generalizing name up with
  | zero => exact ⟨fun _ => rfl, fun up' h => by simp [addUpdate] at h⟩
  | succ fuel ih =>
    have hfold : ∀ (ds up up' : List String), (∀ s ∈ up, ¬ S s) →
        ds.foldlM (fun up d => addUpdate ops deps fuel d up) up = some up' →
        (∀ s ∈ up', ¬ S s) ∧ ∀ d ∈ ds, ¬ S d := by
      intro ds
      induction ds with
      | nil =>
        intro up up' hup h
        simp only [List.foldlM_nil, Option.pure_def, Option.some.injEq] at h
        subst h; exact ⟨hup, by simp⟩
      | cons d ds ihd =>
        intro up up' hup h
        rw [List.foldlM_cons] at h
        obtain ⟨u1, e1, h⟩ := Option.bind_eq_some_iff.1 h
        obtain ⟨i1, i2⟩ := ih d up hup
        obtain ⟨j1, j2⟩ := ihd u1 up' (i2 u1 e1) h
        refine ⟨j1, fun d' hd' => ?_⟩
        rcases List.mem_cons.1 hd' with rfl | hd'
        · intro hs; rw [i1 hs] at e1; simp at e1
        · exact j2 d' hd'
    have h1 : S name → addUpdate ops deps (fuel + 1) name up = none := by
      intro hs
      unfold addUpdate
      obtain ⟨ho, d, hd, hsd⟩ := hS name hs
      rw [if_neg (fun h => hup name h hs), if_pos ho]
      cases hc : (deps name).foldlM (fun up d => addUpdate ops deps fuel d up) up with
      | none => rfl
      | some u => exact absurd hsd ((hfold _ up u hup hc).2 d hd)
    refine ⟨h1, fun up' h s hs hss => ?_⟩
    by_cases hn : S name
    · rw [h1 hn] at h; simp at h
    unfold addUpdate at h
    split_ifs at h with h2 h3
    · simp only [Option.some.injEq] at h
      subst h; exact hup s hs hss
    · obtain ⟨u, hu, rfl⟩ := Option.map_eq_some_iff.1 h
      rcases List.mem_append.1 hs with hs | hs
      · exact (hfold _ up u hup hu).1 s hs hss
      · simp only [List.mem_singleton] at hs
        subst hs; exact hn hss
    · simp only [Option.map_some, Option.some.injEq] at h
      subst h
      rcases List.mem_append.1 hs with hs | hs
      · exact hup s hs hss
      · simp only [List.mem_singleton] at hs
        subst hs; exact hn hss

/-! ### Example -/

/-- Part of the schedule of a method. -/
def exOps : List String := ["ud_x", "ijactempFll", "ud_vl"]
/-- Dependencies. -/
def exDeps : String → List String
  | "ud_x" => ["x", "dx"]
  | "ijactempFll" => ["jactempFll"]
  | "ud_vl" => ["Gl", "ijactempFll"]
  | _ => []

example : updateActionsDeps exOps exDeps 10 (.list [.list [.str "exec", .list [
    .list [.str "x", .str "ud_x"], .str "jactempFll", .str "ijactempFll",
    .list [.str "vl", .str "ud_vl"], .str "y"]]]) =
    some ["x", "dx", "ud_x", "jactempFll", "ijactempFll", "vl", "Gl", "ud_vl", "y", "w", "u", "p"] := by
  decide +kernel

/-- Ranks of the example. -/
def exRank : String → ℕ
  | "ud_vl" => 2
  | "ud_x" => 1
  | "ijactempFll" => 1
  | _ => 0

example : ∀ n d, Dep exOps exDeps n d → exRank d < exRank n := by
  rintro n d ⟨h1, h2⟩
  simp only [exOps, List.mem_cons, List.not_mem_nil, or_false] at h1
  rcases h1 with rfl | rfl | rfl <;> simp [exDeps] at h2
  · rcases h2 with rfl | rfl <;> decide
  · subst h2; decide
  · rcases h2 with rfl | rfl <;> decide

end Numeric
end Pyphs
