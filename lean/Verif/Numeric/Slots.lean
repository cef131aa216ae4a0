/-
Slots of the arguments in the array `nums.args` (part of C24, C25).
-/
import Verif.Numeric.Interp
import Verif.Numeric.Lambdify

namespace Pyphs
namespace Numeric
open Sym

variable {K : Type} [Field K]

/-- The values of the symbols held by the array `args`; `base` gives the value of the symbols
that are not arguments (substitutions). -/
def envOf (all : List String) (base : String → K) (args : List K) : String → K :=
  fun s => ((all.zip args).lookup s).getD (base s)

theorem envOf_not_mem {all : List String} {base : String → K} {args : List K} {s : String}
    (h : s ∉ all) : envOf all base args s = base s := by
  unfold envOf
  have : (all.zip args).lookup s = none := by
    induction all generalizing args with
    | nil => simp
    | cons a l ih =>
      cases args with
      | nil => simp
      | cons b args =>
        have h2 : (s == a) = false := by
          simp only [List.mem_cons, not_or] at h; simpa using h.1
        rw [List.zip_cons_cons, List.lookup_cons, h2]
        exact ih (by simp only [List.mem_cons, not_or] at h; exact h.2)
  rw [this]; rfl

theorem envOf_mem {all : List String} {base : String → K} {args : List K} {s : String}
    (h : s ∈ all) (hl : args.length = all.length) :
    envOf all base args s = args.getD (all.idxOf s) 0 := by
  induction all generalizing args with
  | nil => simp at h
  | cons a l ih =>
    cases args with
    | nil => simp at hl
    | cons b args =>
      by_cases hs : s = a
      · subst hs; simp [envOf]
      · have h2 : (s == a) = false := by simpa using hs
        have h3 : (a == s) = false := by simpa using (Ne.symm hs)
        have hi := ih (args := args) (by simpa [hs] using h) (by simpa using hl)
        unfold envOf at hi ⊢
        rw [List.zip_cons_cons, List.lookup_cons, h2, List.idxOf_cons, h3]
        simpa using hi

/-- The array holds the values of the arguments, in order. -/
theorem args_eq {all : List String} {base : String → K} {args : List K} (hn : all.Nodup)
    (hl : args.length = all.length) : args = all.map (envOf all base args) := by
  apply List.ext_getElem
  · simp [hl]
  intro i h1 h2
  have hi : i < all.length := by omega
  rw [List.getElem_map, envOf_mem (List.getElem_mem hi) hl, hn.idxOf_getElem i hi]
  rw [List.getD_eq_getElem?_getD, List.getElem?_eq_getElem h1]
  rfl

theorem assign_length (args : List K) (inds : List ℕ) (vs : List K) :
    (assign args inds vs).length = args.length := by
  unfold assign
  generalize inds.zip vs = l
  induction l generalizing args with
  | nil => rfl
  | cons p l ih => rw [List.foldl_cons, ih]; simp

theorem assign_not_mem (args : List K) (inds : List ℕ) (vs : List K) {i : ℕ} (h : i ∉ inds) :
    (assign args inds vs).getD i 0 = args.getD i 0 := by
  induction inds generalizing args vs with
  | nil => rfl
  | cons a l ih =>
    cases vs with
    | nil => rfl
    | cons b vs =>
      simp only [List.mem_cons, not_or] at h
      show (assign (args.set a b) l vs).getD i 0 = _
      rw [ih _ _ h.2]
      simp [List.getD_eq_getElem?_getD, List.getElem?_set, Ne.symm h.1]

theorem assign_get (args : List K) (inds : List ℕ) (vs : List K) (hn : inds.Nodup)
    (hr : ∀ i ∈ inds, i < args.length) (hl : vs.length = inds.length) :
    inds.map (fun i => (assign args inds vs).getD i 0) = vs := by
  induction inds generalizing args vs with
  | nil => simpa using (List.length_eq_zero_iff.1 (by simpa using hl)).symm
  | cons a l ih =>
    cases vs with
    | nil => simp at hl
    | cons b vs =>
      have hn' := List.nodup_cons.1 hn
      have e : assign args (a :: l) (b :: vs) = assign (args.set a b) l vs := rfl
      rw [e, List.map_cons, ih _ _ hn'.2 (by
        intro i hi; rw [List.length_set]; exact hr i (by simp [hi])) (by simpa using hl),
        assign_not_mem _ _ _ hn'.1]
      have : a < args.length := hr a (by simp)
      simp [List.getD_eq_getElem?_getD, this]

theorem find_inds_lt (symbs all : List String) : ∀ i ∈ (find symbs all).2, i < all.length := by
  intro i hi
  have h := (C25_find symbs all).2.2
  have : all[i]? ∈ (find symbs all).1.map some := by
    rw [← h]; exact List.mem_map.2 ⟨i, hi, rfl⟩
  obtain ⟨s, _, hs⟩ := List.mem_map.1 this
  by_contra hlt
  rw [List.getElem?_eq_none (by omega)] at hs
  simp at hs

theorem find_length (symbs all : List String) :
    (find symbs all).1.length = (find symbs all).2.length := by
  have := congrArg List.length (C25_find symbs all).2.2
  simpa using this.symm

theorem find_inds_nodup (symbs all : List String) : (find symbs all).2.Nodup :=
  (C25_find symbs all).2.1.imp fun h => ne_of_lt h

/-- Reading the slots of a list of symbols. -/
theorem slot_get {all : List String} {base : String → K} {args : List K} (hn : all.Nodup)
    (hl : args.length = all.length) (symbs : List String) :
    (find symbs all).2.map (fun i => args.getD i 0) =
      (find symbs all).1.map (envOf all base args) := by
  have h := find_vals symbs all (envOf all base args)
  rwa [← args_eq hn hl] at h

/-- Writing the slots of a list of symbols gives them their values. -/
theorem slot_set {all : List String} {base : String → K} {args : List K} (hn : all.Nodup)
    (hl : args.length = all.length) (symbs : List String) (vs : List K)
    (hv : vs.length = (find symbs all).2.length) :
    (find symbs all).1.map (envOf all base (assign args (find symbs all).2 vs)) = vs := by
  rw [← slot_get hn (by rw [assign_length, hl])]
  exact assign_get _ _ _ (find_inds_nodup _ _)
    (fun i hi => by rw [hl]; exact find_inds_lt _ _ i hi) hv

/-- Writing the slots of a list of symbols does not change the other symbols. -/
theorem slot_frame {all : List String} {base : String → K} {args : List K}
    (hl : args.length = all.length) (symbs : List String) (vs : List K) {s : String}
    (hs : s ∉ symbs) :
    envOf all base (assign args (find symbs all).2 vs) s = envOf all base args s := by
  by_cases ha : s ∈ all
  · rw [envOf_mem ha (by rw [assign_length, hl]), envOf_mem ha hl, assign_not_mem]
    intro hi
    have h := (C25_find symbs all).2.2
    have : all[all.idxOf s]? ∈ (find symbs all).1.map some := by
      rw [← h]; exact List.mem_map.2 ⟨_, hi, rfl⟩
    rw [List.getElem?_eq_getElem (List.idxOf_lt_length_of_mem ha), List.getElem_idxOf] at this
    obtain ⟨t, ht, hts⟩ := List.mem_map.1 this
    simp only [Option.some.injEq] at hts
    subst hts
    rw [(C25_find symbs all).1] at ht
    exact hs (by simpa using (List.mem_filter.1 ht).2)
  · rw [envOf_not_mem ha, envOf_not_mem ha]

/-- Symbols listed in the order of the arguments are found in that order. -/
theorem find_sublist {symbs all : List String} (h : symbs.Sublist all) (hn : all.Nodup) :
    (find symbs all).1 = symbs := by
  rw [(C25_find symbs all).1]
  induction h with
  | slnil => rfl
  | cons a h ih =>
    have hn' := List.nodup_cons.1 hn
    rw [List.filter_cons_of_neg, ih hn'.2]
    simp only [decide_eq_true_eq]
    exact fun h0 => hn'.1 (h.subset h0)
  | @cons_cons l1 l2 a h ih =>
    have hn' := List.nodup_cons.1 hn
    rw [List.filter_cons_of_pos (by simp)]
    congr 1
    rw [← ih hn'.2]
    apply List.filter_congr
    intro s hs
    rw [ih hn'.2]
    have : s ≠ a := fun h0 => hn'.1 (h0 ▸ hs)
    simp [this]

section prog
variable {N : Type} [DecidableEq N]

/-- The arguments of a program are laid out as `Method.init_args` does: the slots of the
argument `n` are those of the symbols `syms n`. -/
def LaidOut (P : Prog N K) (all : List String) (syms : N → Option (List String)) : Prop :=
  ∀ n, P.argInds n = (syms n).map fun l => (find l all).2

theorem get_arg {P : Prog N K} {all : List String} {syms : N → Option (List String)}
    (hP : LaidOut P all syms) (hn : all.Nodup) {base : String → K} {st : St N K}
    (hl : st.args.length = all.length) {n : N} {l : List String} (hs : syms n = some l)
    (hsub : l.Sublist all) : P.get st n = some (.v (l.map (envOf all base st.args))) := by
  unfold Prog.get
  rw [hP n, hs]
  show some (NV.v _) = _
  rw [slot_get hn hl, find_sublist hsub hn]

theorem set_arg {P : Prog N K} {all : List String} {syms : N → Option (List String)}
    (hP : LaidOut P all syms) {base : String → K} {st st' : St N K}
    (hl : st.args.length = all.length) {n : N} {l : List String} (hs : syms n = some l)
    {val : NV K} (h : P.set st n val = some st') :
    st'.vals = st.vals ∧ st'.args.length = all.length ∧
      ∀ s, s ∉ l → envOf all base st'.args s = envOf all base st.args s := by
  unfold Prog.set at h
  rw [hP n, hs] at h
  obtain ⟨a, ha, rfl⟩ := Option.map_eq_some_iff.1 h
  have : ∃ vs, a = assign st.args (find l all).2 vs := by
    cases val with
    | s c => exact ⟨_, (Option.some.inj ha).symm⟩
    | m A => simp [setInds] at ha
    | v w =>
      simp only [setInds] at ha
      split_ifs at ha
      · exact ⟨_, (Option.some.inj ha).symm⟩
      · split at ha
        · exact ⟨_, (Option.some.inj ha).symm⟩
        · simp at ha
  obtain ⟨vs, rfl⟩ := this
  exact ⟨rfl, by rw [assign_length, hl], fun s hs => slot_frame hl l vs hs⟩

theorem set_arg_v {P : Prog N K} {all : List String} {syms : N → Option (List String)}
    (hP : LaidOut P all syms) (hn : all.Nodup) {base : String → K} {st : St N K}
    (hl : st.args.length = all.length) {n : N} {l : List String} (hs : syms n = some l)
    (hsub : l.Sublist all) {w : List K} (hw : w.length = l.length) :
    ∃ st', P.set st n (.v w) = some st' ∧ l.map (envOf all base st'.args) = w := by
  have hlen : w.length = (find l all).2.length := by
    rw [← find_length, find_sublist hsub hn, hw]
  refine ⟨{ st with args := assign st.args (find l all).2 w }, ?_, ?_⟩
  · unfold Prog.set
    rw [hP n, hs]
    show (setInds st.args (find l all).2 (.v w)).map _ = _
    simp only [setInds]
    rw [if_pos hlen]; rfl
  · have := slot_set (base := base) hn hl l w hlen
    rwa [find_sublist hsub hn] at this

/-- **C24** (slots): setting an argument to an array of the right length gives it that value,
and leaves every argument with other symbols, and every computed value, as they were. -/
theorem C24_slots {P : Prog N K} {all : List String} {syms : N → Option (List String)}
    (hP : LaidOut P all syms) (hn : all.Nodup) {st : St N K}
    (hl : st.args.length = all.length) {n : N} {l : List String} (hs : syms n = some l)
    (hsub : l.Sublist all) {w : List K} (hw : w.length = l.length) :
    ∃ st', P.set st n (.v w) = some st' ∧ P.get st' n = some (.v w) ∧
      (∀ n' l', syms n' = some l' → l'.Sublist all → (∀ s ∈ l', s ∉ l) →
        P.get st' n' = P.get st n') ∧
      (∀ n', syms n' = none → P.get st' n' = P.get st n') := by
  obtain ⟨st', h, hv⟩ := set_arg_v (base := fun _ => 0) hP hn hl hs hsub hw
  obtain ⟨h1, h2, h3⟩ := set_arg (base := fun _ => 0) hP hl hs h
  refine ⟨st', h, ?_, ?_, ?_⟩
  · rw [get_arg hP hn h2 hs hsub, hv]
  · intro n' l' hs' hsub' hd
    rw [get_arg (base := fun _ => 0) hP hn h2 hs' hsub',
      get_arg (base := fun _ => 0) hP hn hl hs' hsub']
    congr 2
    exact List.map_congr_left fun s hs => h3 s (hd s hs)
  · intro n' hs'
    unfold Prog.get
    rw [hP n', hs', h1]
    rfl

end prog
end Numeric
end Pyphs
