/-
Property C83: constant sources.
-/
import Verif.Const.Model
import Verif.Const.Mask
import Verif.Record.Power

namespace Pyphs
namespace Numeric
open Scheme

/-- Specification: given values, except for the constants. -/
def constIn (fix : List (String × ℝ)) (syms : List String) (vals : List ℝ) : List ℝ :=
  List.zipWith (fun s v => (fix.lookup s).getD v) syms vals

/-- The constants by slots. -/
def slots (n : Num) (fix : List (String × ℝ)) : ℕ → Option ℝ := fun i => n.all[i]?.bind fun s => fix.lookup s

/-- The state in which the slots of the constants hold them. -/
def hold (n : Num) (fix : List (String × ℝ)) (st : St Nm ℝ) : St Nm ℝ := maskSt (slots n fix) st

theorem env_mask (n : Num) (fix : List (String × ℝ)) (hk : ∀ q ∈ fix, q.1 ∈ n.all) {a : List ℝ}
    (hl : a.length = n.all.length) : n.env (mask (slots n fix) a) = over fix (n.env a) := by
  funext s
  unfold Num.env over
  by_cases hs : s ∈ n.all
  · rw [envOf_mem hs (by rw [mask_length, hl]), envOf_mem hs hl, List.getD_eq_getElem?_getD,
      mask_getElem?, List.getD_eq_getElem?_getD]
    have h1 := List.idxOf_lt_length_of_mem hs
    rw [List.getElem?_eq_getElem (by omega)]
    simp only [slots, Option.map_some, Option.getD_some]
    rw [List.getElem?_eq_getElem h1, List.getElem_idxOf]
    rfl
  · rw [envOf_not_mem hs, envOf_not_mem hs]
    cases hf : fix.lookup s with
    | none => rfl
    | some v =>
      have := List.lookup_eq_some_iff.1 hf
      obtain ⟨l1, l2, h, -⟩ := this
      exact absurd (hk (s, v) (by rw [h]; simp)) hs

/-- The values of the symbols in the state that holds the constants. -/
theorem hold_E {n : Num} {fix : List (String × ℝ)} (hk : ∀ q ∈ fix, q.1 ∈ n.all) {st : St Nm ℝ}
    (hl : st.args.length = n.all.length) : n.E (hold n fix st) = over fix (n.E st) :=
  env_mask n fix hk hl

theorem find_mem {l all : List String} {i : ℕ} (h : i ∈ (find l all).2) : ∃ s ∈ l, all[i]? = some s := by
  have h3 := (C25_find l all).2.2
  have : all[i]? ∈ (find l all).1.map some := by
    rw [← h3]; exact List.mem_map.2 ⟨i, h, rfl⟩
  obtain ⟨s, hs, e⟩ := List.mem_map.1 this
  rw [(C25_find l all).1] at hs
  exact ⟨s, by simpa using (List.mem_filter.1 hs).2, e.symm⟩

theorem lookup_none {fix : List (String × ℝ)} {s : String} (h : s ∉ fix.map Prod.fst) :
    fix.lookup s = none := by
  rw [List.lookup_eq_none_iff]
  intro q hq
  rw [bne_iff_ne]
  rintro rfl
  exact h (List.mem_map_of_mem hq)

theorem masked {n : Num} (hn : n.WF) {fix : List (String × ℝ)} (hk : ∀ q ∈ fix, q.1 ∈ n.m.u ++ n.p) :
    Masked n.prog (n.constProg fix) (slots n fix) n.all.length [.u, .p] where
  inds := rfl
  op := rfl
  norm := rfl
  func := by
    intro k a hl
    show ((Cpp.fenv n k).map _).map _ = (n.func k).map _
    rw [Cpp.func_eq, Option.map_map, Option.map_map]
    congr 1
    funext g
    show g (over fix (n.env a)) = g (n.env (mask (slots n fix) a))
    rw [env_mask n fix (fun q hq => ?_) hl]
    have := hk q hq
    unfold Num.all
    simp only [List.mem_append] at this ⊢
    tauto
  free := by
    intro k hkX inds hi i him
    obtain ⟨l, hs, rfl⟩ := Option.map_eq_some_iff.1 hi
    obtain ⟨s, hsl, e⟩ := find_mem him
    show (n.all[i]?.bind fun s => fix.lookup s) = none
    rw [e]
    refine lookup_none fun hm => ?_
    obtain ⟨q, hq, rfl⟩ := List.mem_map.1 hm
    have hup := hk q hq
    have D := disjoint_all hn (k := q.1)
    have hvX : ∀ σ, q.1 ∈ n.m.v σ → False := by
      intro σ hv
      rcases mem_v hv with h | h
      · rcases List.mem_append.1 hup with h' | h'
        · exact (D.2.1 h).2.1 h'
        · exact (D.2.1 h).2.2.1 h'
      · rcases List.mem_append.1 hup with h' | h'
        · exact (D.2.2.1 h).1 h'
        · exact (D.2.2.1 h).2.1 h'
    cases k <;> simp only [Num.syms, Option.some.injEq, reduceCtorEq] at hs <;> try subst hs
    · rcases List.mem_append.1 hup with h' | h'
      · exact (D.1 hsl).2.2.1 h'
      · exact (D.1 hsl).2.2.2.1 h'
    · rcases List.mem_append.1 hup with h' | h'
      · exact (D.2.1 hsl).2.1 h'
      · exact (D.2.1 hsl).2.2.1 h'
    · rcases List.mem_append.1 hup with h' | h'
      · exact (D.2.2.1 hsl).1 h'
      · exact (D.2.2.1 hsl).2.1 h'
    · simp at hkX
    · simp at hkX
    · rcases List.mem_append.1 hup with h' | h'
      · exact (D.2.2.2.1 h').2 hsl
      · exact D.2.2.2.2 h' hsl
    · exact hvX _ hsl
    · exact hvX _ hsl
  refs := by
    intro k op ho r hr
    show r ∉ _
    replace ho : n.op k = some op := ho
    cases k <;> simp only [Num.op, Option.some.injEq, reduceCtorEq] at ho <;>
      (try split_ifs at ho) <;> (try simp only [Option.some.injEq] at ho) <;> subst ho <;>
      simp only [Op.refs, List.mem_append, List.mem_cons, List.not_mem_nil, or_false, List.append_nil,
        List.nil_append] at hr <;>
      (first
        | (subst hr; decide)
        | (rcases hr with rfl | rfl <;> decide)
        | (rcases hr with rfl | rfl | rfl <;> decide)
        | (rcases hr with rfl | rfl | rfl | rfl <;> decide))

theorem actions_avoid (n : Num) : ∀ a ∈ n.actions, a.Avoids [Nm.u, Nm.p] := by
  intro a ha
  have hc : ∀ (l : List (Cmd Nm)), (∀ d ∈ l, d.set ∈ [Nm.x, .o, .vl, .vnl, .jactempFll, .ijactempFll, .Gl,
      .jactempFnll, .Gnl, .Fnl, .res_Fnl, .save_Fnl, .jacGlnl, .jacGnlnl, .jacFnl, .ijacFnl, .step_Fnl, .dxH,
      .z, .y]) → ∀ d ∈ l, d.set ∉ [Nm.u, Nm.p] := by
    intro l h d hd
    have := h d hd
    revert this
    generalize d.set = k
    revert k
    decide
  unfold Num.actions at ha
  simp only [List.mem_append, List.mem_singleton] at ha
  rcases ha with (rfl | ha) | rfl
  · refine hc _ fun d hd => ?_
    unfold Num.pre at hd
    split_ifs at hd <;> simp [c1] at hd <;> rcases hd with h | h <;> simp_all <;> aesop
  · split_ifs at ha with h0
    · simp only [List.mem_singleton] at ha
      subst ha
      refine ⟨hc _ fun d hd => ?_, by decide, by decide⟩
      unfold Num.imp at hd
      split_ifs at hd <;> simp [c1] at hd <;> rcases hd with h | h <;> simp_all <;> aesop
    · simp at ha
  · refine hc _ fun d hd => ?_
    unfold Num.post at hd
    split_ifs at hd <;> simp [c1] at hd <;> rcases hd with h | h <;> simp_all <;> aesop

/-- The constants at the slots of the inputs (or of the parameters). -/
theorem zip_slots {n : Num} (hn : n.WF) (fix : List (String × ℝ)) {l : List String} (hsub : l.Sublist n.all)
    (vs : List ℝ) : List.zipWith (fun i v => (slots n fix i).getD v) (find l n.all).2 vs =
      constIn fix l vs := by
  have h3 := (C25_find l n.all).2.2
  rw [find_sublist hsub hn.nodup] at h3
  unfold constIn
  generalize (find l n.all).2 = inds at h3
  clear hsub
  induction inds generalizing l vs with
  | nil => cases l with
    | nil => rfl
    | cons a l => simp at h3
  | cons i inds ih =>
    cases l with
    | nil => simp at h3
    | cons s l =>
      simp only [List.map_cons, List.cons.injEq] at h3
      cases vs with
      | nil => rfl
      | cons v vs =>
        rw [List.zipWith_cons_cons, List.zipWith_cons_cons, ih vs h3.2]
        congr 1
        show (n.all[i]?.bind fun s => fix.lookup s).getD v = _
        rw [h3.1]
        rfl

/-- C83. An update with constants: it succeeds if and only if the update of the method without constants
does, when the constants are given as inputs; the results are the same, except for the slots of the
constants. -/
theorem C83_update {n : Num} (hn : n.WF) {fix : List (String × ℝ)} (hk : ∀ q ∈ fix, q.1 ∈ n.m.u ++ n.p)
    {u p : List ℝ} {st : St Nm ℝ} (hl : st.args.length = n.all.length) (hu : u.length = n.m.u.length)
    (hp : p.length = n.p.length) :
    n.update (some (constIn fix n.m.u u)) (some (constIn fix n.p p)) (hold n fix st) =
      (n.constUpdate fix (some u) (some p) st).map (hold n fix) := by
  have M := masked hn hk
  have iu : n.prog.argInds .u = some (find n.m.u n.all).2 := rfl
  have ip : n.prog.argInds .p = some (find n.p n.all).2 := rfl
  have lu : u.length = (find n.m.u n.all).2.length := by
    rw [← find_length, find_sublist (sub_u n) hn.nodup, hu]
  have lp : p.length = (find n.p n.all).2.length := by
    rw [← find_length, find_sublist (sub_p n) hn.nodup, hp]
  unfold Num.update Num.constUpdate Prog.update
  simp only [Option.getD_some]
  rw [← zip_slots hn fix (sub_u n), ← zip_slots hn fix (sub_p n)]
  unfold hold
  rw [set_mask_v iu st lu, M.set_eq]
  cases h1 : n.prog.set st .u (.v u) with
  | none => rfl
  | some s1 =>
    have l1 := (set_length h1).trans hl
    show (n.prog.set (maskSt (slots n fix) s1) .p _).bind _ = ((n.prog.set s1 .p _).bind _).map _
    rw [set_mask_v ip s1 lp]
    cases h2 : n.prog.set s1 .p (.v p) with
    | none => rfl
    | some s2 => exact M.actions ((set_length h2).trans l1) (actions_avoid n)

/-- C83. What is given for the constants has no effect: two updates from states that differ by the slots of
the constants, with inputs that differ by the values given for the constants, have the same result up to
these slots. -/
theorem C83_ignored {n : Num} (hn : n.WF) {fix : List (String × ℝ)} (hk : ∀ q ∈ fix, q.1 ∈ n.m.u ++ n.p)
    {u p u' p' : List ℝ} {st st2 : St Nm ℝ} (hl : st.args.length = n.all.length)
    (hl2 : st2.args.length = n.all.length) (hst : hold n fix st = hold n fix st2)
    (hu : u.length = n.m.u.length) (hp : p.length = n.p.length) (hu' : u'.length = n.m.u.length)
    (hp' : p'.length = n.p.length)
    (eu : ∀ (i : ℕ) s, n.m.u[i]? = some s → (∀ c, (s, c) ∉ fix) → u[i]? = u'[i]?)
    (ep : ∀ (i : ℕ) s, n.p[i]? = some s → (∀ c, (s, c) ∉ fix) → p[i]? = p'[i]?) :
    (n.constUpdate fix (some u) (some p) st).map (hold n fix) =
      (n.constUpdate fix (some u') (some p') st2).map (hold n fix) := by
  have key : ∀ {l : List String} {v v' : List ℝ}, v.length = l.length → v'.length = l.length →
      (∀ (i : ℕ) s, l[i]? = some s → (∀ c, (s, c) ∉ fix) → v[i]? = v'[i]?) →
      constIn fix l v = constIn fix l v' := by
    intro l v v' h1 h2 h
    apply List.ext_getElem?
    intro i
    unfold constIn
    rw [List.getElem?_zipWith, List.getElem?_zipWith]
    by_cases hi : i < l.length
    · rw [List.getElem?_eq_getElem hi, List.getElem?_eq_getElem (by omega),
        List.getElem?_eq_getElem (by omega)]
      simp only [Option.bind_some, Option.map_some]
      cases hf : fix.lookup l[i] with
      | some c => rfl
      | none =>
        have hn' : ∀ c, (l[i], c) ∉ fix := by
          intro c hc
          have := List.lookup_eq_none_iff.1 hf _ hc
          rw [bne_iff_ne] at this
          exact this rfl
        have := h i l[i] (List.getElem?_eq_getElem hi) hn'
        rw [List.getElem?_eq_getElem (by omega), List.getElem?_eq_getElem (by omega),
          Option.some.injEq] at this
        simp [this]
    · rw [List.getElem?_eq_none (l := l) (by omega)]
  rw [← C83_update hn hk hl hu hp, ← C83_update hn hk hl2 hu' hp', hst, key hu hu' eu, key hp hp' ep]

theorem constUpdate_length {n : Num} {fix : List (String × ℝ)} {u p : Option (List ℝ)} {st st' : St Nm ℝ}
    (h : n.constUpdate fix u p st = some st') : st'.args.length = st.args.length := by
  unfold Num.constUpdate Prog.update at h
  obtain ⟨s1, h1, h⟩ := Option.bind_eq_some_iff.1 h
  obtain ⟨s2, h2, h⟩ := Option.bind_eq_some_iff.1 h
  rw [foldlM_inv (I := fun s => s.args.length = s2.args.length)
    (fun _ _ _ hs h => (action_length h).trans hs) rfl h, set_length h2, set_length h1]

end Numeric
end Pyphs
