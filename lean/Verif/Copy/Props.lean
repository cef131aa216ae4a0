/-
C57: a copy has the content of the original, and later changes of one do not affect the other, as long as
the coefficient of a shared connector is not changed in place (which the graphs do); a saved core is
loaded with the same content when the two cores have the same names.
-/
import Verif.Copy.Refine

namespace Pyphs
namespace Copy

variable {α : Type}

/-- The world before any core is created. -/
def start : World α := ⟨[], [], fun _ => none⟩

theorem start_inv : Inv (start : World α) :=
  ⟨fun i o h => (by cases h), fun i j o o' n m p h => (by cases h)⟩

/-- Changes of a coefficient keep every reference right, shared or not. -/
theorem inv_setAlpha {w : World α} (x : Inv w) {i : ℕ} {o : Obj α} (ho : w.objs[i]? = some o) (n : Name)
    (k : ℕ) (a : α) :
    Inv { w with heap := ((Prim.setAlpha n k a).run w.heap o).1,
                 objs := w.objs.set i ((Prim.setAlpha n k a).run w.heap o).2 } := by
  have triv : (Prim.setAlpha n k a).run w.heap o = (w.heap, o) →
      Inv { w with heap := ((Prim.setAlpha n k a).run w.heap o).1,
                   objs := w.objs.set i ((Prim.setAlpha n k a).run w.heap o).2 } := by
    intro h
    rw [h, set_self ho]
    exact x
  cases hn : o.attrs n with
  | none => exact triv (by simp only [Prim.run, hn])
  | some v =>
    cases v with
    | atom b => exact triv (by simp only [Prim.run, hn])
    | ref p =>
      rcases x.valid i o ho n p hn with ⟨d, e⟩ | ⟨qs, e, hq⟩
      · exact triv (by simp only [Prim.run, hn, e])
      · cases hk : qs[k]? with
        | none => exact triv (by simp only [Prim.run, hn, e, hk])
        | some q =>
          obtain ⟨c, hc⟩ := hq q (List.mem_of_getElem? hk)
          have hr : (Prim.setAlpha n k a).run w.heap o =
              (w.heap.set q (.conn { c with alpha := a }), o) := by
            simp only [Prim.run, hn, e, hk, hc]
          rw [hr]
          have hs := set_self ho
          have hobj : w.objs.set i o = w.objs := congrArg World.objs hs
          simp only [hobj]
          have hl := (List.getElem?_eq_some_iff.1 hc).1
          have get : ∀ q', q' ≠ q → (w.heap.set q (.conn { c with alpha := a }))[q']? = w.heap[q']? :=
            fun q' hne => by rw [List.getElem?_set, if_neg fun e => hne e.symm]
          have getc : ∀ q' : ℕ, (∃ c' : Conn α, w.heap[q']? = some (.conn c')) →
              ∃ c' : Conn α, (w.heap.set q (.conn { c with alpha := a }))[q']? = some (.conn c') := by
            rintro q' ⟨c', hc'⟩
            by_cases hqq : q' = q
            · subst hqq
              exact ⟨{ c with alpha := a }, by rw [List.getElem?_set, if_pos rfl, if_pos hl]⟩
            · exact ⟨c', by rw [get _ hqq, hc']⟩
          refine ⟨fun j o' hj m p' hm => ?_, x.inj⟩
          rcases x.valid j o' hj m p' hm with ⟨d, hd⟩ | ⟨qs', hd, hq'⟩
          · refine .inl ⟨d, ?_⟩
            rw [get, hd]
            rintro rfl
            rw [hd] at hc
            cases hc
          · refine .inr ⟨qs', ?_, fun q' hm' => getc q' (hq' q' hm')⟩
            rw [get, hd]
            rintro rfl
            rw [hd] at hc
            cases hc

/-- The order in which a set is enumerated is a permutation. -/
def Op.OrdOK : Op α → Prop
  | .copy _ ord => ∀ l, (ord l).Perm l
  | .save _ _ ord => ∀ l, (ord l).Perm l
  | .load _ _ ord => ∀ l, (ord l).Perm l
  | _ => True

/-- The invariant holds in every world that a program can reach. -/
theorem inv_reachable (none' zero : α) : ∀ (ops : List (Op α)) {w : World α}, Inv w →
    (∀ op ∈ ops, op.OrdOK) → Inv (runAll none' zero w ops)
  | [], w, x, _ => x
  | op :: ops, w, x, ho => by
    refine inv_reachable none' zero ops (w := op.run none' zero w) ?_
      fun op' h => ho op' (List.mem_cons_of_mem _ h)
    have h0 := ho op List.mem_cons_self
    cases op with
    | step i s =>
      cases hi : w.objs[i]? with
      | none => simp only [Op.run, hi]; exact x
      | some o =>
        simp only [Op.run, hi]
        cases hc : s o.label (view w.heap o.attrs) with
        | setAlpha n k a => exact inv_setAlpha x hi n k a
        | bindAtom n a => exact (prim_refines x hi _ (fun n k a h => by cases h)).1
        | bind n a => exact (prim_refines x hi _ (fun n k a h => by cases h)).1
        | inplace n a => exact (prim_refines x hi _ (fun n k a h => by cases h)).1
        | clear n => exact (prim_refines x hi _ (fun n k a h => by cases h)).1
        | addConn n a => exact (prim_refines x hi _ (fun n k a h => by cases h)).1
        | label a => exact (prim_refines x hi _ (fun n k a h => by cases h)).1
    | new l => exact (op_refines none' zero x (.new l) trivial).1
    | copy i ord => exact (op_refines none' zero x (.copy i ord) h0).1
    | add i j F => exact (op_refines none' zero x (.add i j F) trivial).1
    | save i l ord => exact (op_refines none' zero x (.save i l ord) trivial).1
    | load i l ord => exact (op_refines none' zero x (.load i l ord) trivial).1

/-- **C57** (value semantics): in a program that never changes the coefficient of a connector shared by
several cores, cores behave like plain values. -/
theorem C57_value_semantics (none' zero : α) (ops : List (Op α)) (hs : SafeAll none' zero start ops) :
    (runAll none' zero start ops).abs = specAll none' zero ⟨[], fun _ => none⟩ ops :=
  (all_refines none' zero ops start_inv hs).2

/-- A change that is never a change of the coefficient of a connector. -/
def Keeps (s : String → View α → Prim α) : Prop := ∀ l v n k a, s l v ≠ .setAlpha n k a

/-- What a program must do for the condition to hold whatever the state. -/
def Op.Plain : Op α → Prop
  | .step _ s => Keeps s
  | .copy _ ord => ∀ l, (ord l).Perm l
  | _ => True

theorem safe_of_plain (none' zero : α) : ∀ {ops : List (Op α)} {w : World α},
    (∀ op ∈ ops, op.Plain) → SafeAll none' zero w ops
  | [], _, _ => trivial
  | op :: ops, w, h => by
    refine ⟨?_, safe_of_plain none' zero fun op' h' => h op' (List.mem_cons_of_mem _ h')⟩
    have h0 := h op List.mem_cons_self
    cases op with
    | step i s => exact fun o _ n k a e => absurd e (h0 _ _ n k a)
    | copy i ord => exact h0
    | _ => trivial

/-- **C57** (methods of a core): none of the methods that add components, parameters, connectors or
expressions, or that set blocks, changes the coefficient of an existing connector. -/
theorem C57_methods_plain [DecidableEq α] (plus : α → α → α) (x : List α) (H b : α) (i j : ℕ) (s : String)
    (f : List α → List α) :
    ∀ m ∈ addStorages plus x H ++ addDissipations x x ++ addPorts x x ++ addParameters x ++
      setexpr s b ++ setBlock f ++ addConnector i j b, Keeps m := by
  intro m hm l v n k a e
  simp only [addStorages, addDissipations, addPorts, addParameters, setexpr, setBlock, addConnector,
    List.cons_append, List.nil_append, List.mem_cons, List.not_mem_nil, or_false] at hm
  rcases hm with rfl | rfl | rfl | rfl | rfl | rfl | rfl | rfl | rfl | rfl | rfl | rfl
  all_goals first
    | (cases e; done)
    | (dsimp only at e; split at e <;> cases e)

/-! ### Copies -/

/-- The core that an action changes. -/
def Op.target : Op α → Option ℕ
  | .step i _ => some i
  | .load i _ _ => some i
  | _ => none

theorem spec_other (none' zero : α) {w : AWorld α} {op : Op α} {i : ℕ} {c : ACore α}
    (hi : w.cores[i]? = some c) (ht : op.target ≠ some i) :
    (op.spec none' zero w).cores[i]? = some c := by
  have hlt := (List.getElem?_eq_some_iff.1 hi).1
  have happ : ∀ l, (w.cores ++ l)[i]? = some c := fun l => by
    rw [List.getElem?_append_left hlt]; exact hi
  have hset : ∀ j x, j ≠ i → (w.cores.set j x)[i]? = some c := fun j x hne => by
    rw [List.getElem?_set, if_neg hne]; exact hi
  cases op with
  | new l => exact happ _
  | step j s =>
    have hne : j ≠ i := fun h => ht (by rw [h]; rfl)
    simp only [Op.spec]
    split
    · exact hi
    · exact hset _ _ hne
  | copy j ord =>
    simp only [Op.spec]
    split
    · exact hi
    · split
      · exact hi
      · split
        · exact happ _
        · exact hi
  | add j k F =>
    simp only [Op.spec]
    split
    · split
      · exact happ _
      · exact hi
    · exact hi
  | save j l ord =>
    simp only [Op.spec]
    split
    · exact hi
    · split
      · exact hi
      · split
        · exact hi
        · exact hi
  | load j l ord =>
    have hne : j ≠ i := fun h => ht (by rw [h]; rfl)
    simp only [Op.spec]
    split
    · exact hi
    · split
      · exact hi
      · split
        · exact hset _ _ hne
        · exact hset _ _ hne

theorem specAll_other (none' zero : α) : ∀ {ops : List (Op α)} {w : AWorld α} {i : ℕ} {c : ACore α},
    w.cores[i]? = some c → (∀ op ∈ ops, op.target ≠ some i) →
    (specAll none' zero w ops).cores[i]? = some c
  | [], _, _, _, hi, _ => hi
  | op :: ops, w, i, c, hi, ht => by
    exact specAll_other none' zero (w := op.spec none' zero w)
      (spec_other none' zero hi (ht op List.mem_cons_self))
      fun op' h => ht op' (List.mem_cons_of_mem _ h)

theorem nameUnion_mem {v : View α} {ns : List Name} (hn : nameUnion v = some ns) :
    (∀ s ∈ ["connectors", "subs", "observers", "force_wnl", "M", "_dxH", "symbs_names", "exprs_names"],
      Name.own s ∈ ns) ∧ (∀ s ∈ ["_xl", "_wl", "_xnl_mono"], Name.sub "dims" s ∈ ns) ∧
    ∀ l s, v (.own "symbs_names") = some (.data (.names l)) ∨
      v (.own "exprs_names") = some (.data (.names l)) → s ∈ l → Name.own s ∈ ns := by
  obtain ⟨e, s', f1, f2, hns⟩ : ∃ e s, nameSet v "exprs_names" = some e ∧
      nameSet v "symbs_names" = some s ∧
      (attrsToCopy ++ e.map Name.own ++ s.map Name.own).dedup = ns := by
    unfold nameUnion at hn
    split at hn
    · rename_i e s h1 h2
      exact ⟨e, s, h1, h2, Option.some.inj hn⟩
    · cases hn
  have mem : ∀ n, n ∈ attrsToCopy ∨ n ∈ e.map Name.own ∨ n ∈ s'.map Name.own → n ∈ ns := by
    intro n h
    rw [← hns, List.mem_dedup, List.mem_append, List.mem_append]
    rcases h with h | h | h
    · exact .inl (.inl h)
    · exact .inl (.inr h)
    · exact .inr h
  refine ⟨fun s hs => mem _ (.inl ?_), fun s hs => mem _ (.inl ?_), fun l s hl hs => mem _ (.inr ?_)⟩
  · have : ∀ s ∈ ["connectors", "subs", "observers", "force_wnl", "M", "_dxH", "symbs_names",
      "exprs_names"], Name.own s ∈ attrsToCopy := by decide
    exact this s hs
  · have : ∀ s ∈ ["_xl", "_wl", "_xnl_mono"], Name.sub "dims" s ∈ attrsToCopy := by decide
    exact this s hs
  · rcases hl with hl | hl
    · have : nameSet v "symbs_names" = some l := by unfold nameSet; rw [hl]
      rw [this] at f2
      rw [← Option.some.inj f2]
      exact .inr (List.mem_map_of_mem hs)
    · have : nameSet v "exprs_names" = some l := by unfold nameSet; rw [hl]
      rw [this] at f1
      rw [← Option.some.inj f1]
      exact .inl (List.mem_map_of_mem hs)

/-- **C57** (content): in any reachable world, when every attribute that has to be copied exists, the copy
has the label and all these attributes of the original, and no other core changes; they include those listed here,
and every symbol and expression declared in the original. -/
theorem C57_copy (none' zero : α) {w : World α} (x : Inv w) {i : ℕ} {c : ACore α}
    (hi : w.abs.cores[i]? = some c) {ns : List Name} (hn : nameUnion c.view = some ns)
    (hall : ∀ n ∈ ns, c.view n ≠ none) {ord : List Name → List Name} (ho : ∀ l, (ord l).Perm l) :
    ∃ d : ACore α, ((Op.copy i ord).run none' zero w).abs.cores = w.abs.cores ++ [d] ∧
      d.label = c.label ∧ (∀ n ∈ ns, d.view n = c.view n) ∧
      (∀ s ∈ ["connectors", "subs", "observers", "force_wnl", "M", "_dxH", "symbs_names", "exprs_names"],
        d.view (.own s) = c.view (.own s)) ∧
      (∀ s ∈ ["_xl", "_wl", "_xnl_mono"], d.view (.sub "dims" s) = c.view (.sub "dims" s)) ∧
      ∀ l s, c.view (.own "symbs_names") = some (.data (.names l)) ∨
        c.view (.own "exprs_names") = some (.data (.names l)) → s ∈ l → d.view (.own s) = c.view (.own s) := by
  obtain ⟨-, h⟩ := op_refines none' zero x (.copy i ord) ho
  rw [h]
  simp only [Op.spec, hi, hn]
  rw [if_pos]
  · obtain ⟨m1, m2, m3⟩ := nameUnion_mem hn
    exact ⟨_, rfl, rfl, fun n hm => if_pos hm, fun s hs => if_pos (m1 s hs), fun s hs => if_pos (m2 s hs),
      fun l s hl hs => if_pos (m3 l s hl hs)⟩
  · rw [List.all_eq_true]
    intro n hm
    cases hv : c.view n with
    | none => exact absurd hv (hall n hm)
    | some y => rfl

/-- **C57** (independence): whatever other actions are made afterwards, on the original, on the copy or on
other cores, a core that is not the object of a change keeps its content. -/
theorem C57_independent (none' zero : α) {w : World α} (x : Inv w) {ops : List (Op α)}
    (hs : SafeAll none' zero w ops) {i : ℕ} {c : ACore α} (hi : w.abs.cores[i]? = some c)
    (ht : ∀ op ∈ ops, op.target ≠ some i) :
    (runAll none' zero w ops).abs.cores[i]? = some c := by
  rw [(all_refines none' zero ops x hs).2]
  exact specAll_other none' zero hi ht

theorem specAll_replay (none' zero : α) : ∀ {l : List (ℕ × (String → View α → Prim α))} {w : AWorld α}
    {i : ℕ} {c : ACore α}, w.cores[i]? = some c →
    (specAll none' zero w (l.map fun e => .step e.1 e.2)).cores[i]? =
      some ((l.filter (·.1 = i)).foldl (fun c e => (e.2 c.label c.view).spec c) c)
  | [], _, _, _, hi => hi
  | (j, s) :: l, w, i, c, hi => by
    show (specAll none' zero ((Op.step j s).spec none' zero w) (l.map fun e => .step e.1 e.2)).cores[i]? = _
    have hlt := (List.getElem?_eq_some_iff.1 hi).1
    by_cases hj : j = i
    · subst hj
      rw [specAll_replay none' zero (c := (s c.label c.view).spec c) (by
        simp only [Op.spec, hi]
        rw [List.getElem?_set, if_pos rfl, if_pos hlt])]
      rw [List.filter_cons_of_pos (by simp)]
      rfl
    · rw [specAll_replay none' zero (spec_other none' zero hi (by
        intro h; exact hj (Option.some.inj h)))]
      rw [List.filter_cons_of_neg (by simpa using hj)]

/-- **C57** (interleaving): after changes of the original and of the copy (and of other cores) in any
order, each core is what its own changes alone make of it. -/
theorem C57_interleaved (none' zero : α) {w : World α} (x : Inv w)
    {l : List (ℕ × (String → View α → Prim α))} (hs : ∀ e ∈ l, Keeps e.2) {i : ℕ} {c : ACore α}
    (hi : w.abs.cores[i]? = some c) :
    (runAll none' zero w (l.map fun e => .step e.1 e.2)).abs.cores[i]? =
      some ((l.filter (·.1 = i)).foldl (fun c e => (e.2 c.label c.view).spec c) c) := by
  rw [(all_refines none' zero _ x (safe_of_plain none' zero fun op hop => ?_)).2]
  · exact specAll_replay none' zero hi
  · obtain ⟨e, he, rfl⟩ := List.mem_map.1 hop
    exact hs e he

/-! ### Files -/

theorem collect_spec {v : View α} : ∀ {ns : List Name} {e e' : String → Option (Tree α)},
    collect v e ns = some e' → (∀ n ∈ ns, ∀ m ∈ ns, n.key = m.key → n = m) →
    (∀ n ∈ ns, v n ≠ none ∧ e' n.key = v n) ∧ ∀ k, (∀ n ∈ ns, n.key ≠ k) → e' k = e k
  | [], e, e', h, _ => by
    cases h
    exact ⟨fun n hn => (by cases hn), fun k _ => rfl⟩
  | n :: ns, e, e', h, hk => by
    cases hv : v n with
    | none => simp only [collect, hv] at h; cases h
    | some x =>
      simp only [collect, hv] at h
      obtain ⟨h1, h2⟩ := collect_spec h fun a ha b hb => hk a (List.mem_cons_of_mem _ ha) b
        (List.mem_cons_of_mem _ hb)
      refine ⟨fun m hm => ?_, fun k hkn => ?_⟩
      · by_cases hmn : m ∈ ns
        · exact h1 m hmn
        · rcases List.mem_cons.1 hm with rfl | hm
          · refine ⟨by rw [hv]; exact fun h => (by cases h), ?_⟩
            rw [h2 m.key fun a ha hak => hmn (by
              rw [← hk a (List.mem_cons_of_mem _ ha) m List.mem_cons_self hak]; exact ha)]
            rw [if_pos rfl, hv]
          · exact absurd hm hmn
      · rw [h2 k fun a ha => hkn a (List.mem_cons_of_mem _ ha),
          if_neg fun h => hkn n List.mem_cons_self h.symm]

theorem assign_not_mem {l : List (Name × Tree α)} : ∀ {v : View α} {n : Name}, n ∉ l.map (·.1) →
    assign v l n = v n := by
  induction l with
  | nil => intro v n _; rfl
  | cons e l ih =>
    intro v n hn
    rw [List.map_cons, List.mem_cons, not_or] at hn
    show assign (put v e.1 e.2) l n = v n
    rw [ih hn.2]
    unfold put
    rw [if_neg hn.1]

theorem assign_mem {l : List (Name × Tree α)} : ∀ {v : View α}, (l.map (·.1)).Nodup →
    ∀ e ∈ l, assign v l e.1 = some e.2 := by
  induction l with
  | nil => intro v _ e he; cases he
  | cons a l ih =>
    intro v hnd e he
    rw [List.map_cons, List.nodup_cons] at hnd
    show assign (put v a.1 a.2) l e.1 = _
    rcases List.mem_cons.1 he with rfl | he
    · rw [assign_not_mem hnd.1]
      unfold put
      rw [if_pos rfl]
    · exact ih hnd.2 e he

theorem takeWhile_self {β : Type} {p : β → Bool} : ∀ {l : List β}, (∀ a ∈ l, p a = true) →
    l.takeWhile p = l
  | [], _ => rfl
  | a :: l, h => by
    rw [List.takeWhile_cons_of_pos (h a List.mem_cons_self),
      takeWhile_self fun b hb => h b (List.mem_cons_of_mem _ hb)]

theorem nameUnion_nodup {v : View α} {ns : List Name} (h : nameUnion v = some ns) : ns.Nodup := by
  unfold nameUnion at h
  split at h
  · rw [← Option.some.inj h]; exact List.nodup_dedup _
  · cases h

/-- What a completed `load` does: the names of the *target* get the values of the file. -/
theorem load_spec {e : String → Option (Tree α)} {v : View α} {ns : List Name} (hnd : ns.Nodup)
    (hall : ∀ n ∈ ns, e n.key ≠ none) :
    (∀ n ∈ ns, assign v ((ns.map fun n => (n, e n.key)).takeWhile (·.2.isSome)
        |>.filterMap fun e => e.2.map fun x => (e.1, x)) n = e n.key) ∧
    ∀ n, n ∉ ns → assign v ((ns.map fun n => (n, e n.key)).takeWhile (·.2.isSome)
        |>.filterMap fun e => e.2.map fun x => (e.1, x)) n = v n := by
  have htw : (ns.map fun n => (n, e n.key)).takeWhile (·.2.isSome) = ns.map fun n => (n, e n.key) := by
    refine takeWhile_self fun a ha => ?_
    obtain ⟨n, hn, rfl⟩ := List.mem_map.1 ha
    cases hk : e n.key with
    | none => exact absurd hk (hall n hn)
    | some y => simp [hk]
  rw [htw]
  set l : List (Name × Tree α) := (ns.map fun n => (n, e n.key)).filterMap
    fun e => e.2.map fun x => (e.1, x) with hl
  have hfst : l.map (·.1) = ns := by
    rw [hl]
    clear htw hl l
    induction ns with
    | nil => rfl
    | cons n ns ih =>
      obtain ⟨y, hy⟩ := Option.ne_none_iff_exists'.1 (hall n List.mem_cons_self)
      simp only [List.map_cons, List.filterMap_cons, hy, Option.map_some]
      rw [ih (List.nodup_cons.1 hnd).2 fun m hm => hall m (List.mem_cons_of_mem _ hm)]
  refine ⟨fun n hn => ?_, fun n hn => assign_not_mem (by rw [hfst]; exact hn)⟩
  obtain ⟨y, hy⟩ := Option.ne_none_iff_exists'.1 (hall n hn)
  have hm : (n, y) ∈ l := by
    rw [hl, List.mem_filterMap]
    exact ⟨(n, e n.key), List.mem_map.2 ⟨n, hn, rfl⟩, by simp [hy]⟩
  rw [hy]
  exact assign_mem (by rw [hfst]; exact hnd) (n, y) hm

theorem spec_disk (none' zero : α) {w : AWorld α} {op : Op α} {k : String} {d : Dico α}
    (hk : w.disk k = some d) (ho : ∀ i l ord, op ≠ .save i l ord) : (op.spec none' zero w).disk k = some d := by
  cases op with
  | save i l ord => exact absurd rfl (ho i l ord)
  | new l => exact hk
  | step j s => simp only [Op.spec]; split <;> exact hk
  | copy j ord =>
    simp only [Op.spec]
    split
    · exact hk
    · split
      · exact hk
      · split <;> exact hk
  | add j k F =>
    simp only [Op.spec]
    split
    · split <;> exact hk
    · exact hk
  | load j l ord =>
    simp only [Op.spec]
    split
    · exact hk
    · split
      · exact hk
      · split <;> exact hk

theorem specAll_disk (none' zero : α) : ∀ {ops : List (Op α)} {w : AWorld α} {k : String} {d : Dico α},
    w.disk k = some d → (∀ op ∈ ops, ∀ i l ord, op ≠ .save i l ord) →
    (specAll none' zero w ops).disk k = some d
  | [], _, _, _, hk, _ => hk
  | op :: ops, w, k, d, hk, ho =>
    specAll_disk none' zero (w := op.spec none' zero w) (spec_disk none' zero hk (ho op List.mem_cons_self))
      fun op' h => ho op' (List.mem_cons_of_mem _ h)

theorem runAll_append (none' zero : α) (w : World α) (a b : List (Op α)) :
    runAll none' zero w (a ++ b) = runAll none' zero (runAll none' zero w a) b := by
  unfold runAll
  rw [List.foldl_append]

/-- **C57** (files): what is saved is read back later, into any core that has the same names, whatever
happens in between to the saved core and to the others. -/
theorem C57_save_load (none' zero : α) {w : World α} (x : Inv w) {i j : ℕ} {c : ACore α}
    (hi : w.abs.cores[i]? = some c) {ns : List Name} (hn : nameUnion c.view = some ns)
    (hall : ∀ n ∈ ns, c.view n ≠ none) (hkey : ∀ n ∈ ns, ∀ m ∈ ns, n.key = m.key → n = m)
    {ord ord' : List Name → List Name} (ho : ∀ l, (ord l).Perm l) (ho' : ∀ l, (ord' l).Perm l)
    {mid : List (Op α)} {l : String}
    (hs : SafeAll none' zero ((Op.save i (some l) ord).run none' zero w) mid)
    (hmid : ∀ op ∈ mid, ∀ i l ord, op ≠ .save i l ord) {t : ACore α}
    (hj : (runAll none' zero w (.save i (some l) ord :: mid)).abs.cores[j]? = some t) {ns' : List Name}
    (hn' : nameUnion t.view = some ns') (hsame : ∀ n, n ∈ ns' ↔ n ∈ ns) :
    ∃ d : ACore α, (runAll none' zero w
        (.save i (some l) ord :: (mid ++ [.load j (some l) ord']))).abs.cores[j]? = some d ∧
      d.label = l ∧ (∀ n ∈ ns, d.view n = c.view n) ∧ ∀ n, n ∉ ns → d.view n = t.view n := by
  obtain ⟨x1, e1⟩ := op_refines none' zero x (.save i (some l) ord) trivial
  have hcol : ∃ e', collect c.view (fun _ => none) (ord ns) = some e' := by
    have : ∀ (ns : List Name) (e : String → Option (Tree α)), (∀ n ∈ ns, c.view n ≠ none) →
        ∃ e', collect c.view e ns = some e' := by
      intro ns
      induction ns with
      | nil => intro e _; exact ⟨e, rfl⟩
      | cons n ns ih =>
        intro e hall
        obtain ⟨y, hy⟩ := Option.ne_none_iff_exists'.1 (hall n List.mem_cons_self)
        simp only [collect, hy]
        exact ih _ fun m hm => hall m (List.mem_cons_of_mem _ hm)
    exact this _ _ fun n hm => hall n ((ho ns).mem_iff.1 hm)
  obtain ⟨e', hc⟩ := hcol
  obtain ⟨hent, -⟩ := collect_spec hc fun a ha b hb =>
    hkey a ((ho ns).mem_iff.1 ha) b ((ho ns).mem_iff.1 hb)
  have hdisk : ((Op.save i (some l) ord).run none' zero w).abs.disk l = some ⟨l, e'⟩ := by
    rw [e1]
    simp only [Op.spec, hi, hn, hc, Option.getD_some, if_true]
  obtain ⟨x2, e2⟩ := all_refines none' zero mid x1 hs
  have hdisk2 := specAll_disk none' zero hdisk hmid
  rw [← e2] at hdisk2
  set w2 := runAll none' zero ((Op.save i (some l) ord).run none' zero w) mid with hw2
  have hrun : runAll none' zero w (.save i (some l) ord :: (mid ++ [.load j (some l) ord'])) =
      (Op.load j (some l) ord').run none' zero w2 := by
    show runAll none' zero ((Op.save i (some l) ord).run none' zero w) (mid ++ _) = _
    rw [runAll_append, ← hw2]
    rfl
  have hj2 : w2.abs.cores[j]? = some t := hj
  obtain ⟨-, e3⟩ := op_refines none' zero x2 (.load j (some l) ord') trivial
  rw [hrun, e3]
  simp only [Op.spec, hj2, hn', Option.getD_some, hdisk2]
  have hjl := (List.getElem?_eq_some_iff.1 hj2).1
  rw [List.getElem?_set, if_pos rfl, if_pos hjl]
  have hnd : (ord' ns').Nodup := (ho' ns').nodup_iff.2 (nameUnion_nodup hn')
  have hmem : ∀ n, n ∈ ord' ns' ↔ n ∈ ns := fun n => (ho' ns').mem_iff.trans (hsame n)
  have hent' : ∀ n ∈ ns, c.view n ≠ none ∧ e' n.key = c.view n := fun n h =>
    hent n ((ho ns).mem_iff.2 h)
  obtain ⟨l1, l2⟩ := load_spec (e := e') (v := t.view) hnd fun n hm => by
    rw [(hent' n ((hmem n).1 hm)).2]
    exact (hent' n ((hmem n).1 hm)).1
  refine ⟨_, rfl, rfl, fun n hm => ?_, fun n hm => ?_⟩
  · exact (l1 n ((hmem n).2 hm)).trans (hent' n hm).2
  · exact l2 n fun h => hm ((hmem n).1 h)

end Copy
end Pyphs
