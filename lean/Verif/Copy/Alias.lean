/-
C57: what copies share, and what `load` misses.
-/
import Verif.Copy.Props

namespace Pyphs
namespace Copy

variable {α : Type}

/-- Each copied attribute is a new cell with the elements of the old one. -/
theorem copyInto_cell {src : Attrs α} (ns : List Name) : ∀ {h : Heap α} {t : Attrs α} {c : Heap α × Attrs α},
    copyInto h src t ns = some c → h <+: c.1 ∧ (∀ n, n ∉ ns → c.2 n = t n) ∧
    ∀ n ∈ ns, ∀ p cell, src n = some (.ref p) → h[p]? = some cell →
      ∃ p', c.2 n = some (.ref p') ∧ c.1[p']? = some cell := by
  induction ns with
  | nil =>
    intro h t c e
    cases e
    exact ⟨List.prefix_rfl, fun _ _ => rfl, fun n hn => by cases hn⟩
  | cons m ns ih =>
    intro h t c e
    cases hm : src m with
    | none => simp only [copyInto, hm] at e; cases e
    | some v =>
      simp only [copyInto, hm] at e
      have hpre : h <+: (copyVal h v).1 := by
        cases v with
        | atom a => exact List.prefix_rfl
        | ref p =>
          simp only [copyVal]
          split
          · exact List.prefix_append _ _
          · exact List.prefix_rfl
      obtain ⟨i1, i2, i3⟩ := ih e
      refine ⟨hpre.trans i1, fun n hn => ?_, fun n hn p cell hp hc => ?_⟩
      · rw [List.mem_cons, not_or] at hn
        rw [i2 n hn.2]
        unfold put
        rw [if_neg hn.1]
      · by_cases hns : n ∈ ns
        · exact i3 n hns p cell hp (prefix_get hpre hc)
        · rcases List.mem_cons.1 hn with rfl | hn
          · rw [hm] at hp
            cases hp
            have hcv : copyVal h (.ref p) = (h ++ [cell], .ref h.length) := by
              simp only [copyVal, hc]
            rw [hcv] at i1 i2
            refine ⟨h.length, ?_, prefix_get i1 (by simp)⟩
            rw [i2 n hns]
            unfold put
            rw [if_pos rfl]
          · exact absurd hn hns

/-- **C57** fails for the coefficients of connectors: after a copy, changing the coefficient of a connector
of the original changes the one of the copy. -/
theorem C57_shared (none' zero : α) {w : World α} (x : Inv w) {i : ℕ} {c : ACore α}
    (hi : w.abs.cores[i]? = some c) {ns : List Name} (hn : nameUnion c.view = some ns)
    (hall : ∀ n ∈ ns, c.view n ≠ none) {ord : List Name → List Name} (ho : ∀ l, (ord l).Perm l)
    {cs : List (Conn α)} (hc : c.view (.own "connectors") = some (.conns cs)) {k : ℕ} (hk : k < cs.length)
    (a : α) :
    ∃ d d' cs', (runAll none' zero w [.copy i ord,
        .step i fun _ _ => .setAlpha (.own "connectors") k a]).abs.cores[w.objs.length]? = some d ∧
      (runAll none' zero w [.copy i ord,
        .step i fun _ _ => .setAlpha (.own "connectors") k a]).abs.cores[i]? = some d' ∧
      d.view (.own "connectors") = some (.conns cs') ∧ d'.view (.own "connectors") = some (.conns cs') ∧
      (cs'[k]?).map (·.alpha) = some a := by
  rw [abs_get] at hi
  obtain ⟨o, hoi, hco⟩ := Option.map_eq_some_iff.1 hi
  subst hco
  have hv := x.valid i o hoi
  obtain ⟨h1, h2⟩ := fill_spec (defaults none' zero) (Ext.refl (empty_valid w.heap))
  have hin : Name.own "connectors" ∈ ns := by
    unfold nameUnion at hn
    split at hn
    · rw [← Option.some.inj hn, List.mem_dedup]
      exact List.mem_append_left _ (List.mem_append_left _ (by decide))
    · cases hn
  rcases copyInto_spec hv (ord ns) h1 with ⟨⟨n, hm, hm2⟩, -⟩ | ⟨hne, r, hr, hE, hw⟩
  · exact absurd ((view_none hv).2 hm2) (hall n ((ho ns).mem_iff.1 hm))
  set t := fill w.heap (fun _ => none) (defaults none' zero) with ht
  have hrun : (Op.copy i ord).run none' zero w =
      { w with heap := r.1, objs := w.objs ++ [⟨o.label, r.2⟩] } := by
    simp only [Op.run, hoi, hn, ← ht, hr]
  -- the connectors of the original
  have hcr : ∃ p qs, o.attrs (.own "connectors") = some (.ref p) ∧ w.heap[p]? = some (.conns qs) ∧
      (∀ q ∈ qs, ∃ c, w.heap[q]? = some (.conn c)) ∧ qs.mapM (conn? w.heap) = some cs := by
    change view w.heap o.attrs (.own "connectors") = _ at hc
    cases hat : o.attrs (.own "connectors") with
    | none => rw [(view_none hv).2 hat] at hc; cases hc
    | some v =>
      cases v with
      | atom b => rw [view_atom hat] at hc; cases hc
      | ref p =>
        rw [view_ref hat] at hc
        rcases hv _ p hat with ⟨d, e⟩ | ⟨qs, e, hq⟩
        · simp only [read, e] at hc; cases hc
        · rw [read_conns e] at hc
          obtain ⟨cs'', h3, h4⟩ := Option.map_eq_some_iff.1 hc
          cases h4
          exact ⟨p, qs, rfl, e, hq, h3⟩
  obtain ⟨p, qs, hp, hpc, hq, hcs⟩ := hcr
  obtain ⟨p1, p2, p3⟩ := copyInto_cell (ord ns) hr
  obtain ⟨p', hp', hpc'⟩ := p3 _ ((ho ns).mem_iff.2 hin) p _ hp (prefix_get h1.pre hpc)
  have hpre : w.heap <+: r.1 := hE.pre
  have hlen := (mapM_iff.1 hcs).length_eq
  have hkq : k < qs.length := by omega
  obtain ⟨y, hy⟩ := hq qs[k] (List.getElem_mem hkq)
  have hy' := prefix_get hpre hy
  have hil := (List.getElem?_eq_some_iff.1 hoi).1
  set w1 : World α := { w with heap := r.1, objs := w.objs ++ [⟨o.label, r.2⟩] } with hw1
  have hoi1 : w1.objs[i]? = some o := by
    show (w.objs ++ _)[i]? = _
    rw [List.getElem?_append_left hil, hoi]
  set h' : Heap α := r.1.set qs[k] (.conn { y with alpha := a }) with hh'
  have hrun2 : runAll none' zero w [.copy i ord,
      .step i fun _ _ => .setAlpha (.own "connectors") k a] =
      { w1 with heap := h', objs := w1.objs.set i o } := by
    show (Op.step i fun _ _ => Prim.setAlpha (.own "connectors") k a).run none' zero
      ((Op.copy i ord).run none' zero w) = _
    rw [hrun]
    simp only [Op.run, hoi1]
    have e1 : w1.heap[p]? = some (.conns qs) := prefix_get hpre hpc
    have e2 : w1.heap[qs[k]]? = some (.conn y) := hy'
    simp only [Prim.run, hp, e1, List.getElem?_eq_getElem hkq, e2]
    rfl
  have hobj : w1.objs.set i o = w1.objs := congrArg World.objs (set_self hoi1)
  rw [hrun2, hobj]
  have hlt := (List.getElem?_eq_some_iff.1 hy').1
  have hgetk : h'[qs[k]]? = some (.conn { y with alpha := a }) := by
    rw [hh', List.getElem?_set, if_pos rfl, if_pos hlt]
  have hget : ∀ q, q ≠ qs[k] → h'[q]? = r.1[q]? := fun q hne => by
    rw [hh', List.getElem?_set, if_neg fun e => hne e.symm]
  have hnc : ∀ p'' : ℕ, r.1[p'']? = some (.conns qs) → h'[p'']? = some (.conns qs) := by
    intro p'' e
    rw [hget, e]
    rintro rfl
    rw [hy'] at e
    cases e
  obtain ⟨cs', hcs'⟩ := conns_read (h := h') (qs := qs) fun q hm => by
    by_cases hqk : q = qs[k]
    · exact ⟨_, hqk ▸ hgetk⟩
    · obtain ⟨z, hz⟩ := hq q hm
      exact ⟨z, by rw [hget q hqk]; exact prefix_get hpre hz⟩
  refine ⟨⟨o.label, view h' r.2⟩, ⟨o.label, view h' o.attrs⟩, cs', ?_, ?_, ?_, ?_, ?_⟩
  · rw [abs_get]
    show ((w.objs ++ [⟨o.label, r.2⟩])[w.objs.length]?).map _ = _
    simp
  · rw [abs_get]
    show (w1.objs[i]?).map _ = _
    rw [hoi1]
    rfl
  · show view h' r.2 _ = _
    rw [view_ref hp', read_conns (hnc _ hpc'), hcs']; rfl
  · show view h' o.attrs _ = _
    rw [view_ref hp, read_conns (hnc _ (prefix_get hpre hpc)), hcs']; rfl
  · have hk' : k < cs'.length := by rw [← (mapM_iff.1 hcs').length_eq]; exact hkq
    have := (List.forall₂_iff_get.1 (mapM_iff.1 hcs')).2 k hkq hk'
    rw [List.get_eq_getElem, List.get_eq_getElem, conn?_some hgetk] at this
    rw [List.getElem?_eq_getElem hk', Option.map_some, ← Option.some.inj this]

/-! ### Programs -/

/-- A core with a connector of coefficient 5. -/
def exGyr : List (Op ℕ) :=
  .new none :: ((addPorts [10, 11] [20, 21] ++ addConnector 0 1 5).map (.step 0))

/-- The value of an attribute of a core. -/
def see (w : World ℕ) (i : ℕ) (n : String) : Option (Tree ℕ) :=
  (w.objs[i]?).bind fun o => view w.heap o.attrs (.own n)

/-- **C57** fails: a core is copied, then the ratio of the connector is set in the original as the graphs
do; the copy has the new ratio. -/
theorem C57_counterexample :
    see (runAll 0 0 start (exGyr ++ [.copy 0 id])) 1 "connectors" = some (.conns [⟨[10, 11], [20, 21], 5⟩]) ∧
    see (runAll 0 0 start (exGyr ++ [.copy 0 id] ++ (setRatio 20 7).map (.step 0))) 1 "connectors" =
      some (.conns [⟨[10, 11], [20, 21], 7⟩]) := by
  decide +kernel

/-- The hypotheses of the theorems: a core with ports, a state, a connector and a parameter is copied, the
two are changed in turn; the copy is not affected by the changes of the original. -/
example : (∀ op ∈ exGyr ++ [.copy 0 id] ++
      ((addStorages (· + ·) [3] 4).map (.step 0) ++ (addStorages (· + ·) [8] 9).map (.step 1)), op.Plain) ∧
    see (runAll 0 0 start (exGyr ++ [.copy 0 id] ++
      ((addStorages (· + ·) [3] 4).map (.step 0) ++ (addStorages (· + ·) [8] 9).map (.step 1)))) 0 "x" =
      some (.data (.list [3])) ∧
    see (runAll 0 0 start (exGyr ++ [.copy 0 id] ++
      ((addStorages (· + ·) [3] 4).map (.step 0) ++ (addStorages (· + ·) [8] 9).map (.step 1)))) 1 "x" =
      some (.data (.list [8])) ∧
    see (runAll 0 0 start (exGyr ++ [.copy 0 id] ++
      ((addStorages (· + ·) [3] 4).map (.step 0) ++ (addStorages (· + ·) [8] 9).map (.step 1)))) 1 "u" =
      some (.data (.list [10, 11])) := by
  refine ⟨?_, by decide +kernel, by decide +kernel, by decide +kernel⟩
  intro op hop
  simp only [exGyr, addPorts, addConnector, addStorages, List.map_cons, List.map_nil, List.cons_append,
    List.nil_append, List.append_assoc, List.mem_cons, List.not_mem_nil, or_false] at hop
  rcases hop with rfl | rfl | rfl | rfl | rfl | rfl | rfl | rfl | rfl
  · trivial
  · exact fun l v n k a e => by cases e
  · exact fun l v n k a e => by cases e
  · intro l v n k a e
    dsimp only at e
    split at e <;> cases e
  · exact fun l => List.Perm.refl _
  · exact fun l v n k a e => by cases e
  · intro l v n k a e
    dsimp only at e
    split at e <;> cases e
  · exact fun l v n k a e => by cases e
  · intro l v n k a e
    dsimp only at e
    split at e <;> cases e

/-- **C57** fails for files (more names in the file): the expression `F` of the saved core is not loaded by
a new core, although the name `F` is; the loaded core can no longer be copied. -/
theorem C57_load_extra :
    see (runAll 0 0 start (.new none :: (setexpr "F" 6).map (.step 0) ++ [.save 0 none id, .new none,
      .load 1 none id])) 1 "F" = none ∧
    ((see (runAll 0 0 start (.new none :: (setexpr "F" 6).map (.step 0) ++ [.save 0 none id, .new none,
      .load 1 none id])) 1 "exprs_names" =
      some (.data (.names ["H", "z", "Q", "Zl", "bl", "F"])))) ∧
    (runAll 0 0 start (.new none :: (setexpr "F" 6).map (.step 0) ++ [.save 0 none id, .new none,
      .load 1 none id])).objs.length = 2 ∧
    (runAll 0 0 start (.new none :: (setexpr "F" 6).map (.step 0) ++ [.save 0 none id, .new none,
      .load 1 none id, .copy 1 id])).objs.length = 2 := by
  decide +kernel

/-- **C57** fails for files (fewer names in the file): loading a core into one that has one more
expression raises; only a part of the content is loaded, which one depends on the order of the set (here
nothing, or the state). -/
theorem C57_load_missing :
    see (runAll 0 0 start (.new none :: (addStorages (· + ·) [3] 4).map (.step 0) ++
      [.save 0 none id, .new none] ++ (setexpr "F" 6).map (.step 1) ++
      [.load 1 none fun l => (l.filter (· = .own "F")) ++ l.filter (· ≠ .own "F")])) 1 "x" =
        some (.data (.list [])) ∧
    see (runAll 0 0 start (.new none :: (addStorages (· + ·) [3] 4).map (.step 0) ++
      [.save 0 none id, .new none] ++ (setexpr "F" 6).map (.step 1) ++
      [.load 1 none fun l => (l.filter (· ≠ .own "F")) ++ l.filter (· = .own "F")])) 1 "x" =
        some (.data (.list [3])) := by
  decide +kernel

/-- The hypotheses of `C57_save_load`: the core of the example is saved, changed, and loaded in another
core. -/
example : see (runAll 0 0 start (exGyr ++ [.save 0 (some "f") List.reverse, .new none] ++
      (addPorts [12] [22]).map (.step 0) ++ [.load 1 (some "f") id])) 1 "y" =
        some (.data (.list [20, 21])) ∧
    (((runAll 0 0 start exGyr).objs[0]?.bind fun o => nameUnion (view (runAll 0 0 start exGyr).heap
        o.attrs)).elim false fun ns => decide (∀ n ∈ ns, ∀ m ∈ ns, n.key = m.key → n = m) &&
        ns.all fun n => ((runAll 0 0 start exGyr).abs.cores[0]?.bind fun c => c.view n).isSome) = true := by
  decide +kernel

end Copy
end Pyphs
