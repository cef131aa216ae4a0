/-
Property C79: sequences of blocks.
-/
import Verif.Juce.Block

namespace Pyphs
namespace Juce

variable {σ τ K : Type} [Field K] [DecidableEq K]

/-! ### The members `previous...` -/

omit [Field K] [DecidableEq K] in
/-- Only the member of the last parameter is saved. -/
theorem save_eq {F : Fx} {nin nout : ℕ} (hF : Host F nin nout) (val prev : String → K) :
    save F val prev = match F.pars.getLast? with
      | some last => Function.update prev (cap last.1) (val last.1)
      | none => prev := by
  have ha : F.active = F.pars := List.filter_eq_self.2 fun q hq => by simp [hF.pars q hq]
  have h := hF.active
  unfold save
  rw [ha] at h ⊢
  have h0 : (if 2 < F.labels.length then
      F.pars.foldl (fun pr q => match F.pars.getLast? with
        | some last => Function.update pr (cap last.1) (val q.1)
        | none => pr) prev else prev) =
      F.pars.foldl (fun pr q => match F.pars.getLast? with
        | some last => Function.update pr (cap last.1) (val q.1)
        | none => pr) prev := by
    split_ifs at h ⊢
    · rfl
    · rw [← h]; rfl
  refine Eq.trans h0 ?_
  rcases List.eq_nil_or_concat F.pars with e | ⟨l, a, e⟩
  · rw [e]; rfl
  · rw [e]
    simp only [List.concat_eq_append, List.getLast?_append, List.getLast?_singleton, Option.some_or,
      List.foldl_append, List.foldl_cons, List.foldl_nil]
    have : ∀ (m : List (String × ℕ)) (pr : String → K),
        Function.update (m.foldl (fun pr q => Function.update pr (cap a.1) (val q.1)) pr) (cap a.1) (val a.1) =
          Function.update pr (cap a.1) (val a.1) := by
      intro m
      induction m with
      | nil => intro pr; rfl
      | cons b m ih => intro pr; rw [List.foldl_cons, ih, Function.update_idem]
    exact this l prev

omit [Field K] [DecidableEq K] in
/-- **C79** (memory): what a block leaves to the next one: the gains and the last parameter are those of
the sliders, but the other parameters are those of before the block. -/
theorem C79_memory {F : Fx} {nin nout : ℕ} (hF : Host F nin nout) (val prev : String → K)
    {prev' : String → K} (h : prev' = save F val (remember val prev ((List.range F.ins.length).map inLabel ++
      (List.range F.outs.length).map outLabel))) :
    (∀ c < F.ins.length, (F.last prev').gin c = (F.knobs val).gin c) ∧
    (∀ c < F.outs.length, (F.last prev').gout c = (F.knobs val).gout c) ∧
    (∀ j < F.pars.length, (F.last prev').par j =
      if j + 1 = F.pars.length then (F.knobs val).par j else (F.last prev).par j) := by
  have nd := hF.labels
  unfold Fx.labels at nd
  rw [List.map_append] at nd
  obtain ⟨nd1, nd2, nd3⟩ := List.nodup_append.1 nd
  rw [save_eq hF] at h
  have gain : ∀ s ∈ (List.range F.ins.length).map inLabel ++ (List.range F.outs.length).map outLabel,
      prev' (cap s) = val s := by
    intro s hs
    have hm := remember_mem val nd1 hs prev
    rw [h]
    cases hl : F.pars.getLast? with
    | none => exact hm
    | some last =>
      show Function.update _ _ _ _ = _
      rw [Function.update_of_ne, hm]
      exact nd3 _ (List.mem_map_of_mem hs) _
        (List.mem_map_of_mem (List.mem_map_of_mem (List.mem_of_getLast? hl)))
  refine ⟨?_, ?_, ?_⟩
  · intro c hc
    exact gain _ (List.mem_append_left _ (List.mem_map_of_mem (List.mem_range.2 hc)))
  · intro c hc
    exact gain _ (List.mem_append_right _ (List.mem_map_of_mem (List.mem_range.2 hc)))
  · intro j hj
    have hlab : (F.pars.getD j ("", 0)) = F.pars[j] := by
      simp [List.getD_eq_getElem?_getD, hj]
    show prev' (cap (F.pars.getD j ("", 0)).1) = if _ then val (F.pars.getD j ("", 0)).1 else
      prev (cap (F.pars.getD j ("", 0)).1)
    rw [hlab]
    have hlast : F.pars.getLast? = some F.pars[F.pars.length - 1] := by
      rw [List.getLast?_eq_getElem?, List.getElem?_eq_getElem (by omega)]
    rw [h, hlast]
    show Function.update _ _ _ _ = _
    split_ifs with hj1
    · have : F.pars[F.pars.length - 1] = F.pars[j] := by congr 1; omega
      rw [this, Function.update_self]
    · have hne : cap F.pars[j].1 ≠ cap F.pars[F.pars.length - 1].1 := by
        intro e
        have := (List.Nodup.getElem_inj_iff nd2 (i := j) (j := F.pars.length - 1)
          (hi := by simpa using hj) (hj := by simp; omega)).1 (by simpa using e)
        omega
      rw [Function.update_of_ne hne, remember_frame]
      intro hm
      exact nd3 _ hm _ (List.mem_map_of_mem (List.mem_map_of_mem (List.getElem_mem hj))) rfl

omit [Field K] [DecidableEq K] in
/-- **C79** (start): after `prepareToPlay` the members are those of the sliders. -/
theorem C79_prepare {F : Fx} (h : (F.labels.map cap).Nodup) (val prev : String → K) :
    ∀ s ∈ F.labels, prepare F val prev (cap s) = val s :=
  fun _ hs => remember_mem val h hs prev

/-! ### Sliders that do not move -/

/-- The inputs of the method, with gains `g`. -/
def fixedU (pow : K → K) (ins : List ℕ) (u : List K) (g : ℕ → K) (x : ℕ → ℕ → K) (i : ℕ) : List K :=
  write u (ins.zipIdx.map fun q => (q.1, x q.2 i * pow (g q.2)))

/-- The parameters of the method. -/
def fixedP (ps : List ℕ) (p : List K) (v : ℕ → K) : List K :=
  write p (ps.zipIdx.map fun q => (q.1, v q.2))

omit [DecidableEq K] in
theorem ramp_self (a : K) (n i : ℕ) : ramp a a n i = a := by simp [ramp]

/-- The samples of channel `c` of several blocks. -/
def channel (bufs : List (List (List K))) (c : ℕ) : List K := (bufs.map fun b => b.getD c []).flatten

omit [Field K] [DecidableEq K] in
theorem channel_length {bs : List (Block K)} {c : ℕ} (h : ∀ b ∈ bs, c < b.buf.length ∧ ∀ ch ∈ b.buf, ch.length = b.n) :
    (channel (bs.map (·.buf)) c).length = (bs.map (·.n)).sum := by
  induction bs with
  | nil => rfl
  | cons b bs ih =>
    obtain ⟨h1, h2⟩ := h b (by simp)
    have := ih fun b hb => h b (by simp [hb])
    unfold channel at this ⊢
    rw [List.map_cons, List.map_cons, List.flatten_cons, List.length_append, this, List.map_cons, List.sum_cons]
    congr 1
    rw [List.getD_eq_getElem?_getD, List.getElem?_eq_getElem h1]
    exact h2 _ (List.getElem_mem _)

/-- **C79** (any splitting in blocks): if the sliders do not move, the effect computes the simulation of the
method whose inputs are the samples multiplied by `pow(10, gain)`, the other inputs and parameters keep
their values, and the outputs are those of the method multiplied by `pow(10, gain)`, whatever the lengths
of the blocks. -/
theorem C79_stream {D : Plug σ K} {step : List K → List K → τ → Option τ} {out : τ → List K}
    {R : τ → List K → List K → σ → Prop} {F : Fx} {nin nout : ℕ} (hS : Sim D step out R)
    (hF : Host F nin nout) (pow : K → K) (val : String → K) {u p : List K}
    (hiu : ∀ a ∈ F.ins, a < u.length) (hip : ∀ q ∈ F.pars, q.2 < p.length) :
    ∀ (bs : List (Block K)) {s : State σ K} {u' p' : List K} {tr : ℕ → τ},
    (∀ b ∈ bs, (∀ l ∈ F.labels, b.val l = val l) ∧ F.ins.length ≤ b.buf.length ∧
      ∀ ch ∈ b.buf, ch.length = b.n) →
    (∀ l ∈ F.labels, s.prev (cap l) = val l) →
    R (tr 0) u' p' s.obj → Off F.ins u u' → Off (F.pars.map Prod.snd) p p' →
    (∀ i < (bs.map (·.n)).sum,
      step (fixedU pow F.ins u (F.knobs val).gin (samples ((List.range F.ins.length).map
        (channel (bs.map (·.buf))))) i) (fixedP (F.pars.map Prod.snd) p (F.knobs val).par) (tr i) =
        some (tr (i + 1))) →
    (∀ i < (bs.map (·.n)).sum, ∀ b ∈ F.outs, b < (out (tr (i + 1))).length) →
    ∃ s' res u1 p1, blocks F D pow nin nout s bs = some (s', res) ∧
      (∀ l ∈ F.labels, s'.prev (cap l) = val l) ∧
      R (tr (bs.map (·.n)).sum) u1 p1 s'.obj ∧ Off F.ins u u1 ∧ Off (F.pars.map Prod.snd) p p1 ∧
      res.map (fun b => b.map List.length) = bs.map (fun b => b.buf.map List.length) ∧
      ∀ c < F.outs.length, channel res c = (List.range (bs.map (·.n)).sum).map fun i =>
        (out (tr (i + 1))).getD (F.outs.getD c 0) 0 * pow ((F.knobs val).gout c) := by
  intro bs
  induction bs with
  | nil =>
    intro s u' p' tr _ hprev hR hu hp _ _
    exact ⟨s, [], u', p', rfl, hprev, hR, hu, hp, rfl, fun c _ => rfl⟩
  | cons b bs ih =>
    intro s u' p' tr hbs hprev hR hu hp hst hy
    obtain ⟨hv, hb, hlen⟩ := hbs b (by simp)
    rw [List.map_cons, List.sum_cons] at hst hy
    have hkin : ∀ c < F.ins.length, (F.last s.prev).gin c = (F.knobs val).gin c ∧
        (F.knobs b.val).gin c = (F.knobs val).gin c := by
      intro c hc
      have : inLabel c ∈ F.labels := List.mem_append_left _ (List.mem_append_left _
        (List.mem_map_of_mem (List.mem_range.2 hc)))
      exact ⟨hprev _ this, hv _ this⟩
    have hkout : ∀ c < F.outs.length, (F.last s.prev).gout c = (F.knobs val).gout c ∧
        (F.knobs b.val).gout c = (F.knobs val).gout c := by
      intro c hc
      have : outLabel c ∈ F.labels := List.mem_append_left _ (List.mem_append_right _
        (List.mem_map_of_mem (List.mem_range.2 hc)))
      exact ⟨hprev _ this, hv _ this⟩
    have hkpar : ∀ j < F.pars.length, (F.last s.prev).par j = (F.knobs val).par j ∧
        (F.knobs b.val).par j = (F.knobs val).par j := by
      intro j hj
      have : (F.pars.getD j ("", 0)).1 ∈ F.labels := by
        refine List.mem_append_right _ (List.mem_map_of_mem ?_)
        rw [List.getD_eq_getElem?_getD, List.getElem?_eq_getElem hj]
        exact List.getElem_mem _
      exact ⟨hprev _ this, hv _ this⟩
    have hU : ∀ i < b.n, specU pow F.ins u (F.last s.prev) (F.knobs b.val) b.n (samples b.buf) i =
        fixedU pow F.ins u (F.knobs val).gin (samples ((List.range F.ins.length).map
          (channel ((b :: bs).map (·.buf))))) i := by
      intro i hi
      unfold specU fixedU
      congr 1
      apply List.map_congr_left
      intro q hq
      obtain ⟨a, c⟩ := q
      have hc : c < F.ins.length := by
        have := List.mem_zipIdx hq
        omega
      show (a, _) = (a, _)
      congr 1
      rw [(hkin c hc).1, (hkin c hc).2, ramp_self]
      congr 1
      have hcb : c < b.buf.length := by omega
      have hl : b.buf[c].length = b.n := hlen _ (List.getElem_mem _)
      unfold samples channel
      simp only [List.getD_eq_getElem?_getD, List.getElem?_map, List.getElem?_range hc, Option.map_some,
        Option.getD_some, List.map_cons, List.flatten_cons, List.getElem?_eq_getElem hcb]
      rw [List.getElem?_append_left (by omega)]
    have hP : ∀ i, specP (F.pars.map Prod.snd) p (F.last s.prev) (F.knobs b.val) b.n i =
        fixedP (F.pars.map Prod.snd) p (F.knobs val).par := by
      intro i
      unfold specP fixedP
      congr 1
      apply List.map_congr_left
      intro q hq
      obtain ⟨a, c⟩ := q
      have hc : c < F.pars.length := by
        have := List.mem_zipIdx hq
        simp at this
        omega
      show (a, _) = (a, _)
      rw [(hkpar c hc).1, (hkpar c hc).2, ramp_self]
    obtain ⟨s1, buf1, u1, p1, e1, e2, e3, e4, e5, e6, e7, e8, e9⟩ := C79_block (n := b.n) hS hF pow b.val
      hb hlen hR hu hp hiu hip (by
        intro i hi
        rw [hU i hi, hP i]
        exact hst i (by omega))
      (fun i hi => hy i (by omega))
    obtain ⟨m1, m2, m3⟩ := C79_memory hF b.val s.prev e5
    have hprev1 : ∀ l ∈ F.labels, s1.prev (cap l) = val l := by
      intro l hl
      rcases List.mem_append.1 hl with h | h
      · rcases List.mem_append.1 h with h | h
        · obtain ⟨c, hc, rfl⟩ := List.mem_map.1 h
          have hc := List.mem_range.1 hc
          exact (m1 c hc).trans (hkin c hc).2
        · obtain ⟨c, hc, rfl⟩ := List.mem_map.1 h
          have hc := List.mem_range.1 hc
          exact (m2 c hc).trans (hkout c hc).2
      · obtain ⟨q, hq, rfl⟩ := List.mem_map.1 h
        obtain ⟨j, hj, rfl⟩ := List.getElem_of_mem hq
        have hlab : (F.pars.getD j ("", 0)) = F.pars[j] := by
          simp [List.getD_eq_getElem?_getD, hj]
        have h3 := m3 j hj
        have hk := hkpar j hj
        have h4 : (F.last s1.prev).par j = (F.knobs val).par j := by
          rw [h3]
          split_ifs
          · exact hk.2
          · exact hk.1
        unfold Fx.last Fx.knobs at h4
        simp only [hlab] at h4
        exact h4
    obtain ⟨s2, res, u2, p2, f1, f2, f3, f4, f5, f6, f7⟩ := ih (s := s1) (u' := u1) (p' := p1)
      (tr := fun i => tr (b.n + i)) (fun b' hb' => hbs b' (by simp [hb'])) hprev1 e2 e3 e4 (by
        intro i hi
        have := hst (b.n + i) (by omega)
        rw [show fixedU pow F.ins u (F.knobs val).gin (samples ((List.range F.ins.length).map
          (channel (bs.map (·.buf))))) i = fixedU pow F.ins u (F.knobs val).gin
            (samples ((List.range F.ins.length).map (channel ((b :: bs).map (·.buf))))) (b.n + i) from ?_]
        · exact this
        · unfold fixedU
          congr 1
          apply List.map_congr_left
          intro q hq
          obtain ⟨a, c⟩ := q
          have hc : c < F.ins.length := by
            have := List.mem_zipIdx hq
            omega
          show (a, _) = (a, _)
          congr 2
          have hcb : c < b.buf.length := by omega
          have hl : b.buf[c].length = b.n := hlen _ (List.getElem_mem _)
          unfold samples channel
          simp only [List.getD_eq_getElem?_getD, List.getElem?_map, List.getElem?_range hc, Option.map_some,
            Option.getD_some, List.map_cons, List.flatten_cons, List.getElem?_eq_getElem hcb]
          rw [List.getElem?_append_right (by omega)]
          congr 2
          omega)
      (fun i hi => hy (b.n + i) (by omega))
    have hch1 : buf1.map List.length = b.buf.map List.length := by
      apply List.ext_getElem?
      intro c
      rw [List.getElem?_map, List.getElem?_map]
      by_cases h1 : c < F.ins.length
      · have hcb : c < b.buf.length := by omega
        have hl : b.buf[c].length = b.n := hlen _ (List.getElem_mem _)
        rw [List.getElem?_eq_getElem hcb]
        by_cases h2 : c < F.outs.length
        · rw [e7 c h2]; simp [specOut, hl]
        · rw [e8 c (by omega) h1]; simp [hl]
      · rw [e9 c (by omega)]
    refine ⟨s2, buf1 :: res, u2, p2, ?_, f2, ?_, f4, f5, ?_, ?_⟩
    · unfold blocks
      rw [e1, Option.bind_some, f1]
      rfl
    · rw [List.map_cons, List.sum_cons]; exact f3
    · rw [List.map_cons, List.map_cons, f6, hch1]
    · intro c hc
      have h7 := f7 c hc
      unfold channel at h7 ⊢
      rw [List.map_cons, List.flatten_cons, h7, List.map_cons, List.sum_cons, List.range_add, List.map_append,
        List.map_map]
      congr 1
      rw [List.getD_eq_getElem?_getD, e7 c hc]
      simp only [Option.getD_some, specOut, (hkout c hc).1, (hkout c hc).2, ramp_self]

end Juce
end Pyphs
