/-
Property C79: one block of the effect.
-/
import Verif.Juce.Model
import Verif.Juce.Spec

namespace Pyphs
namespace Juce

variable {σ τ K : Type} [Field K] [DecidableEq K]

/-- The C++ object follows a machine with inputs `u` and parameters `p`. `R t u p o`: the object `o`
is in the state `t`, with inputs `u` and parameters `p` already set. -/
structure Sim (D : Plug σ K) (step : List K → List K → τ → Option τ) (out : τ → List K)
    (R : τ → List K → List K → σ → Prop) : Prop where
  setU : ∀ t u p o v i, R t u p o → i < u.length → ∃ o', D.setU v i o = some o' ∧ R t (u.set i v) p o'
  setP : ∀ t u p o v i, R t u p o → i < p.length → ∃ o', D.setP v i o = some o' ∧ R t u (p.set i v) o'
  update : ∀ t t' u p o, R t u p o → step u p t = some t' →
    ∃ o', D.update o = some o' ∧ R t' u p o' ∧ ∀ i, D.y i o' = (out t')[i]?

/-! ### Writing in a vector -/

omit [DecidableEq K] in
theorem write_length (u : List K) (l : List (ℕ × K)) : (write u l).length = u.length := by
  unfold write
  induction l generalizing u with
  | nil => rfl
  | cons q l ih => rw [List.foldl_cons, ih]; simp

omit [DecidableEq K] in
theorem write_cons (u : List K) (q : ℕ × K) (l : List (ℕ × K)) :
    write u (q :: l) = write (u.set q.1 q.2) l := rfl

omit [DecidableEq K] in
theorem write_append (u : List K) (l l' : List (ℕ × K)) :
    write u (l ++ l') = write (write u l) l' := by simp [write]

omit [DecidableEq K] in
/-- The elements that are not written. -/
theorem write_frame {l : List (ℕ × K)} {j : ℕ} (h : j ∉ l.map Prod.fst) (u : List K) :
    (write u l)[j]? = u[j]? := by
  induction l generalizing u with
  | nil => rfl
  | cons q l ih =>
    simp only [List.map_cons, List.mem_cons, not_or] at h
    rw [write_cons, ih h.2, List.getElem?_set_ne (Ne.symm h.1)]

omit [DecidableEq K] in
/-- The elements that are written do not depend on the initial vector. -/
theorem write_mem {l : List (ℕ × K)} {j : ℕ} (h : j ∈ l.map Prod.fst) {u u' : List K}
    (hl : u.length = u'.length) : (write u l)[j]? = (write u' l)[j]? := by
  induction l generalizing u u' with
  | nil => simp at h
  | cons q l ih =>
    rw [write_cons, write_cons]
    by_cases hj : j ∈ l.map Prod.fst
    · exact ih hj (by simpa using hl)
    · rw [write_frame hj, write_frame hj]
      simp only [List.map_cons, List.mem_cons] at h
      obtain rfl := h.resolve_right hj
      simp [List.getElem?_set, hl]

omit [DecidableEq K] in
/-- Writing again at the same indices forgets what was written. -/
theorem write_write {l l' : List (ℕ × K)} (h : l.map Prod.fst = l'.map Prod.fst) (u : List K) :
    write (write u l) l' = write u l' := by
  apply List.ext_getElem?
  intro j
  by_cases hj : j ∈ l'.map Prod.fst
  · exact write_mem hj (write_length _ _)
  · rw [write_frame hj, write_frame hj, write_frame (by rwa [h])]

/-! ### Gains -/

/-- One slider sets its member `previous...`. -/
def remember (val prev : String → K) (ls : List String) : String → K :=
  ls.foldl (fun pr s => Function.update pr (cap s) (val s)) prev

omit [Field K] [DecidableEq K] in
theorem remember_append (val prev : String → K) (l l' : List String) :
    remember val prev (l ++ l') = remember val (remember val prev l) l' := by
  simp [remember]

omit [Field K] [DecidableEq K] in
theorem remember_frame (val : String → K) {ls : List String} {s : String} (h : s ∉ ls.map cap)
    (prev : String → K) : remember val prev ls s = prev s := by
  unfold remember
  induction ls generalizing prev with
  | nil => rfl
  | cons a l ih =>
    simp only [List.map_cons, List.mem_cons, not_or] at h
    rw [List.foldl_cons, ih h.2, Function.update_of_ne h.1]

omit [Field K] [DecidableEq K] in
theorem remember_mem (val : String → K) {ls : List String} {s : String} (hn : (ls.map cap).Nodup)
    (h : s ∈ ls) (prev : String → K) : remember val prev ls (cap s) = val s := by
  induction ls generalizing prev with
  | nil => simp at h
  | cons a l ih =>
    rw [List.map_cons, List.nodup_cons] at hn
    show remember val (Function.update prev (cap a) (val a)) l (cap s) = _
    rcases List.mem_cons.1 h with rfl | h
    · rw [remember_frame val hn.1]; simp
    · exact ih hn.2 h _

theorem applyGain_eq (pow : K → K) (val : String → K) (n : ℕ) (lab : String) (c : ℕ)
    (prev : String → K) (buf : List (List K)) {ch : List K} (hc : buf[c]? = some ch) :
    applyGain pow val n lab c (prev, buf) = some (remember val prev [lab],
      buf.set c (ch.zipIdx.map fun q => q.1 * ramp (pow (prev (cap lab))) (pow (val lab)) n q.2)) := by
  unfold applyGain
  simp only [hc]
  split_ifs with h
  · congr 2
    · funext s
      show _ = Function.update prev (cap lab) (val lab) s
      by_cases hs : s = cap lab
      · subst hs; simp [h]
      · rw [Function.update_of_ne hs]
    · congr 1
      rw [h]
      have : (fun q : K × ℕ => q.1 * ramp (pow (prev (cap lab))) (pow (prev (cap lab))) n q.2) =
          (fun x => x * pow (prev (cap lab))) ∘ Prod.fst := by
        funext q
        simp [ramp]
      rw [this, ← List.map_map, List.zipIdx_map_fst]
  · congr 2
    congr 1
    apply List.map_congr_left
    intro q _
    unfold ramp
    congr 2
    rw [mul_div_assoc', mul_div_assoc', mul_comm]

/-- The gains of several channels. -/
theorem gains (pow : K → K) (val : String → K) (n : ℕ) (lab : ℕ → String) (prev : String → K)
    (buf : List (List K)) : ∀ (k : ℕ), k ≤ buf.length → (((List.range k).map lab).map cap).Nodup →
    ∃ b', (List.range k).foldlM (fun t i => applyGain pow val n (lab i) i t) (prev, buf) =
        some (remember val prev ((List.range k).map lab), b') ∧ b'.length = buf.length ∧
      ∀ c, b'[c]? = if c < k then (buf[c]?).map fun ch => ch.zipIdx.map fun q =>
        q.1 * ramp (pow (prev (cap (lab c)))) (pow (val (lab c))) n q.2 else buf[c]? := by
  intro k
  induction k with
  | zero => intro _ _; exact ⟨buf, rfl, rfl, fun c => by simp⟩
  | succ k ih =>
    intro hk hn
    rw [List.range_succ, List.map_append, List.map_append] at hn
    obtain ⟨b', e1, e2, e3⟩ := ih (by omega) (List.nodup_append.1 hn).1
    have hnot : cap (lab k) ∉ ((List.range k).map lab).map cap := by
      intro hm
      exact (List.nodup_append.1 hn).2.2 _ hm (cap (lab k)) (by simp) rfl
    obtain ⟨ch, hch⟩ : ∃ ch, buf[k]? = some ch := ⟨_, List.getElem?_eq_getElem (by omega)⟩
    have hk' : b'[k]? = some ch := by rw [e3 k, if_neg (by omega), hch]
    refine ⟨b'.set k (ch.zipIdx.map fun q =>
      q.1 * ramp (pow (prev (cap (lab k)))) (pow (val (lab k))) n q.2), ?_, ?_, ?_⟩
    · rw [List.range_succ, List.foldlM_append, e1]
      show (applyGain pow val n (lab k) k _ >>= fun s => some s) = _
      rw [applyGain_eq _ _ _ _ _ _ _ hk', remember_frame val hnot]
      rw [List.map_append, remember_append]
      rfl
    · simp [e2]
    · intro c
      by_cases hc : c = k
      · subst hc
        rw [List.getElem?_set_self (by omega), if_pos (by omega), hch]
        rfl
      · rw [List.getElem?_set_ne (Ne.symm hc), e3 c]
        by_cases h1 : c < k
        · rw [if_pos h1, if_pos (by omega)]
        · rw [if_neg h1, if_neg (by omega)]

/-! ### The loop -/

/-- `n` samples, of which the first `i` are replaced by those of `f`. -/
def upto (f : ℕ → K) (l : List K) (i : ℕ) : List K := (List.range i).map f ++ l.drop i

omit [Field K] [DecidableEq K] in
theorem upto_get (f : ℕ → K) (l : List K) (i : ℕ) : (upto f l i)[i]? = l[i]? := by
  unfold upto
  rw [List.getElem?_append_right (by simp)]
  simp

omit [Field K] [DecidableEq K] in
theorem upto_set (f : ℕ → K) {l : List K} {i : ℕ} (h : i < l.length) :
    (upto f l i).set i (f i) = upto f l (i + 1) := by
  unfold upto
  rw [List.set_append_right _ _ (by simp), List.drop_eq_getElem_cons h, List.range_succ]
  simp only [List.length_map, List.length_range, Nat.sub_self, List.set_cons_zero, List.map_append,
    List.map_cons, List.map_nil, List.append_assoc, List.cons_append, List.nil_append]

omit [Field K] [DecidableEq K] in
theorem upto_full (f : ℕ → K) {l : List K} {n : ℕ} (h : l.length = n) :
    upto f l n = (List.range n).map f := by
  unfold upto
  rw [List.drop_eq_nil_of_le (by omega), List.append_nil]

omit [DecidableEq K] in
theorem pars_ok {D : Plug σ K} {step : List K → List K → τ → Option τ} {out : τ → List K}
    {R : τ → List K → List K → σ → Prop} (hS : Sim D step out R) (val prev : String → K) (n i : ℕ)
    {t : τ} {u : List K} : ∀ (l : List (String × ℕ)) {p : List K} {o : σ}, R t u p o →
    (∀ q ∈ l, q.2 < p.length) →
    ∃ o', l.foldlM (applyPar D val prev n i) o = some o' ∧
      R t u (write p (l.map fun q => (q.2, ramp (prev (cap q.1)) (val q.1) n i))) o' := by
  intro l
  induction l with
  | nil => intro p o h _; exact ⟨o, rfl, h⟩
  | cons q l ih =>
    intro p o h hl
    obtain ⟨o1, e1, r1⟩ := hS.setP t u p o (ramp (prev (cap q.1)) (val q.1) n i) q.2 h (hl q (by simp))
    obtain ⟨o2, e2, r2⟩ := ih r1 (fun q hq => by simpa using hl q (by simp [hq]))
    refine ⟨o2, ?_, r2⟩
    rw [List.foldlM_cons]
    show (D.setP _ q.2 o).bind _ = _
    rw [show prev (cap q.1) + (val q.1 - prev (cap q.1)) * ((i : K) / n) =
      ramp (prev (cap q.1)) (val q.1) n i from rfl, e1]
    exact e2

/-- The vectors are equal, apart from some indices. -/
def Off (idx : List ℕ) (u u' : List K) : Prop := u'.length = u.length ∧ ∀ j, j ∉ idx → u'[j]? = u[j]?

omit [DecidableEq K] in
theorem Off.write {l : List (ℕ × K)} {idx : List ℕ} (hl : l.map Prod.fst = idx) {u u' : List K}
    (h : Off idx u u') : write u' l = write u l := by
  apply List.ext_getElem?
  intro j
  by_cases hj : j ∈ l.map Prod.fst
  · exact write_mem hj h.1
  · rw [write_frame hj, write_frame hj]
    exact h.2 j (by rwa [← hl])

omit [DecidableEq K] in
theorem off_write {l : List (ℕ × K)} {idx : List ℕ} (hl : l.map Prod.fst = idx) (u : List K) :
    Off idx u (Juce.write u l) :=
  ⟨write_length _ _, fun j hj => write_frame (by rwa [hl]) u⟩

omit [Field K] [DecidableEq K] in
theorem Off.refl (idx : List ℕ) (u : List K) : Off idx u u := ⟨rfl, fun _ _ => rfl⟩

omit [Field K] [DecidableEq K] in
theorem Off.trans {idx : List ℕ} {u v w : List K} (h : Off idx u v) (h' : Off idx v w) : Off idx u w :=
  ⟨h'.1.trans h.1, fun j hj => (h'.2 j hj).trans (h.2 j hj)⟩

/-- The values of the sliders. -/
def Fx.knobs (F : Fx) (val : String → K) : Knobs K where
  gin := fun c => val (inLabel c)
  gout := fun c => val (outLabel c)
  par := fun j => val (F.pars.getD j ("", 0)).1

/-- The values of the members `previous...`. -/
def Fx.last (F : Fx) (prev : String → K) : Knobs K := F.knobs fun s => prev (cap s)

/-- The samples of a block. -/
def samples (buf : List (List K)) (c i : ℕ) : K := (buf.getD c []).getD i 0

/-- The effect can be used in the host: one or two inputs, not more outputs than inputs, two channels
in the host if the effect has two. -/
structure Host (F : Fx) (nin nout : ℕ) : Prop where
  in1 : 1 ≤ F.ins.length
  in2 : F.ins.length ≤ 2
  out1 : 1 ≤ F.outs.length
  out2 : F.outs.length ≤ F.ins.length
  nin : F.ins.length = 2 → nin = 2
  nout : F.outs.length = 2 → nout = 2
  labels : (F.labels.map cap).Nodup
  pars : ∀ q ∈ F.pars, isGain q.1 = false

theorem Host.active {F : Fx} {nin nout : ℕ} (h : Host F nin nout) :
    (if 2 < F.labels.length then F.active else []) = F.pars := by
  have ha : F.active = F.pars := List.filter_eq_self.2 fun q hq => by simp [h.pars q hq]
  split_ifs with h2
  · exact ha
  · have : F.labels.length = F.ins.length + F.outs.length + F.pars.length := by
      simp [Fx.labels]; omega
    have h1 := h.in1
    have h3 := h.out1
    exact (List.length_eq_zero_iff.1 (by omega)).symm

omit [DecidableEq K] in
theorem specP_eq (F : Fx) (val prev : String → K) (p : List K) (n i : ℕ) :
    specP (F.pars.map Prod.snd) p (F.last prev) (F.knobs val) n i =
      write p (F.pars.map fun q => (q.2, ramp (prev (cap q.1)) (val q.1) n i)) := by
  unfold specP
  congr 1
  apply List.ext_getElem
  · simp
  · intro j h1 h2
    simp only [List.length_map, List.length_zipIdx] at h1
    simp [Fx.last, Fx.knobs, List.getD_eq_getElem?_getD, h1]

section Loop
variable {D : Plug σ K} {step : List K → List K → τ → Option τ} {out : τ → List K}
  {R : τ → List K → List K → σ → Prop} {F : Fx} {nin nout n : ℕ}

omit [DecidableEq K] in
/-- One sample. -/
theorem sample_ok (hS : Sim D step out R) (hF : Host F nin nout) (val prev : String → K) {i : ℕ}
    {u p u' p' U P : List K} {t t' : τ} {l : Loop σ K} (hR : R t u' p' l.obj)
    (hu : Off F.ins u u') (hp : Off (F.pars.map Prod.snd) p p') {x : ℕ → K}
    (hl : l.left[i]? = some (x 0))
    (hr : F.ins.length = 2 → ∃ r, l.right = some r ∧ r[i]? = some (x 1))
    (hU : U = write u (F.ins.zipIdx.map fun q => (q.1, x q.2)))
    (hP : P = specP (F.pars.map Prod.snd) p (F.last prev) (F.knobs val) n i)
    (hiu : ∀ a ∈ F.ins, a < u.length) (hip : ∀ q ∈ F.pars, q.2 < p.length)
    (hst : step U P t = some t') (hy : ∀ b ∈ F.outs, b < (out t').length) :
    ∃ o, sample F D val prev nin nout n l i = some ⟨o, l.left.set i ((out t').getD (F.outs.getD 0 0) 0),
        if F.outs.length = 2 then l.right.map fun r => r.set i ((out t').getD (F.outs.getD 1 0) 0)
        else l.right⟩ ∧
      R t' U P o := by
  have hUu : U = write u' (F.ins.zipIdx.map fun q => (q.1, x q.2)) := by
    rw [hU]
    refine (Off.write ?_ hu).symm
    apply List.ext_getElem <;> simp
  have hPp : P = write p' (F.pars.map fun q => (q.2, ramp (prev (cap q.1)) (val q.1) n i)) := by
    rw [hP, specP_eq]
    refine (Off.write ?_ hp).symm
    simp
  obtain ⟨a, ha⟩ : ∃ a, F.ins[0]? = some a := ⟨_, List.getElem?_eq_getElem (by have := hF.in1; omega)⟩
  obtain ⟨b, hb⟩ : ∃ b, F.outs[0]? = some b := ⟨_, List.getElem?_eq_getElem (by have := hF.out1; omega)⟩
  have hau : a < u'.length := by rw [hu.1]; exact hiu a (List.mem_of_getElem? ha)
  obtain ⟨o1, e1, r1⟩ := hS.setU t u' p' l.obj (x 0) a hR hau
  have hin : ∃ o2, (if 1 < F.ins.length ∧ nin = 2 then
      l.right.bind fun r => (r[i]?).bind fun x => (F.ins[1]?).bind fun a => D.setU x a o1
      else some o1) = some o2 ∧ R t U p' o2 := by
    by_cases h2 : F.ins.length = 2
    · obtain ⟨r, hr1, hr2⟩ := hr h2
      obtain ⟨a', ha'⟩ : ∃ a, F.ins[1]? = some a := ⟨_, List.getElem?_eq_getElem (by omega)⟩
      obtain ⟨o2, e2, r2⟩ := hS.setU t _ p' o1 (x 1) a' r1 (by
        rw [List.length_set, hu.1]; exact hiu a' (List.mem_of_getElem? ha'))
      refine ⟨o2, ?_, ?_⟩
      · rw [if_pos ⟨by omega, hF.nin h2⟩, hr1, Option.bind_some, hr2, Option.bind_some, ha', Option.bind_some, e2]
      · have : F.ins = [a, a'] := by
          apply List.ext_getElem?
          intro j
          match j with
          | 0 => rw [ha]; rfl
          | 1 => rw [ha']; rfl
          | j + 2 => rw [List.getElem?_eq_none (by omega)]; rfl
        rw [hUu, this]
        exact r2
    · have h1 := hF.in1
      have h3 := hF.in2
      refine ⟨o1, by rw [if_neg (by omega)], ?_⟩
      have : F.ins = [a] := by
        apply List.ext_getElem?
        intro j
        match j with
        | 0 => rw [ha]; rfl
        | j + 1 => rw [List.getElem?_eq_none (by omega)]; rfl
      rw [hUu, this]
      exact r1
  obtain ⟨o2, e2, r2⟩ := hin
  obtain ⟨o3, e3, r3⟩ := pars_ok hS val prev n i F.pars r2 (fun q hq => by rw [hp.1]; exact hip q hq)
  rw [← hPp] at r3
  obtain ⟨o4, e4, r4, hy4⟩ := hS.update t t' U P o3 r3 hst
  have hout : ∀ j b, F.outs[j]? = some b → D.y b o4 = some ((out t').getD (F.outs.getD j 0) 0) := by
    intro j b hj
    have hlt := hy b (List.mem_of_getElem? hj)
    rw [hy4, List.getD_eq_getElem?_getD (l := F.outs), hj, Option.getD_some, List.getD_eq_getElem?_getD,
      List.getElem?_eq_getElem hlt]
    rfl
  refine ⟨o4, ?_, r4⟩
  unfold sample
  rw [hl, Option.bind_some, ha, Option.bind_some, e1, Option.bind_some, e2, Option.bind_some, hF.active, e3,
    Option.bind_some, e4, Option.bind_some, hb, Option.bind_some, hout 0 b hb, Option.bind_some]
  by_cases h2 : F.outs.length = 2
  · obtain ⟨b', hb'⟩ : ∃ b, F.outs[1]? = some b := ⟨_, List.getElem?_eq_getElem (by omega)⟩
    obtain ⟨r, hr1, hr2⟩ := hr (by have := hF.out2; have := hF.in2; omega)
    rw [if_pos ⟨by omega, hF.nout h2⟩, hr1, Option.bind_some, hb', Option.bind_some, hout 1 b' hb', if_pos h2]
    rfl
  · have h1 := hF.out1
    have h3 := hF.out2
    have h4 := hF.in2
    rw [if_neg (by omega), if_neg h2]
    rfl

omit [DecidableEq K] in
/-- The loop of a block. -/
theorem loop_ok (hS : Sim D step out R) (hF : Host F nin nout) (val prev : String → K)
    {u p u' p' : List K} {tr : ℕ → τ} {o : σ} {left : List K} {right : Option (List K)}
    (hR : R (tr 0) u' p' o) (hu : Off F.ins u u') (hp : Off (F.pars.map Prod.snd) p p')
    {x : ℕ → ℕ → K} {U : ℕ → List K} (hleft : left.length = n) (hl : ∀ i < n, left[i]? = some (x 0 i))
    (hr : F.ins.length = 2 → ∃ r, right = some r ∧ r.length = n ∧ ∀ i < n, r[i]? = some (x 1 i))
    (hU : ∀ i, U i = write u (F.ins.zipIdx.map fun q => (q.1, x q.2 i)))
    (hiu : ∀ a ∈ F.ins, a < u.length) (hip : ∀ q ∈ F.pars, q.2 < p.length)
    (hst : ∀ i < n, step (U i) (specP (F.pars.map Prod.snd) p (F.last prev) (F.knobs val) n i) (tr i) =
      some (tr (i + 1)))
    (hy : ∀ i < n, ∀ b ∈ F.outs, b < (out (tr (i + 1))).length) :
    ∀ i ≤ n, ∃ l u1 p1, (List.range i).foldlM (sample F D val prev nin nout n) ⟨o, left, right⟩ = some l ∧
      R (tr i) u1 p1 l.obj ∧ Off F.ins u u1 ∧ Off (F.pars.map Prod.snd) p p1 ∧
      l.left = upto (fun i => (out (tr (i + 1))).getD (F.outs.getD 0 0) 0) left i ∧
      l.right = if F.outs.length = 2 then
        right.map fun r => upto (fun i => (out (tr (i + 1))).getD (F.outs.getD 1 0) 0) r i
        else right := by
  intro i
  induction i with
  | zero =>
    intro _
    refine ⟨⟨o, left, right⟩, u', p', rfl, hR, hu, hp, by simp [upto], ?_⟩
    split_ifs
    · simp [upto]
    · rfl
  | succ i ih =>
    intro hi
    obtain ⟨l, u1, p1, e1, e2, e3, e4, e5, e6⟩ := ih (by omega)
    obtain ⟨o', f1, f2⟩ := sample_ok (n := n) hS hF val prev e2 e3 e4 (i := i) (x := fun c => x c i)
      (by rw [e5, upto_get]; exact hl i (by omega))
      (fun h2 => by
        obtain ⟨r, g1, g2, g3⟩ := hr h2
        rw [e6, g1]
        split_ifs
        · exact ⟨_, rfl, by rw [upto_get]; exact g3 i (by omega)⟩
        · exact ⟨_, rfl, g3 i (by omega)⟩)
      (hU i) rfl hiu hip (hst i (by omega)) (hy i (by omega))
    refine ⟨⟨o', l.left.set i ((out (tr (i + 1))).getD (F.outs.getD 0 0) 0),
      if F.outs.length = 2 then
        l.right.map fun r => r.set i ((out (tr (i + 1))).getD (F.outs.getD 1 0) 0)
      else l.right⟩, U i, _, ?_, f2, ?_, ?_, ?_, ?_⟩
    · rw [List.range_succ, List.foldlM_append, e1]
      show (sample F D val prev nin nout n l i >>= fun s => some s) = _
      rw [f1]
      rfl
    · rw [hU i]
      refine off_write ?_ u
      apply List.ext_getElem <;> simp
    · rw [specP_eq]
      exact off_write (by simp) p
    · show l.left.set i _ = _
      rw [e5]
      exact upto_set _ (by omega)
    · show (if F.outs.length = 2 then _ else _) = _
      rw [e6]
      split_ifs with h2
      · obtain ⟨r, g1, g2, -⟩ := hr (by have := hF.out2; have := hF.in2; omega)
        rw [g1]
        show some _ = some _
        congr 1
        exact upto_set (fun i => (out (tr (i + 1))).getD (F.outs.getD 1 0) 0) (by omega)
      · rfl

/-- **C79** (one block): whatever the sliders and the length of the block, the method receives at each sample
the samples of the inputs multiplied by their gains and the values of the parameters, both interpolated
from the values of the members `previous...` to those of the sliders; the channels of the outputs are the
outputs of the method multiplied by their gains; the other channels are those of the inputs. -/
theorem C79_block (hS : Sim D step out R) (hF : Host F nin nout) (pow : K → K) (val : String → K)
    {s : State σ K} {buf : List (List K)} (hb : F.ins.length ≤ buf.length)
    (hn : ∀ ch ∈ buf, ch.length = n) {u p u' p' : List K} {tr : ℕ → τ} (hR : R (tr 0) u' p' s.obj)
    (hu : Off F.ins u u') (hp : Off (F.pars.map Prod.snd) p p')
    (hiu : ∀ a ∈ F.ins, a < u.length) (hip : ∀ q ∈ F.pars, q.2 < p.length)
    (hst : ∀ i < n, step (specU pow F.ins u (F.last s.prev) (F.knobs val) n (samples buf) i)
      (specP (F.pars.map Prod.snd) p (F.last s.prev) (F.knobs val) n i) (tr i) = some (tr (i + 1)))
    (hy : ∀ i < n, ∀ b ∈ F.outs, b < (out (tr (i + 1))).length) :
    ∃ s' buf' u1 p1, processBlock F D pow val nin nout n s buf = some (s', buf') ∧
      R (tr n) u1 p1 s'.obj ∧ Off F.ins u u1 ∧ Off (F.pars.map Prod.snd) p p1 ∧
      s'.prev = save F val (remember val s.prev ((List.range F.ins.length).map inLabel ++
        (List.range F.outs.length).map outLabel)) ∧
      buf'.length = buf.length ∧
      (∀ c < F.outs.length, buf'[c]? = some (specOut pow c (F.last s.prev) (F.knobs val) n fun i =>
        (out (tr (i + 1))).getD (F.outs.getD c 0) 0)) ∧
      (∀ c, F.outs.length ≤ c → c < F.ins.length → buf'[c]? = some ((List.range n).map fun i =>
        samples buf c i * ramp (pow ((F.last s.prev).gin c)) (pow ((F.knobs val).gin c)) n i)) ∧
      (∀ c, F.ins.length ≤ c → buf'[c]? = buf[c]?) := by
  have nd := hF.labels
  unfold Fx.labels at nd
  rw [List.map_append, List.map_append] at nd
  have nd1 := (List.nodup_append.1 nd).1
  have ndi := (List.nodup_append.1 nd1).1
  have ndo := (List.nodup_append.1 nd1).2.1
  have h1 := hF.in1
  have h2 := hF.in2
  have h3 := hF.out1
  have h4 := hF.out2
  obtain ⟨b1, e1, e2, e3⟩ := gains pow val n inLabel s.prev buf F.ins.length hb ndi
  set prev1 := remember val s.prev ((List.range F.ins.length).map inLabel) with hprev1
  have chan : ∀ c < F.ins.length, b1[c]? = some ((List.range n).map fun i =>
      samples buf c i * ramp (pow ((F.last s.prev).gin c)) (pow ((F.knobs val).gin c)) n i) := by
    intro c hc
    have hcb : c < buf.length := by omega
    rw [e3 c, if_pos hc, List.getElem?_eq_getElem hcb]
    show some _ = some _
    congr 1
    have hlen : buf[c].length = n := hn _ (List.getElem_mem _)
    apply List.ext_getElem
    · simp [hlen]
    · intro i g1 g2
      simp only [List.length_map, List.length_zipIdx] at g1
      have : samples buf c i = buf[c][i] := by
        simp [samples, List.getD_eq_getElem?_getD, hcb, g1]
      simp [this, Fx.last, Fx.knobs]
  have last1 : ∀ s', s' ∉ ((List.range F.ins.length).map inLabel).map cap → prev1 s' = s.prev s' :=
    fun s' h => remember_frame val h _
  have hP : ∀ i, specP (F.pars.map Prod.snd) p (F.last prev1) (F.knobs val) n i =
      specP (F.pars.map Prod.snd) p (F.last s.prev) (F.knobs val) n i := by
    intro i
    rw [specP_eq, specP_eq]
    congr 1
    apply List.map_congr_left
    intro q hq
    rw [last1]
    intro hm
    exact (List.nodup_append.1 nd).2.2 _ (List.mem_append_left _ hm) (cap q.1)
      (List.mem_map_of_mem (List.mem_map_of_mem hq)) rfl
  obtain ⟨left, hleft⟩ : ∃ left, left = (List.range n).map fun i =>
      samples buf 0 i * ramp (pow ((F.last s.prev).gin 0)) (pow ((F.knobs val).gin 0)) n i := ⟨_, rfl⟩
  obtain ⟨rdata, hrdata⟩ : ∃ left, left = (List.range n).map fun i =>
      samples buf 1 i * ramp (pow ((F.last s.prev).gin 1)) (pow ((F.knobs val).gin 1)) n i := ⟨_, rfl⟩
  have c0 := chan 0 (by omega)
  rw [← hleft] at c0
  have hright : (if 1 < F.ins.length ∧ nin = 2 then (b1[1]?).map some else some none) =
      some (if F.ins.length = 2 then some rdata else none) := by
    by_cases g : F.ins.length = 2
    · have c1 := chan 1 (by omega)
      rw [← hrdata] at c1
      rw [if_pos ⟨by omega, hF.nin g⟩, if_pos g, c1]
      rfl
    · rw [if_neg (by omega), if_neg g]
  obtain ⟨l, u1, p1, f1, f2, f3, f4, f5, f6⟩ := loop_ok (n := n) (nin := nin) (nout := nout) hS hF val prev1
    (u := u) (p := p) (tr := tr) (o := s.obj) (left := left)
    (right := if F.ins.length = 2 then some rdata else none) hR hu hp
    (x := fun c i => samples buf c i * ramp (pow ((F.last s.prev).gin c)) (pow ((F.knobs val).gin c)) n i)
    (U := fun i => specU pow F.ins u (F.last s.prev) (F.knobs val) n (samples buf) i)
    (by rw [hleft]; simp)
    (by intro i hi; rw [hleft]; simp [hi])
    (by
      intro g
      refine ⟨rdata, if_pos g, by rw [hrdata]; simp, ?_⟩
      intro i hi; rw [hrdata]; simp [hi])
    (fun i => rfl) hiu hip (by intro i hi; rw [hP i]; exact hst i hi) hy n (le_refl n)
  obtain ⟨b2, hb2⟩ : ∃ b2, b2 = l.buffer b1 := ⟨_, rfl⟩
  have hb2l : b2.length = buf.length := by
    rw [hb2, ← e2]
    unfold Loop.buffer
    cases l.right <;> simp
  have y0 : l.left = (List.range n).map fun i => (out (tr (i + 1))).getD (F.outs.getD 0 0) 0 := by
    rw [f5]; exact upto_full _ (by rw [hleft]; simp)
  have y1 : F.outs.length = 2 → l.right =
      some ((List.range n).map fun i => (out (tr (i + 1))).getD (F.outs.getD 1 0) 0) := by
    intro g
    rw [f6, if_pos g, if_pos (by omega)]
    show some _ = some _
    congr 1
    exact upto_full _ (by rw [hrdata]; simp)
  have hb2c : ∀ c, b2[c]? = if c < F.outs.length then
      some ((List.range n).map fun i => (out (tr (i + 1))).getD (F.outs.getD c 0) 0) else b1[c]? := by
    intro c
    have hl1 : 0 < b1.length := by omega
    have set0 : c ≠ 0 → (b1.set 0 l.left)[c]? = b1[c]? := fun h => List.getElem?_set_ne (Ne.symm h)
    by_cases g : F.outs.length = 2
    · rw [hb2]
      unfold Loop.buffer
      rw [y1 g]
      show ((b1.set 0 l.left).set 1 _)[c]? = _
      have hl2 : 1 < b1.length := by omega
      match c with
      | 0 =>
        rw [List.getElem?_set_ne (by omega), List.getElem?_set_self hl1, if_pos (by omega), y0]
      | 1 =>
        rw [List.getElem?_set_self (by simpa using hl2), if_pos (by omega)]
      | c + 2 =>
        rw [List.getElem?_set_ne (by omega), List.getElem?_set_ne (by omega), if_neg (by omega)]
    · have ho : F.outs.length = 1 := by omega
      have hset : ∀ c : ℕ, b2[c]? = (b1.set 0 l.left)[c]? := by
        intro c
        rw [hb2]
        unfold Loop.buffer
        cases hlr : l.right with
        | none => rfl
        | some r =>
          show ((b1.set 0 l.left).set 1 r)[c]? = _
          by_cases hc : c = 1
          · subst hc
            rw [f6, if_neg g] at hlr
            by_cases gi : F.ins.length = 2
            · rw [if_pos gi] at hlr
              obtain rfl := Option.some.inj hlr
              have c1 := chan 1 (by omega)
              rw [List.getElem?_set_self (by rw [List.length_set]; omega), List.getElem?_set_ne (by omega), c1, hrdata]
            · rw [if_neg gi] at hlr
              cases hlr
          · exact List.getElem?_set_ne (Ne.symm hc)
      rw [hset, ho]
      match c with
      | 0 => rw [List.getElem?_set_self hl1, if_pos (by omega), y0]
      | c + 1 => rw [List.getElem?_set_ne (by omega), if_neg (by omega)]
  obtain ⟨b3, g1, g2, g3⟩ := gains pow val n outLabel prev1 b2 F.outs.length (by omega) ndo
  refine ⟨⟨l.obj, save F val (remember val prev1 ((List.range F.outs.length).map outLabel))⟩, b3, u1, p1, ?_, f2,
    f3, f4, ?_, by omega, ?_, ?_, ?_⟩
  · unfold processBlock
    rw [if_neg (by
      rintro (h | h)
      · exact h hF.labels
      · omega), e1]
    simp only [Option.bind_some]
    rw [c0]
    simp only [Option.bind_some]
    rw [hright]
    simp only [Option.bind_some]
    rw [f1]
    simp only [Option.bind_some]
    rw [← hb2, g1]
    rfl
  · show save F val _ = _
    rw [remember_append]
  · intro c hc
    rw [g3 c, if_pos hc, hb2c c, if_pos hc]
    show some _ = some _
    congr 1
    have hlast : prev1 (cap (outLabel c)) = s.prev (cap (outLabel c)) := by
      apply last1
      intro hm
      exact (List.nodup_append.1 nd1).2.2 _ hm (cap (outLabel c))
        (List.mem_map_of_mem (List.mem_map_of_mem (List.mem_range.2 hc))) rfl
    unfold specOut
    apply List.ext_getElem
    · simp
    · intro i k1 k2
      simp [hlast, Fx.last, Fx.knobs]
  · intro c hc hc'
    rw [g3 c, if_neg (by omega), hb2c c, if_neg (by omega)]
    exact chan c hc'
  · intro c hc
    rw [g3 c, if_neg (by omega), hb2c c, if_neg (by omega), e3 c, if_neg (by omega)]

end Loop

end Juce
end Pyphs
