/-
Property C79: the audio effect of a method.
-/
import Verif.Juce.Method
import Verif.Cpp.SimuRun
import Verif.Cpp.SampleRate

namespace Pyphs
namespace Juce
open Numeric Cpp Scheme

/-! ### Ports and parameters -/

theorem index?_some {l : List String} {s : String} {i : ℕ} (h : index? l s = some i) :
    i < l.length ∧ l[i]? = some s := by
  unfold index? at h
  split_ifs at h with hs
  obtain rfl := Option.some.inj h
  have := List.idxOf_lt_length_of_mem hs
  exact ⟨this, by rw [List.getElem?_eq_getElem this]; simp⟩

theorem mapM_index {α : Type} {f : String → Option α} {P : String → α → Prop}
    (hf : ∀ s a, f s = some a → P s a) : ∀ {l : List String} {r : List α}, l.mapM f = some r →
    List.Forall₂ P l r := by
  intro l
  induction l with
  | nil =>
    intro r h
    simp only [List.mapM_nil, Option.pure_def] at h
    obtain rfl := Option.some.inj h
    exact .nil
  | cons s l ih =>
    intro r h
    simp only [List.mapM_cons, Option.pure_def, Option.bind_eq_bind, Option.bind_eq_some_iff] at h
    obtain ⟨a, h1, r', h2, h3⟩ := h
    obtain rfl := Option.some.inj h3
    exact .cons (hf s a h1) (ih h2)

/-- **C79** (ports): the indices of the effect are those of the named inputs, outputs and parameters of
the method; at most two inputs and two outputs. -/
theorem C79_ports {u y p i o : List String} {params : Option (List String)} {F : Fx}
    (h : mkFx u y p (some (i, o)) params = some F) :
    List.Forall₂ (fun s k => u[k]? = some s) i F.ins ∧ List.Forall₂ (fun s k => y[k]? = some s) o F.outs ∧
    List.Forall₂ (fun s q => q.1 = s ∧ p[q.2]? = some s) (params.getD p) F.pars ∧
    F.ins.length ≤ 2 ∧ F.outs.length ≤ 2 := by
  unfold mkFx at h
  simp only [Option.bind_eq_bind, Option.bind_some] at h
  split_ifs at h with hl
  simp only [Option.bind_eq_some_iff] at h
  obtain ⟨ins, h1, outs, h2, pars, h3, h4⟩ := h
  obtain rfl := Option.some.inj h4
  have g1 := mapM_index (P := fun s k => u[k]? = some s) (fun s k hk => (index?_some hk).2) h1
  have g2 := mapM_index (P := fun s k => y[k]? = some s) (fun s k hk => (index?_some hk).2) h2
  have g3 := mapM_index (P := fun s q => q.1 = s ∧ p[q.2]? = some s) (fun s q hq => by
    obtain ⟨k, hk, rfl⟩ := Option.map_eq_some_iff.1 hq
    exact ⟨rfl, (index?_some hk).2⟩) h3
  have l1 := g1.length_eq
  have l2 := g2.length_eq
  exact ⟨g1, g2, g3, by show ins.length ≤ 2; omega, by show outs.length ≤ 2; omega⟩

/-- **C79** (default ports): without a choice the effect goes from the first input to the last output. -/
theorem C79_defaults {u y p : List String} {params : Option (List String)} {F : Fx} (hy : y.Nodup)
    (h : mkFx u y p none params = some F) :
    u ≠ [] ∧ y ≠ [] ∧ F.ins = [0] ∧ F.outs = [y.length - 1] ∧
    List.Forall₂ (fun s q => q.1 = s ∧ p[q.2]? = some s) (params.getD p) F.pars := by
  cases hu : u.head? with
  | none => simp [mkFx, hu] at h
  | some a =>
    cases hl : y.getLast? with
    | none => simp [mkFx, hl] at h
    | some b =>
      have e : mkFx u y p none params = mkFx u y p (some ([a], [b])) params := by
        simp [mkFx, hu, hl]
      rw [e] at h
      obtain ⟨-, h2, h3, -, -⟩ := C79_ports h
      have hi : F.ins = [0] := by
        cases u with
        | nil => simp at hu
        | cons a' u =>
          obtain rfl : a' = a := by simpa using hu
          simp only [mkFx, Option.bind_eq_bind, Option.bind_some] at h
          split_ifs at h
          simp only [Option.bind_eq_some_iff] at h
          obtain ⟨ins, h1, outs, -, pars, -, h4⟩ := h
          obtain rfl := Option.some.inj h4
          simp [index?] at h1
          exact h1.symm
      refine ⟨fun e => by simp [e] at hu, fun e => by simp [e] at hl, hi, ?_, h3⟩
      generalize F.outs = o at h2
      cases h2 with
      | cons hk ht =>
        cases ht
        rename_i k
        rw [List.getLast?_eq_getElem?] at hl
        obtain ⟨l1, e1⟩ := List.getElem?_eq_some_iff.1 hk
        obtain ⟨l2, e2⟩ := List.getElem?_eq_some_iff.1 hl
        have : k = y.length - 1 := (List.Nodup.getElem_inj_iff hy).1 (e1.trans e2.symm)
        rw [this]

/-- Two inputs and three outputs: the effect goes from the first input to the third output. -/
example : mkFx ["a", "b"] ["c", "d", "e"] ["p"] none none = some ⟨[0], [2], [("p", 0)]⟩ ∧
    ["c", "d", "e"].Nodup := by decide +kernel

/-! ### Continuity of the gains and of the last parameter -/

/-- **C79** (no jump): the interpolation starts at the value that the previous block reaches, and two
consecutive values differ by the difference over the number of samples, including the last value of a block
and the first of the next one. -/
theorem C79_smooth {K : Type} [Field K] [CharZero K] (a b c : K) {n : ℕ} (hn : 0 < n) (m : ℕ) :
    ramp a b n 0 = a ∧ (∀ i, ramp a b n (i + 1) - ramp a b n i = (b - a) / n) ∧
    ramp b c m 0 - ramp a b n (n - 1) = (b - a) / n := by
  have hn' : (n : K) ≠ 0 := by exact_mod_cast hn.ne'
  refine ⟨by simp [ramp], ?_, ?_⟩
  · intro i
    simp only [ramp]
    push_cast
    field_simp
    ring
  · simp only [ramp]
    push_cast [Nat.cast_sub hn]
    field_simp
    ring

/-! ### The other parameters -/

section
variable {σ K : Type} [Field K] [DecidableEq K]

theorem gains_prev (pow : K → K) (val : String → K) (n : ℕ) (lab : ℕ → String) :
    ∀ (l : List ℕ) (t r : (String → K) × List (List K)),
    l.foldlM (fun t i => applyGain pow val n (lab i) i t) t = some r →
    r.1 = remember val t.1 (l.map lab) := by
  intro l
  induction l with
  | nil =>
    intro t r h
    obtain rfl := Option.some.inj h
    rfl
  | cons i l ih =>
    intro t r h
    rw [List.foldlM_cons] at h
    simp only [Option.bind_eq_bind, Option.bind_eq_some_iff] at h
    obtain ⟨t1, h1, h2⟩ := h
    rw [ih t1 r h2]
    cases hc : t.2[i]? with
    | none => unfold applyGain at h1; simp only [hc] at h1; exact absurd h1 (by simp)
    | some ch =>
      have := applyGain_eq pow val n (lab i) i t.1 t.2 hc
      rw [show (t.1, t.2) = t from rfl, h1] at this
      rw [Option.some.inj this]
      rfl

/-- What a block leaves in the members `previous...`. -/
theorem block_prev {F : Fx} {D : Plug σ K} {pow : K → K} {val : String → K} {nin nout n : ℕ} {s s' : State σ K}
    {buf buf' : List (List K)} (h : processBlock F D pow val nin nout n s buf = some (s', buf')) :
    s'.prev = save F val (remember val s.prev ((List.range F.ins.length).map inLabel ++
      (List.range F.outs.length).map outLabel)) := by
  unfold processBlock at h
  by_cases hc : ¬(F.labels.map cap).Nodup ∨ F.ins.length ≤ 1 ∧ 1 < F.outs.length
  · rw [if_pos hc] at h; exact absurd h (by simp)
  rw [if_neg hc] at h
  simp only [Option.bind_eq_some_iff] at h
  obtain ⟨t, h1, left, h2, right, h3, l, h4, t', h5, h6⟩ := h
  have e1 := gains_prev pow val n inLabel _ _ _ h1
  have e2 := gains_prev pow val n outLabel _ _ _ h5
  have h6 := (Prod.mk.inj (Option.some.inj h6)).1
  rw [← h6]
  show save F val t'.1 = _
  rw [e2, remember_append]
  show save F val (remember val t.1 _) = _
  rw [e1]

/-- **C79** (violated): with two parameters or more, all of them but the last one restart in each block from
the value that they had at `prepareToPlay`, however long ago the slider has moved. -/
theorem C79_stuck {F : Fx} {nin nout : ℕ} (hF : Host F nin nout) {D : Plug σ K} {pow : K → K} :
    ∀ (bs : List (Block K)) {s s' : State σ K} {res : List (List (List K))},
    blocks F D pow nin nout s bs = some (s', res) →
    ∀ j, j + 1 < F.pars.length → ∀ (val : String → K) (n : ℕ),
      ramp ((F.last s'.prev).par j) ((F.knobs val).par j) n 0 = (F.last s.prev).par j := by
  intro bs
  have key : ∀ (bs : List (Block K)) {s s' : State σ K} {res : List (List (List K))},
      blocks F D pow nin nout s bs = some (s', res) →
      ∀ j, j + 1 < F.pars.length → (F.last s'.prev).par j = (F.last s.prev).par j := by
    intro bs
    induction bs with
    | nil =>
      intro s s' res h j _
      unfold blocks at h
      rw [(Prod.mk.inj (Option.some.inj h)).1]
    | cons b bs ih =>
      intro s s' res h j hj
      unfold blocks at h
      simp only [Option.bind_eq_some_iff, Option.map_eq_some_iff] at h
      obtain ⟨r, h1, q, h2, h3⟩ := h
      have h3 := (Prod.mk.inj h3).1
      subst h3
      rw [ih (res := q.2) h2 j hj]
      have := (C79_memory hF b.val s.prev (block_prev (s' := r.1) (buf' := r.2) h1)).2.2 j (by omega)
      rw [this, if_neg (by omega)]
  intro s s' res h j hj val n
  rw [key bs h j hj]
  simp [ramp]

end

/-! ### The effect of a method -/

variable {n : Num} {F : Free} {subs : List (String × ℝ)} {fs : String} {fs0 : ℝ}
  {deps : List Nm} {inits : List (Nm × List ℝ)} {einv : Mat ℝ → Mat ℝ}

/-- An object related to the Python object has its inputs and parameters. -/
theorem ready_of_rel (h : MOK n F subs fs fs0) {st : St Nm ℝ} {o : Obj Nm ℝ}
    (hr : Rel (mGen n F subs fs deps fs0 inits einv) (msh n) mT st o) :
    Ready n (mGen n F subs fs deps fs0 inits einv) st (n.m.u.map (n.E st)) (n.p.map (n.E st)) o := by
  have la : st.args.length = n.all.length := hr.len
  refine ⟨by simp, by simp, la, ?_⟩
  have : (withUP (mSrc n F subs fs deps) n st (n.m.u.map (n.E st)) (n.p.map (n.E st))).args = st.args := by
    refine args_ext h.num (by unfold withUP; rw [store_length, store_length, la]) la ?_
    intro s hs
    rw [withUP_env h la (by simp) (by simp)]
    split_ifs with h1 h2
    · have hi := List.idxOf_lt_length_of_mem h1
      simp [List.getD_eq_getElem?_getD, hi, Num.E, Num.env]
    · have hi := List.idxOf_lt_length_of_mem h2
      simp [List.getD_eq_getElem?_getD, hi, Num.E, Num.env]
    · rfl
  have e : withUP (mSrc n F subs fs deps) n st (n.m.u.map (n.E st)) (n.p.map (n.E st)) = st := by
    cases st
    unfold withUP at this ⊢
    simp only at this ⊢
    rw [this]
  show Rel _ (msh n) mT (withUP (mSrc n F subs fs deps) n st _ _) o
  rw [e]
  exact hr

/-- The inputs of the method in the effect: those of `X` times the gains, the others have the values that
they have in `st`. -/
noncomputable def inputsOf (n : Num) (pow : ℝ → ℝ) (X : Fx) (val : String → ℝ) (st : St Nm ℝ)
    (bs : List (Block ℝ)) : List (List ℝ) :=
  (List.range (bs.map (·.n)).sum).map (fixedU pow X.ins (n.m.u.map (n.E st)) (X.knobs val).gin
    (samples ((List.range X.ins.length).map (channel (bs.map (·.buf))))))

/-- The parameters of the method in the effect. -/
noncomputable def paramsOf (n : Num) (X : Fx) (val : String → ℝ) (st : St Nm ℝ) (bs : List (Block ℝ)) :
    List (List ℝ) :=
  List.replicate (bs.map (·.n)).sum (fixedP (X.pars.map Prod.snd) (n.p.map (n.E st)) (X.knobs val).par)

/-- **C79** (methods): the effect of a method, used with sliders that do not move, from any object that
follows the numerical object of Python: its output channels are those of the Python simulation of the
method, for any splitting in blocks. -/
theorem C79_method (h : MOK n F subs fs fs0) (he : ∀ A B : Mat ℝ, A.IsInv B → A.IsInv (einv A))
    (hd : ∀ c ∈ n.pre ++ (if 0 < n.nl then n.imp else []) ++ n.post, c.eval ∈ deps)
    {X : Fx} {nin nout : ℕ} (hF : Host X nin nout) (hiu : ∀ a ∈ X.ins, a < n.m.u.length)
    (hiy : ∀ b ∈ X.outs, b < n.m.y.length) (hip : ∀ q ∈ X.pars, q.2 < n.p.length) (pow : ℝ → ℝ)
    (val : String → ℝ) {bs : List (Block ℝ)}
    (hbs : ∀ b ∈ bs, (∀ l ∈ X.labels, b.val l = val l) ∧ X.ins.length ≤ b.buf.length ∧
      ∀ ch ∈ b.buf, ch.length = b.n)
    {s : State (Obj Nm ℝ) ℝ} (hprev : ∀ l ∈ X.labels, s.prev (cap l) = val l) {st : ℕ → St Nm ℝ}
    (hr : Rel (mGen n F subs fs deps fs0 inits einv) (msh n) mT (st 0) s.obj)
    (hrun : Record.Run n (bs.map (·.n)).sum (inputsOf n pow X val (st 0) bs) (paramsOf n X val (st 0) bs) st) :
    ∃ s' res, blocks X (plug (mGen n F subs fs deps fs0 inits einv) n.eps n.maxit n.actions .u .p .y) pow
        nin nout s bs = some (s', res) ∧
      res.map (fun b => b.map List.length) = bs.map (fun b => b.buf.map List.length) ∧
      ∀ c < X.outs.length, channel res c = (List.range (bs.map (·.n)).sum).map fun i =>
        (Record.vec n (st (i + 1)) .y).getD (X.outs.getD c 0) 0 * pow ((X.knobs val).gout c) := by
  have rels : ∀ i ≤ (bs.map (·.n)).sum, ∃ o, Rel (mGen n F subs fs deps fs0 inits einv) (msh n) mT (st i) o := by
    intro i
    induction i with
    | zero => intro _; exact ⟨s.obj, hr⟩
    | succ i ih =>
      intro hi
      obtain ⟨o, ho⟩ := ih (by omega)
      obtain ⟨o', -, r, -⟩ := C29_update (G := mGen n F subs fs deps fs0 inits einv) (nu := n.m.y.length)
        (np := n.p.length) (eps := n.eps) (maxit := n.maxit) (acts := n.actions) (mSrc_wf h) ⟨rfl, he⟩ mSrc_args
        (mSrc_actions hd) (nU := .u) (nP := .p) (lU := n.m.u) (lP := n.p) rfl rfl
        (Record.getD_len hrun.lu hrun.du (i := i) (by omega)) (Record.getD_len hrun.lp hrun.dp (i := i) (by omega))
        ho (st' := st (i + 1)) (by
          have : (mGen n F subs fs deps fs0 inits einv).py = n.prog := mSrc_prog h
          rw [this]; exact hrun.step i (by omega))
      exact ⟨o', r⟩
  obtain ⟨s', res, u1, p1, e1, -, -, -, -, e2, e3⟩ := C79_stream (method_sim (inits := inits) h he hd) hF pow val
    (u := n.m.u.map (n.E (st 0))) (p := n.p.map (n.E (st 0)))
    (by simpa using hiu) (by simpa using hip) bs hbs hprev (tr := st) (ready_of_rel h hr) (Off.refl _ _)
    (Off.refl _ _) (by
      intro i hi
      have := hrun.step i hi
      unfold inputsOf paramsOf at this
      rw [List.getD_eq_getElem?_getD, List.getD_eq_getElem?_getD, List.getElem?_map, List.getElem?_range hi,
        List.getElem?_replicate, if_pos hi] at this
      exact this)
    (by
      intro i hi b hb
      obtain ⟨o, ho⟩ := rels (i + 1) hi
      have := (vec_step h he (hrun.step i hi) ho (k := .y) (by simp)).1
      rw [show (Record.vec n (st (i + 1)) .y).length = n.m.y.length from this]
      exact hiy b hb)
  exact ⟨s', res, e1, e2, e3⟩


theorem inputsOf_len {pow : ℝ → ℝ} {X : Fx} {val : String → ℝ} {st : St Nm ℝ} {bs : List (Block ℝ)} :
    (inputsOf n pow X val st bs).length = (bs.map (·.n)).sum ∧
    ∀ r ∈ inputsOf n pow X val st bs, r.length = n.m.u.length := by
  refine ⟨by simp [inputsOf], ?_⟩
  intro r hr
  obtain ⟨i, -, rfl⟩ := List.mem_map.1 hr
  simp [fixedU, write_length]

theorem paramsOf_len {X : Fx} {val : String → ℝ} {st : St Nm ℝ} {bs : List (Block ℝ)} :
    (paramsOf n X val st bs).length = (bs.map (·.n)).sum ∧
    ∀ r ∈ paramsOf n X val st bs, r.length = n.p.length := by
  refine ⟨by simp [paramsOf], ?_⟩
  intro r hr
  rw [List.eq_of_mem_replicate hr]
  simp [fixedP, write_length]

/-- **C79** (effects): the host calls `prepareToPlay` with the sample rate `fs0`, in any reached state of an
object generated for the sample rate `fsd`, then sends blocks with the sliders at the same positions: the output
channels are those of the Python simulation with the sample rate `fs0`, from its initial values, with the scaled
input channels as inputs. -/
theorem C79_run (h : MOK n F subs fs fs0) (he : ∀ A B : Mat ℝ, A.IsInv B → A.IsInv (einv A))
    (hd : ∀ c ∈ n.pre ++ (if 0 < n.nl then n.imp else []) ++ n.post, c.eval ∈ deps)
    (hdeps : ∀ k ∈ deps, n.syms k = none ∧ (k = .ud_vl → 0 < n.l) ∧
      (k = .Fnl ∨ k = .ud_vnl → 0 < n.nl)) (hno : NoRate (mSrc n F subs fs deps))
    {user extra : List (Nm × List ℝ)}
    (hok : ∀ p ∈ user ++ extra, PairOK (mSrc n F subs fs deps) p)
    (hpw : (user ++ extra).Pairwise (Apart (mSrc n F subs fs deps)))
    (hz : ∀ p ∈ extra, ∀ a ∈ p.2, a = 0)
    (hcov : ∀ s ∈ n.all, ∃ p ∈ user ++ extra, s ∈ (n.syms p.1).getD [])
    {X : Fx} {nin nout : ℕ} (hF : Host X nin nout) (hiu : ∀ a ∈ X.ins, a < n.m.u.length)
    (hiy : ∀ b ∈ X.outs, b < n.m.y.length) (hip : ∀ q ∈ X.pars, q.2 < n.p.length) (pow : ℝ → ℝ)
    (val : String → ℝ) {bs : List (Block ℝ)}
    (hbs : ∀ b ∈ bs, (∀ l ∈ X.labels, b.val l = val l) ∧ X.ins.length ≤ b.buf.length ∧
      ∀ ch ∈ b.buf, ch.length = b.n)
    {fsd : ℝ} {T : List Nm} {old : St Nm ℝ} {o : Obj Nm ℝ} (prev : String → ℝ)
    (hr : Rel (mGen n F subs fs deps fsd (user ++ extra) einv) (msh n) T old o) {st : ℕ → St Nm ℝ}
    (hb : pyBuild n.prog n.all.length (user.map fun p => (p.1, some (.v p.2))) deps = some (st 0))
    (hrun : Record.Run n (bs.map (·.n)).sum (inputsOf n pow X val (st 0) bs) (paramsOf n X val (st 0) bs) st) :
    ∃ o' s' res, (mGen n F subs fs deps fsd (user ++ extra) einv).setSampleRate o fs0 = some o' ∧
      blocks X (plug (mGen n F subs fs deps fs0 (user ++ extra) einv) n.eps n.maxit n.actions .u .p .y) pow
        nin nout ⟨o', prepare X val prev⟩ bs = some (s', res) ∧
      res.map (fun b => b.map List.length) = bs.map (fun b => b.buf.map List.length) ∧
      ∀ c < X.outs.length, channel res c = (List.range (bs.map (·.n)).sum).map fun i =>
        (Record.vec n (st (i + 1)) .y).getD (X.outs.getD c 0) 0 * pow ((X.knobs val).gout c) := by
  obtain ⟨o', e, r⟩ := C30_as_new (G := mGen n F subs fs deps fsd (user ++ extra) einv) (Γ := msh n) (mSrc_wf h)
    ⟨rfl, he⟩ mSrc_args (fun k hk => mSrc_eval (by simp) (hdeps k hk).1 (hdeps k hk).2.1 (hdeps k hk).2.2) hno
    (user := user) (extra := extra) rfl hok hpw hz hcov hr (fs := fs0) (st' := st 0) (by
      have : (mGen n F subs fs deps fs0 (user ++ extra) einv).py = n.prog := mSrc_prog h
      show pyBuild (mGen n F subs fs deps fs0 (user ++ extra) einv).py _ _ _ = _
      rw [this]; exact hb)
  obtain ⟨s', res, g1, g2, g3⟩ := C79_method (inits := user ++ extra) h he hd hF hiu hiy hip pow val hbs
    (s := ⟨o', prepare X val prev⟩) (fun l hl => C79_prepare hF.labels val prev l hl) (st := st)
    (r.mono fun _ hm => by simp at hm) hrun
  exact ⟨o', s', res, e, g1, g2, g3⟩

open Circuit Graph in
/-- **C79** (circuits): for a circuit of monotone components (C67) the effect always plays: the blocks never fail,
and its output is the one of the simulation in Python. -/
theorem C79_circuit {law : String → Env ℝ → ℝ} {fuel : ℕ} {nodes : List String}
    {edges : List (Edge ℝ)} {c c2 : Core ℝ} (h : CircuitOK nodes edges c)
    (hstat : StaticLaws law edges) (hreg : RegularCircuit law edges c.H)
    (hmon : MonotoneCircuit law edges c.H)
    (hc : toCore law fuel nodes edges c = some c2)
    (sy : Sympy) (hs : sy.OK) (cf : Config) (hjs : JacSound sy cf c2) (hfs : 0 < cf.fs)
    (hθ : cf.kind = .theta → 0 ≤ cf.θ)
    (hk : cf.kind ≠ .discret ∨
      (QuadEnergy c.H ((ofType .storage edges).map (·.label)) ∧ 0 < cf.epsdg)) :
    ∃ m, toMethod sy cf c2 = some m ∧
      ∀ (n : Num) (F : Free) (subs : List (String × ℝ)) (fs : String) (fs0 : ℝ)
        (deps : List Nm) (einv : Mat ℝ → Mat ℝ), n.m = m → MOK n F subs fs fs0 →
      (∀ A B : Mat ℝ, A.IsInv B → A.IsInv (einv A)) →
      (∀ c ∈ n.pre ++ (if 0 < n.nl then n.imp else []) ++ n.post, c.eval ∈ deps) →
      ∀ (inits : List (Nm × List ℝ)) (X : Fx) (nin nout : ℕ), Host X nin nout → (∀ a ∈ X.ins, a < m.u.length) →
      (∀ b ∈ X.outs, b < m.y.length) → (∀ q ∈ X.pars, q.2 < n.p.length) →
      ∀ (pow : ℝ → ℝ) (val : String → ℝ) (bs : List (Block ℝ)),
      (∀ b ∈ bs, (∀ l ∈ X.labels, b.val l = val l) ∧ X.ins.length ≤ b.buf.length ∧
        ∀ ch ∈ b.buf, ch.length = b.n) →
      ∀ (s : State (Obj Nm ℝ) ℝ) (s0 : St Nm ℝ), (∀ l ∈ X.labels, s.prev (cap l) = val l) →
      Rel (mGen n F subs fs deps fs0 inits einv) (msh n) mT s0 s.obj →
      ∃ st s' res, st 0 = s0 ∧
        Record.Run n (bs.map (·.n)).sum (inputsOf n pow X val s0 bs) (paramsOf n X val s0 bs) st ∧
        blocks X (plug (mGen n F subs fs deps fs0 inits einv) n.eps n.maxit n.actions .u .p .y) pow
          nin nout s bs = some (s', res) ∧
        ∀ c < X.outs.length, channel res c = (List.range (bs.map (·.n)).sum).map fun i =>
          (Record.vec n (st (i + 1)) .y).getD (X.outs.getD c 0) 0 * pow ((X.knobs val).gout c) := by
  obtain ⟨m, h1, h2⟩ := C67_circuit h hstat hreg hmon hc sy hs cf hjs hfs hθ hk
  refine ⟨m, h1, ?_⟩
  intro n F subs fs fs0 deps einv hm hok he hd inits X nin nout hF hiu hiy hip pow val bs hbs s s0 hprev hr
  obtain ⟨a1, a2⟩ := inputsOf_len (n := n) (pow := pow) (X := X) (val := val) (st := s0) (bs := bs)
  obtain ⟨a3, a4⟩ := paramsOf_len (n := n) (X := X) (val := val) (st := s0) (bs := bs)
  obtain ⟨st, e0, hrun⟩ := h2 n hm hok.num hok.obs _ _ _ s0 a1 a3 (by rw [← hm]; exact a2) a4 hr.len
  subst hm e0
  obtain ⟨s', res, g1, -, g3⟩ := C79_method (inits := inits) hok he hd hF hiu hiy hip pow val hbs hprev hr hrun
  exact ⟨st, s', res, rfl, hrun, g1, g3⟩

end Juce
end Pyphs
