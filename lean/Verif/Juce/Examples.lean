/-
C79, end: examples, and effects that do not compute what is expected.
-/
import Verif.Juce.Props

namespace Pyphs
namespace Juce
open Numeric Cpp Scheme

/-! ### Small objects -/

/-- Two inputs, two outputs, two parameters: `y0 = p0 u0 + p1`, `y1 = u0 + u1`; the state is
`[u0, u1, p0, p1, y0, y1]`. -/
def toy : Plug (List ℚ) ℚ where
  setU := fun v k s => if k < 2 then some (s.set k v) else none
  setP := fun v k s => if k < 2 then some (s.set (2 + k) v) else none
  update := fun s => some ((s.set 4 (s.getD 2 0 * s.getD 0 0 + s.getD 3 0)).set 5 (s.getD 0 0 + s.getD 1 0))
  y := fun k s => if k < 2 then some (s.getD (4 + k) 0) else none

def toyStep (u p : List ℚ) (_ : List ℚ) : Option (List ℚ) :=
  some [p.getD 0 0 * u.getD 0 0 + p.getD 1 0, u.getD 0 0 + u.getD 1 0]

/-- The hypotheses of C79_block and C79_stream on the object hold for it. -/
theorem toy_sim : Sim toy toyStep id (fun t u p s => s = u ++ p ++ t ∧ u.length = 2 ∧ p.length = 2 ∧
    t.length = 2) where
  setU := by
    intro t u p s v k h hk
    obtain ⟨rfl, hu, hp, ht⟩ := h
    match u, p, t, hu, hp, ht with
    | [a, b], [c, d], [e, f], _, _, _ =>
      match k, hk with
      | 0, _ => exact ⟨_, rfl, rfl, rfl, rfl, rfl⟩
      | 1, _ => exact ⟨_, rfl, rfl, rfl, rfl, rfl⟩
  setP := by
    intro t u p s v k h hk
    obtain ⟨rfl, hu, hp, ht⟩ := h
    match u, p, t, hu, hp, ht with
    | [a, b], [c, d], [e, f], _, _, _ =>
      match k, hk with
      | 0, _ => exact ⟨_, rfl, rfl, rfl, rfl, rfl⟩
      | 1, _ => exact ⟨_, rfl, rfl, rfl, rfl, rfl⟩
  update := by
    intro t t' u p s h hs
    obtain ⟨rfl, hu, hp, ht⟩ := h
    obtain rfl := Option.some.inj hs
    match u, p, t, hu, hp, ht with
    | [a, b], [c, d], [e, f], _, _, _ =>
      refine ⟨_, rfl, ⟨rfl, rfl, rfl, rfl⟩, ?_⟩
      intro i
      match i with
      | 0 => rfl
      | 1 => rfl
      | i + 2 => simp [toy]

/-- An effect with two inputs, two outputs and two parameters. -/
def exFx : Fx := ⟨[0, 1], [0, 1], [("a", 0), ("b", 1)]⟩

theorem exFx_make : mkFx ["uL", "uR"] ["yL", "yR"] ["a", "b"] (some (["uL", "uR"], ["yL", "yR"])) none =
    some exFx := by decide +kernel

theorem exFx_host : Host exFx 2 2 where
  in1 := by decide
  in2 := by decide
  out1 := by decide
  out2 := by decide
  nin := fun _ => rfl
  nout := fun _ => rfl
  labels := by decide +kernel
  pars := by decide +kernel

/-- Sliders of an effect with two parameters. -/
def exVal (a b : ℚ) : String → ℚ := fun s => if s = "a" then a else if s = "b" then b else 0

/-- C79_stream for this object: two blocks of any lengths. -/
example (l r l' r' : List ℚ) (h : r.length = l.length) (h' : r'.length = l'.length) (a b : ℚ) :
    ∃ s' res, blocks exFx toy (fun _ => 1) 2 2 ⟨[0, 0, 0, 0, 0, 0], prepare exFx (exVal a b) fun _ => 0⟩
      [⟨exVal a b, l.length, [l, r]⟩, ⟨exVal a b, l'.length, [l', r']⟩] = some (s', res) ∧
      channel res 0 = (List.range (l.length + (l'.length + 0))).map fun i =>
        (a * ((l ++ (l' ++ [])).getD i 0 * 1) + b) * 1 := by
  obtain ⟨s', res, -, -, e, -, -, -, -, -, g⟩ := C79_stream toy_sim exFx_host (fun _ => 1) (exVal a b)
    (u := [0, 0]) (p := [0, 0]) (by decide) (by decide)
    [⟨exVal a b, l.length, [l, r]⟩, ⟨exVal a b, l'.length, [l', r']⟩]
    (s := ⟨[0, 0, 0, 0, 0, 0], prepare exFx (exVal a b) fun _ => 0⟩) (u' := [0, 0]) (p' := [0, 0])
    (tr := fun i => match i with
      | 0 => [0, 0]
      | i + 1 => [a * ((l ++ (l' ++ [])).getD i 0 * 1) + b,
          (l ++ (l' ++ [])).getD i 0 * 1 + (r ++ (r' ++ [])).getD i 0 * 1])
    (by
      intro k hk
      simp only [List.mem_cons, List.not_mem_nil, or_false] at hk
      rcases hk with rfl | rfl
      · exact ⟨fun _ _ => rfl, le_refl _, by simp [h]⟩
      · exact ⟨fun _ _ => rfl, le_refl _, by simp [h']⟩)
    (fun s hs => C79_prepare exFx_host.labels (exVal a b) _ s hs) ⟨rfl, rfl, rfl, rfl⟩ (Off.refl _ _) (Off.refl _ _)
    (fun i _ => rfl) (fun i _ k hk => by
      have : k < 2 := by revert k; decide
      exact this)
  exact ⟨s', res, e, g 0 (by decide)⟩

/-- The outputs of two blocks of four samples equal to one. The sliders `a` and `b` are moved
from 0 to 1 before the first block. -/
def exTwo (F : Fx) (nin nout : ℕ) (ch : List (List ℚ)) : Option (List (List (List ℚ))) :=
  (blocks F toy (fun _ => 1) nin nout ⟨[0, 0, 0, 0, 0, 0], prepare F (exVal 0 0) fun _ => 0⟩
    [⟨exVal 1 1, 4, ch⟩, ⟨exVal 1 1, 4, ch⟩]).map (·.2)

/-- **C79** (violated): with one parameter the slider reaches its position and stays there; with two
parameters the first one goes back to its old value at the beginning of each block. -/
theorem C79_jump :
    exTwo ⟨[0], [0], [("a", 0)]⟩ 1 1 [[1, 1, 1, 1]] = some [[[0, 1/4, 1/2, 3/4]], [[1, 1, 1, 1]]] ∧
    exTwo ⟨[0], [0], [("a", 0), ("b", 1)]⟩ 1 1 [[1, 1, 1, 1]] =
      some [[[0, 1/2, 1, 3/2]], [[1, 5/4, 3/2, 7/4]]] := by
  constructor <;> decide +kernel

/-- **C79** (violated): an effect with one input and two outputs does not compile, although its arguments are
accepted; with two inputs and one output the second channel of the host is the scaled input; a stereo effect
on a mono bus fails. -/
theorem C79_channels :
    mkFx ["uL", "uR"] ["yL", "yR"] ["a", "b"] (some (["uL"], ["yL", "yR"])) (some []) = some ⟨[0], [0, 1], []⟩ ∧
    exTwo ⟨[0], [0, 1], []⟩ 2 2 [[1, 1, 1, 1], [5, 6, 7, 8]] = none ∧
    exTwo ⟨[0, 1], [1], []⟩ 2 2 [[1, 2, 3, 4], [5, 6, 7, 8]] =
      some [[[6, 8, 10, 12], [5, 6, 7, 8]], [[6, 8, 10, 12], [5, 6, 7, 8]]] ∧
    exTwo ⟨[0, 1], [0, 1], []⟩ 1 1 [[1, 2, 3, 4]] = none := by
  refine ⟨?_, ?_, ?_, ?_⟩ <;> decide +kernel

/-- **C79** (violated): a parameter named as a gain has a slider, which is never applied. -/
theorem C79_name :
    mkFx ["u"] ["y"] ["inputGainA"] none none = some ⟨[0], [0], [("inputGainA", 0)]⟩ ∧
    (blocks (K := ℚ) ⟨[0], [0], [("inputGainA", 0)]⟩ toy (fun _ => 1) 1 1 ⟨[0, 0, 3, 0, 0, 0], fun _ => 1⟩
      [⟨fun _ => 1, 2, [[1, 1]]⟩]).map (·.2) = some [[[3, 3]]] := by
  constructor <;> decide +kernel

/-! ### The effect of a circuit -/

/-- No coefficient without arguments contains the sample rate. -/
theorem mSrc_noRate {n : Num} {F : Free} {subs : List (String × ℝ)} {fs : String} {deps : List Nm}
    (h : ∀ k i j, (∀ s ∈ F k i j, s ∉ n.all) → fs ∉ F k i j) : NoRate (mSrc n F subs fs deps) := by
  intro k f ho hf hd i hi j hj hdep
  have hF : ∃ i' j', (f.ent i j).free = F k i' j' := by
    obtain ⟨g, -, hg⟩ := Option.bind_eq_some_iff.1 (show ((fenv n k).bind fun g => toFE (F k) g (msh n k)) = some f from hf)
    cases hm : msh n k with
    | sc => rw [hm] at hg; simp [toFE] at hg
    | vec m => rw [hm] at hg; obtain rfl := Option.some.inj hg; exact ⟨i, 0, rfl⟩
    | mat r c => rw [hm] at hg; obtain rfl := Option.some.inj hg; exact ⟨i, j, rfl⟩
  obtain ⟨i', j', e⟩ := hF
  rw [e]
  apply h
  intro s hs ha
  have : (mSrc n F subs fs deps).dep (f.ent i j) = true := by
    unfold Src.dep
    rw [e]
    exact List.any_eq_true.2 ⟨s, hs, decide_eq_true ha⟩
  rw [this] at hdep
  cases hdep

/-- The hypotheses of C79_run hold together: the effect of a capacitor, a resistor and a port, for any blocks of a
mono host, prepared with the sample rate 2 in any state of an object made for another sample rate. -/
example (einv : Mat ℝ → Mat ℝ) (he : ∀ A B : Mat ℝ, A.IsInv B → A.IsInv (einv A)) (q : ℝ) (pow : ℝ → ℝ)
    (val prev : String → ℝ) (bufs : List (List ℝ)) {fsd : ℝ} {T : List Nm} {old : St Nm ℝ} {o : Obj Nm ℝ}
    (hr : Rel (mGen (Record.rcN exBase) (fun _ _ _ => ["", "a", "da", "w", "v"]) [("r", 3)] "F_S" rcDeps fsd
      [(.x, [q]), (.dx, [0]), (.w, [0]), (.u, [0])] einv) (msh (Record.rcN exBase)) T old o) :
    ∃ s0 st o' s' res,
      pyBuild (Record.rcN exBase).prog 4 [(.x, some (.v [q]))] rcDeps = some s0 ∧ st 0 = s0 ∧
      Record.Run (Record.rcN exBase) ((bufs.map fun b => (⟨val, b.length, [b]⟩ : Block ℝ)).map (·.n)).sum
        (inputsOf (Record.rcN exBase) pow ⟨[0], [0], []⟩ val s0 (bufs.map fun b => ⟨val, b.length, [b]⟩))
        (paramsOf (Record.rcN exBase) ⟨[0], [0], []⟩ val s0 (bufs.map fun b => ⟨val, b.length, [b]⟩)) st ∧
      (mGen (Record.rcN exBase) (fun _ _ _ => ["", "a", "da", "w", "v"]) [("r", 3)] "F_S" rcDeps fsd
        [(.x, [q]), (.dx, [0]), (.w, [0]), (.u, [0])] einv).setSampleRate o 2 = some o' ∧
      blocks ⟨[0], [0], []⟩ (plug (mGen (Record.rcN exBase) (fun _ _ _ => ["", "a", "da", "w", "v"]) [("r", 3)] "F_S" rcDeps 2
        [(.x, [q]), (.dx, [0]), (.w, [0]), (.u, [0])] einv) (Record.rcN exBase).eps (Record.rcN exBase).maxit
        (Record.rcN exBase).actions .u .p .y) pow 1 1 ⟨o', prepare ⟨[0], [0], []⟩ val prev⟩
        (bufs.map fun b => ⟨val, b.length, [b]⟩) = some (s', res) ∧
      channel res 0 = (List.range ((bufs.map fun b => (⟨val, b.length, [b]⟩ : Block ℝ)).map (·.n)).sum).map fun i =>
        (Record.vec (Record.rcN exBase) (st (i + 1)) .y).getD 0 0 * pow (val "outputGain1") := by
  set n := Record.rcN exBase with hn
  have hall : n.all = ["a", "da", "w", "v"] := Record.rcN_all _
  obtain ⟨s1, e1, l1, -⟩ := initLoop_ok (laidOut n) rcN_mok.num.nodup
    (inits := [(Nm.x, some (NV.v [q]))]) (st := ⟨List.replicate 4 0, fun _ => none⟩)
    (by rw [hall]; rfl) (by
      intro kv hkv
      rw [List.mem_singleton] at hkv
      subst hkv
      exact ⟨_, rfl, Numeric.sub_x n, rfl⟩)
  obtain ⟨s0, b1, b2⟩ := linear_builds rcN_mok.num Record.rc_inv l1
  have hb : pyBuild n.prog 4 [(.x, some (.v [q]))] rcDeps = some s0 := by
    unfold pyBuild initNumeric
    rw [e1]
    exact b1
  obtain ⟨a1, a2⟩ := inputsOf_len (n := n) (pow := pow) (X := ⟨[0], [0], []⟩) (val := val) (st := s0)
    (bs := bufs.map fun b => ⟨val, b.length, [b]⟩)
  obtain ⟨a3, a4⟩ := paramsOf_len (n := n) (X := ⟨[0], [0], []⟩) (val := val) (st := s0)
    (bs := bufs.map fun b => ⟨val, b.length, [b]⟩)
  obtain ⟨st, f0, hrun⟩ := Record.linear_run rcN_mok.num (by show 0 < 2; omega) rfl Record.rc_inv rfl
    a1 a3 a2 a4 (s0 := s0) (by rw [b2]; exact l1)
  have hx : n.syms .x = some ["a"] := rfl
  have hdx : n.syms .dx = some ["da"] := rfl
  have hw : n.syms .w = some ["w"] := rfl
  have hu : n.syms .u = some ["v"] := rfl
  have hmok : MOK n (fun _ _ _ => ["", "a", "da", "w", "v"]) [("r", 3)] "F_S" 2 := rcN_mok
  obtain ⟨o', s', res, g1, g2, -, g4⟩ := C79_run hmok he (deps := rcDeps)
    (by
      have h1 : n.pre = [⟨.x, .ud_x⟩, ⟨.o, .ud_o⟩, c1 .jactempFll, c1 .ijactempFll, c1 .Gl] := rfl
      have h2 : n.post = [⟨.vl, .ud_vl⟩, c1 .dxH, c1 .z, c1 .y] := rfl
      have h3 : n.nl = 0 := rfl
      rw [h1, h2, h3]; decide)
    (by
      have h3 : n.l = 2 := rfl
      intro k hk
      simp only [rcDeps, List.mem_cons, List.not_mem_nil, or_false] at hk
      rcases hk with rfl | rfl | rfl | rfl | rfl | rfl | rfl | rfl | rfl <;>
        exact ⟨rfl, by rw [h3]; simp, by simp⟩)
    (mSrc_noRate fun _ _ _ _ => by decide)
    (user := [(.x, [q])]) (extra := [(.dx, [0]), (.w, [0]), (.u, [0])])
    (by
      intro p hp
      simp only [List.cons_append, List.nil_append, List.mem_cons, List.not_mem_nil, or_false] at hp
      rcases hp with rfl | rfl | rfl | rfl <;> exact ⟨_, rfl, rfl⟩)
    (by
      have : (mSrc n (fun _ _ _ => ["", "a", "da", "w", "v"]) [("r", 3)] "F_S" rcDeps).syms = n.syms := rfl
      simp [Apart, this, hx, hdx, hw, hu])
    (by simp)
    (by rw [hall]; simp [hx, hdx, hw, hu]) (X := ⟨[0], [0], []⟩) (nin := 1) (nout := 1)
    ⟨by decide, by decide, by decide, by decide, by decide, by decide, by decide +kernel, by simp⟩
    (by intro a ha; rw [List.mem_singleton.1 ha]; show 0 < 1; omega)
    (by intro a ha; rw [List.mem_singleton.1 ha]; show 0 < 1; omega)
    (by simp) pow val (bs := bufs.map fun b => ⟨val, b.length, [b]⟩)
    (by
      intro b hb
      obtain ⟨l, -, rfl⟩ := List.mem_map.1 hb
      exact ⟨fun _ _ => rfl, le_refl _, by simp⟩) prev hr (st := st)
    (by rw [f0, hall]; exact hb) (by rw [f0]; exact hrun)
  exact ⟨s0, st, o', s', res, hb, f0, hrun, g1, g2, g4 0 (by simp)⟩

end Juce
end Pyphs
