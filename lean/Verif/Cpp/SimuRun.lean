/-
C73, end: whole simulations, from the construction of the objects; circuits; examples; what differs.
-/
import Verif.Cpp.SimuMethod
import Verif.Cpp.Run
import Verif.Circuit.TotalExamples
import Verif.Record.Examples

namespace Pyphs
namespace Cpp
open Numeric H5 Scheme

variable {n : Num} {F : Free} {subs : List (String × ℝ)} {fs : String} {fs0 : ℝ}
  {deps : List Nm} {einv : Mat ℝ → Mat ℝ}

/-- arguments.py:211-231: the initial values are written `float(...)` in the generated code. -/
def floatInits {K N : Type} (flt : K → K) (l : List (N × List K)) : List (N × List K) :=
  l.map fun p => (p.1, p.2.map flt)

theorem floatInits_eq {K N : Type} {flt : K → K} {l : List (N × List K)}
    (h : ∀ p ∈ l, ∀ a ∈ p.2, flt a = a) : floatInits flt l = l := by
  unfold floatInits
  conv_rhs => rw [← List.map_id l]
  refine List.map_congr_left fun p hp => ?_
  have : p.2.map flt = p.2 := by
    conv_rhs => rw [← List.map_id p.2]
    exact List.map_congr_left fun a ha => h p hp a ha
  rw [this]
  rfl

/-- **C73** (simulations): a simulation in Python and a simulation in C++ of the same method, with the same
initial values and the same sequences of inputs and parameters, write the same file, for every number of
steps, as soon as the updates in Python succeed; every read of the two files gives the same values.
`flt` is the conversion `float` of the initial values; it must keep them. -/
theorem C73_run (h : MOK n F subs fs fs0) (he : ∀ A B : Mat ℝ, A.IsInv B → A.IsInv (einv A))
    (hd : ∀ c ∈ n.pre ++ (if 0 < n.nl then n.imp else []) ++ n.post, c.eval ∈ deps)
    (hdeps : ∀ k ∈ deps, n.syms k = none ∧ (k = .ud_vl → 0 < n.l) ∧
      (k = .Fnl ∨ k = .ud_vnl → 0 < n.nl))
    {user extra : List (Nm × List ℝ)} {flt : ℝ → ℝ}
    (hfl : ∀ p ∈ user ++ extra, ∀ a ∈ p.2, flt a = a)
    (hok : ∀ p ∈ user ++ extra, PairOK (mSrc n F subs fs deps) p)
    (hpw : (user ++ extra).Pairwise (Apart (mSrc n F subs fs deps)))
    (hz : ∀ p ∈ extra, ∀ a ∈ p.2, a = 0)
    (hcov : ∀ s ∈ n.all, ∃ p ∈ user ++ extra, s ∈ (n.syms p.1).getD [])
    {junk : Obj Nm ℝ} (hj : junk.args.length = n.all.length) (mem : ℕ → ℝ) {nt : ℕ}
    {sequ seqp : List (List ℝ)} {st : ℕ → St Nm ℝ} (hr : Record.Run n nt sequ seqp st)
    (hb : pyBuild n.prog n.all.length (user.map fun p => (p.1, some (.v p.2))) deps = some (st 0))
    {w : Window} (hw : 1 ≤ w.step) (hstop : w.stop = nt) :
    ∃ ds o dpy s, initFile (Record.layout n) nt sequ seqp = .ok ds ∧
      (mGen n F subs fs deps fs0 (floatInits flt (user ++ extra)) einv).construct junk = some o ∧
      process (Record.layout n) w (Record.machine n) nt (st 0) ds = .ok (st nt, dpy) ∧
      mainLoop (mDevice n F subs fs deps fs0 (floatInits flt (user ++ extra)) einv) (Record.layout n) nt
        ⟨o, mem, ds⟩ = some s ∧
      SameFile dpy s.ds ∧ ∀ (w' : Window) (name : String) (t : TSel) (v : VSel),
        read (Record.layout n) w' dpy name t v = read (Record.layout n) w' s.ds name t v := by
  obtain ⟨ds, a1, a2, a3, a4, a5, -⟩ := C33_init (Record.names_nodup n) (by simp [Record.layout])
    (by simp [Record.layout]) hr.lu hr.lp
    (by intro r hm; rw [hr.du r hm, h.meth.uy]; rfl) (by intro r hm; rw [hr.dp r hm]; rfl)
  rw [floatInits_eq hfl]
  set G := mGen n F subs fs deps fs0 (user ++ extra) einv with hG
  have hpy : G.py = n.prog := mSrc_prog h
  obtain ⟨o, b1, b2⟩ := C29_construct (G := G) (Γ := msh n) (mSrc_wf h) ⟨rfl, he⟩ mSrc_args
    (fun k hk => mSrc_eval (by simp) (hdeps k hk).1 (hdeps k hk).2.1 (hdeps k hk).2.2)
    (user := user) (extra := extra) rfl hok hpw hz hcov hj (st := st 0) (by rw [hpy]; exact hb)
  have get : ∀ {l : List (List ℝ)} {i : ℕ} {r : List ℝ}, some r = l[i]? → l.getD i [] = r := by
    intro l i r e
    rw [List.getD_eq_getElem?_getD, ← e]; rfl
  obtain ⟨dpy, s, c1, c2, c3⟩ := C73_method (inits := user ++ extra) h he hd hw (ds := ds) a3
    (by rw [a2]; exact hstop) (st := st) (b2.mono fun _ hm => by simp at hm) (by
      intro i hi
      rw [a2] at hi
      rw [← get (a4 i hi), ← get (a5 i hi)]
      exact hr.step i hi) mem
  rw [a2] at c1 c2
  exact ⟨ds, o, dpy, s, a1, b1, c1, c2, c3, fun w' name t v => c3.read _ w' name t v⟩

open Circuit Graph in
/-- **C73** (circuits): for a circuit of monotone components (C67) the updates in Python always succeed, so the two
simulations exist and write the same file, for all inputs and all numbers of steps. -/
theorem C73_circuit {law : String → Env ℝ → ℝ} {fuel : ℕ} {nodes : List String}
    {edges : List (Edge ℝ)} {c c2 : Core ℝ} (h : CircuitOK nodes edges c)
    (hstat : StaticLaws law edges) (hreg : RegularCircuit law edges c.H)
    (hmon : MonotoneCircuit law edges c.H)
    (hc : toCore law fuel nodes edges c = some c2)
    (sy : Sympy) (hs : sy.OK) (cf : Config) (hjs : JacSound sy cf c2) (hfs : 0 < cf.fs)
    (hθ : cf.kind = .theta → 0 ≤ cf.θ)
    (hk : cf.kind ≠ .discret ∨
      (QuadEnergy c.H ((ofType .storage edges).map (·.label)) ∧ 0 < cf.epsdg)) :
    ∃ m, toMethod sy cf c2 = some m ∧
      ∀ (n : Num) (F : Free) (subs : List (String × ℝ)) (fs : String) (fs0 : ℝ)
        (deps : List Nm) (einv : Mat ℝ → Mat ℝ), n.m = m → MOK n F subs fs fs0 →
      (∀ A B : Mat ℝ, A.IsInv B → A.IsInv (einv A)) →
      (∀ c ∈ n.pre ++ (if 0 < n.nl then n.imp else []) ++ n.post, c.eval ∈ deps) →
      (∀ k ∈ deps, n.syms k = none ∧ (k = .ud_vl → 0 < n.l) ∧
        (k = .Fnl ∨ k = .ud_vnl → 0 < n.nl)) →
      ∀ (user extra : List (Nm × List ℝ)) (flt : ℝ → ℝ),
      (∀ p ∈ user ++ extra, ∀ a ∈ p.2, flt a = a) →
      (∀ p ∈ user ++ extra, PairOK (mSrc n F subs fs deps) p) →
      (user ++ extra).Pairwise (Apart (mSrc n F subs fs deps)) →
      (∀ p ∈ extra, ∀ a ∈ p.2, a = 0) →
      (∀ s ∈ n.all, ∃ p ∈ user ++ extra, s ∈ (n.syms p.1).getD []) →
      ∀ s0, pyBuild n.prog n.all.length (user.map fun p => (p.1, some (.v p.2))) deps = some s0 →
      ∀ (junk : Obj Nm ℝ) (mem : ℕ → ℝ) (nt : ℕ) (sequ seqp : List (List ℝ)),
      junk.args.length = n.all.length → sequ.length = nt → seqp.length = nt →
      (∀ r ∈ sequ, r.length = m.u.length) → (∀ r ∈ seqp, r.length = n.p.length) →
      ∀ (w : Window), 1 ≤ w.step → w.stop = nt →
      ∃ ds o sN dpy s, initFile (Record.layout n) nt sequ seqp = .ok ds ∧
        (mGen n F subs fs deps fs0 (floatInits flt (user ++ extra)) einv).construct junk = some o ∧
        process (Record.layout n) w (Record.machine n) nt s0 ds = .ok (sN, dpy) ∧
        mainLoop (mDevice n F subs fs deps fs0 (floatInits flt (user ++ extra)) einv)
          (Record.layout n) nt ⟨o, mem, ds⟩ = some s ∧ SameFile dpy s.ds := by
  obtain ⟨m, h1, h2⟩ := C67_circuit h hstat hreg hmon hc sy hs cf hjs hfs hθ hk
  refine ⟨m, h1, ?_⟩
  intro n F subs fs fs0 deps einv hm hok he hd hdeps user extra flt hfl hpo hpw hz hcov s0 hb junk mem
    nt sequ seqp hj lu lp du dp w hw hstop
  have hl0 : s0.args.length = n.all.length := by
    obtain ⟨o, -, r⟩ := C29_construct (G := mGen n F subs fs deps fs0 (user ++ extra) einv)
      (Γ := msh n) (mSrc_wf hok) ⟨rfl, he⟩ mSrc_args
      (fun k hk => mSrc_eval (by simp) (hdeps k hk).1 (hdeps k hk).2.1 (hdeps k hk).2.2)
      (user := user) (extra := extra) rfl hpo hpw hz hcov hj (st := s0) (by
        have : (mGen n F subs fs deps fs0 (user ++ extra) einv).py = n.prog := mSrc_prog hok
        rw [this]; exact hb)
    exact r.len
  obtain ⟨st, e0, hr⟩ := h2 n hm hok.num hok.obs nt sequ seqp s0 lu lp du dp hl0
  obtain ⟨ds, o, dpy, s, g1, g2, g3, g4, g5, -⟩ := C73_run hok he hd hdeps hfl hpo hpw hz hcov hj mem hr
    (by rw [e0]; exact hb) hw hstop
  rw [e0] at g3
  exact ⟨ds, o, _, dpy, s, g1, g2, g3, g4, g5⟩

/-! ### Example -/

/-- The evaluations at the construction of a `Numeric` without implicit equations to iterate. -/
theorem linear_builds {n : Num} (hn : n.WF) 
    (hinv : ∀ e, ∃ B, (n.m.J .l .l e).inv = some B) {s0 : St Nm ℝ}
    (hl0 : s0.args.length = n.all.length) :
    ∃ st, [Nm.ud_x, .ud_o, .jactempFll, .ijactempFll, .Gl, .ud_vl, .dxH, .z, .y].foldlM (fun st k => do
      some { st with vals := Function.update st.vals k (some (← n.prog.eval st k)) }) s0 = some st ∧
      st.args = s0.args := by
  have gx := get_arg (base := n.base) (laidOut n) hn.nodup hl0 (n := Nm.x) rfl (Numeric.sub_x n)
  have gdx := get_arg (base := n.base) (laidOut n) hn.nodup hl0 (n := Nm.dx) rfl (Numeric.sub_dx n)
  have step : ∀ {l : List Nm} {st : St Nm ℝ} {k : Nm} {v : NV ℝ}, n.prog.eval st k = some v →
      (k :: l).foldlM (fun st k => do
        some { st with vals := Function.update st.vals k (some (← n.prog.eval st k)) }) st =
      l.foldlM (fun st k => do
        some { st with vals := Function.update st.vals k (some (← n.prog.eval st k)) })
        ⟨st.args, Function.update st.vals k (some v)⟩ := by
    intro l st k v h
    rw [List.foldlM_cons, h]
    rfl
  have h1 : ∃ v, n.prog.eval s0 .ud_x = some v := by
    refine ⟨.v (List.zipWith (· + ·) (n.m.g.x.map (n.E s0)) ((n.m.g.x.map dn).map (n.E s0))), ?_⟩
    show n.prog.evalOp s0 (.add (.ref .x) (.ref .dx)) = _
    simp only [Prog.evalOp, gx, gdx, Option.bind_eq_bind, Option.bind_some, NV.pointwise]
    rw [if_pos (by simp)]
    rfl
  obtain ⟨v1, h1⟩ := h1
  rw [step h1, step (v := .v (n.obs.map fun f => f (n.env s0.args))) rfl,
    step (v := .m (n.m.J .l .l (n.env s0.args))) rfl]
  obtain ⟨B, hB⟩ := hinv (n.env s0.args)
  have hI := Mat.inv_isInv hB
  rw [step (v := .m B) (by
    show n.prog.evalOp _ (.inv (.ref .jactempFll)) = _
    have g : ∀ a f, n.prog.get ⟨a, Function.update f .jactempFll
        (some (.m (n.m.J .l .l (n.env s0.args))))⟩ .jactempFll =
        some (.m (n.m.J .l .l (n.env s0.args))) := by
      intro a f
      rw [Numeric.get_val rfl]
      simp
    simp only [Prog.evalOp, g, Option.bind_eq_bind, Option.bind_some, NV.inv, hB, Option.map_some])]
  rw [step (v := .v (vlist n.l fun i => n.m.G .l i (n.env s0.args))) rfl]
  rw [step (v := .v (vlist n.l (B.mv fun j => -1 * n.m.G .l j (n.env s0.args)))) (by
    show n.prog.evalOp _ (.dot (.ref .ijactempFll) (.dot (.num (-1)) (.ref .Gl))) = _
    have g : ∀ a f v, n.prog.get ⟨a, Function.update f .Gl v⟩ .Gl = v := by
      intro a f v
      rw [Numeric.get_val rfl]
      simp
    have g' : ∀ a f v v', n.prog.get ⟨a, Function.update (Function.update f .ijactempFll v) .Gl v'⟩
        .ijactempFll = v := by
      intro a f v v'
      rw [Numeric.get_val rfl]
      simp
    simp only [Prog.evalOp, g, g', Option.bind_eq_bind, Option.bind_some]
    rw [dot_neg B n.l _ hI.2.1 hI.2.2.1])]
  rw [step (v := .v (n.m.dxH.map fun f => f (n.env s0.args))) rfl,
    step (v := .v (n.m.z.map fun f => f (n.env s0.args))) rfl,
    step (v := .v (n.m.out (n.env s0.args))) rfl]
  exact ⟨_, rfl, rfl⟩

/-- The circuit of `rcN`, with a parameter `r` and the sample rate. -/
theorem rcN_dep (b : Env ℝ) : MDep (Record.rcN b) ["", "a", "da", "w", "v"] where
  dxH := by
    intro f hf e
    have : (Record.rcN b).m.dxH = [fun e => e "a" + 1 / 2 * e "da"] := rfl
    rw [this, List.mem_singleton] at hf
    subst hf
    simp [restrict]
  z := by
    intro f hf e
    have : (Record.rcN b).m.z = [fun e => 2 * e "w"] := rfl
    rw [this, List.mem_singleton] at hf
    subst hf
    simp [restrict]
  M := fun _ => rfl
  obs := by intro f hf; exact absurd hf (by simp [Record.rcN])
  v := by
    have : (Record.rcN b).m.v .all = ["da", "w"] := Record.rc_v
    rw [this]; decide
  u := by
    have : (Record.rcN b).m.u = ["v"] := rfl
    rw [this]; decide
  nil := by decide

theorem rcN_mok : MOK (Record.rcN exBase) (fun _ _ _ => ["", "a", "da", "w", "v"]) [("r", 3)] "F_S" 2 :=
  mok (Record.rcN_wf _) Record.rc_wf rfl (rcN_dep _) (by decide) (by rw [Record.rcN_all]; decide) rfl

/-- Names in the order of their evaluation. -/
def rcDeps : List Nm := [.ud_x, .ud_o, .jactempFll, .ijactempFll, .Gl, .ud_vl, .dxH, .z, .y]

/-- The hypotheses of C73_run hold together: the two simulations of a capacitor, a resistor and a port, from an
initial charge and for any inputs. -/
example (einv : Mat ℝ → Mat ℝ) (he : ∀ A B : Mat ℝ, A.IsInv B → A.IsInv (einv A)) (q : ℝ)
    (flt : ℝ → ℝ) (hq : flt q = q) (h0 : flt 0 = 0) (v : List ℝ) (mem : ℕ → ℝ)
    (junk : Obj Nm ℝ) (hj : junk.args.length = 4) :
    ∃ s0 sN ds o dpy s,
      pyBuild (Record.rcN exBase).prog 4 [(.x, some (.v [q]))] rcDeps = some s0 ∧
      initFile (Record.layout (Record.rcN exBase)) v.length (v.map fun a => [a])
        (List.replicate v.length []) = .ok ds ∧
      (mGen (Record.rcN exBase) (fun _ _ _ => ["", "a", "da", "w", "v"]) [("r", 3)] "F_S" rcDeps 2
        (floatInits flt [(.x, [q]), (.dx, [0]), (.w, [0]), (.u, [0])]) einv).construct junk = some o ∧
      process (Record.layout (Record.rcN exBase)) ⟨0, v.length, 1⟩ (Record.machine (Record.rcN exBase))
        v.length s0 ds = .ok (sN, dpy) ∧
      mainLoop (mDevice (Record.rcN exBase) (fun _ _ _ => ["", "a", "da", "w", "v"]) [("r", 3)] "F_S" rcDeps 2
        (floatInits flt [(.x, [q]), (.dx, [0]), (.w, [0]), (.u, [0])]) einv)
        (Record.layout (Record.rcN exBase)) v.length ⟨o, mem, ds⟩ = some s ∧ SameFile dpy s.ds := by
  set n := Record.rcN exBase with hn
  have hall : n.all = ["a", "da", "w", "v"] := Record.rcN_all _
  obtain ⟨s1, e1, l1, -⟩ := initLoop_ok (laidOut n) rcN_mok.num.nodup
    (inits := [(Nm.x, some (NV.v [q]))]) (st := ⟨List.replicate 4 0, fun _ => none⟩)
    (by rw [hall]; rfl) (by
      intro kv hkv
      rw [List.mem_singleton] at hkv
      subst hkv
      exact ⟨_, rfl, Numeric.sub_x n, rfl⟩)
  obtain ⟨s0, b1, b2⟩ := linear_builds rcN_mok.num Record.rc_inv l1
  have hb : pyBuild n.prog 4 [(.x, some (.v [q]))] rcDeps = some s0 := by
    unfold pyBuild initNumeric
    rw [e1]
    exact b1
  obtain ⟨st, f0, hr⟩ := Record.linear_run rcN_mok.num (by show 0 < 2; omega) rfl Record.rc_inv rfl
    (nt := v.length) (sequ := v.map fun a => [a]) (seqp := List.replicate v.length []) (by simp) (by simp)
    (by
      intro r hr
      obtain ⟨a, -, rfl⟩ := List.mem_map.1 hr
      rfl)
    (by
      intro r hr
      rw [List.eq_of_mem_replicate hr]
      rfl)
    (s0 := s0) (by rw [b2]; exact l1)
  have hx : n.syms .x = some ["a"] := rfl
  have hdx : n.syms .dx = some ["da"] := rfl
  have hw : n.syms .w = some ["w"] := rfl
  have hu : n.syms .u = some ["v"] := rfl
  have hmok : MOK n (fun _ _ _ => ["", "a", "da", "w", "v"]) [("r", 3)] "F_S" 2 := rcN_mok
  obtain ⟨ds, o, dpy, s, g1, g2, g3, g4, g5, -⟩ := C73_run hmok he (deps := rcDeps)
    (by
      have h1 : n.pre = [⟨.x, .ud_x⟩, ⟨.o, .ud_o⟩, c1 .jactempFll, c1 .ijactempFll, c1 .Gl] := rfl
      have h2 : n.post = [⟨.vl, .ud_vl⟩, c1 .dxH, c1 .z, c1 .y] := rfl
      have h3 : n.nl = 0 := rfl
      rw [h1, h2, h3]; decide)
    (by
      have h3 : n.l = 2 := rfl
      intro k hk
      simp only [rcDeps, List.mem_cons, List.not_mem_nil, or_false] at hk
      rcases hk with rfl | rfl | rfl | rfl | rfl | rfl | rfl | rfl | rfl <;>
        exact ⟨rfl, by rw [h3]; simp, by simp⟩)
    (user := [(.x, [q])]) (extra := [(.dx, [0]), (.w, [0]), (.u, [0])]) (flt := flt)
    (by simp [hq, h0])
    (by
      intro p hp
      simp only [List.cons_append, List.nil_append, List.mem_cons, List.not_mem_nil, or_false] at hp
      rcases hp with rfl | rfl | rfl | rfl <;> exact ⟨_, rfl, rfl⟩)
    (by
      have : (mSrc n (fun _ _ _ => ["", "a", "da", "w", "v"]) [("r", 3)] "F_S" rcDeps).syms = n.syms := rfl
      simp [Apart, this, hx, hdx, hw, hu])
    (by simp)
    (by rw [hall]; simp [hx, hdx, hw, hu]) (by rw [hall]; exact hj) mem hr
    (by rw [f0, hall]; exact hb) (w := ⟨0, v.length, 1⟩) (le_refl _) rfl
  rw [f0] at g3
  exact ⟨s0, _, ds, o, dpy, s, hb, g1, g2, g3, g4, g5⟩

/-! ### What differs -/

def exLay : Layout := ⟨["u", "p", "x"], fun s => if s = "p" then 0 else 1⟩

/-- Code generated for the initial values `x = a`, converted with `flt`. -/
noncomputable def exFl (flt : ℚ → ℚ) (a : ℚ) : Gen String ℚ :=
  { src := exS, tab := [[3]], fs0 := 2, inits := floatInits flt [("x", [a]), ("dx", [0]), ("u", [0])]
    sqrt := id, einv := fun A => A.inv.getD A }

/-- The example of C29 as an object simulated in Python. -/
noncomputable def exMach : Machine (St String ℚ) ℚ where
  upd := fun s u p => ((exFl id 0).py.update 0 0 exActs "u" "p" 1 0 (some u) (some p) s).getD s
  vecs := fun s => [("x", [s.args.getD 0 0])]

/-- The column of `x` of the file of the simulation in Python. -/
noncomputable def exPy (stop : ℤ) (a : ℚ) (us : List ℚ) : Option (List ℚ) := do
  let st ← pyBuild (exFl id a).py 3 [("x", some (.v [a]))] exS.deps
  let ds ← (initFile exLay us.length (us.map fun u => [u]) (List.replicate us.length [])).toOption
  let r ← (process exLay ⟨0, stop, 1⟩ exMach us.length st ds).toOption
  some ((List.range us.length).map fun i => r.2.e i 1)

/-- The column of `x` of the file of the simulation in C++. -/
noncomputable def exCpp (flt : ℚ → ℚ) (a : ℚ) (us : List ℚ) : Option (List ℚ) := do
  let o ← (exFl flt a).construct ⟨[7, 8, 9], 0, fun _ => .s 0⟩
  let ds ← (initFile exLay us.length (us.map fun u => [u]) (List.replicate us.length [])).toOption
  let s ← mainLoop ((exFl flt a).device 0 0 exActs id) exLay us.length ⟨o, fun _ => 0, ds⟩
  some ((List.range us.length).map fun i => s.ds.e i 1)

/-- **C73** (load window): Python simulates the samples before `stop` only, C++ all of them. -/
theorem C73_stop : exPy 3 5 [1, 2, 3] = some [5, 1, 11] ∧ exCpp id 5 [1, 2, 3] = some [5, 1, 11] ∧
    exPy 2 5 [1, 2, 3] = some [5, 1, 0] := by
  refine ⟨?_, ?_, ?_⟩ <;> decide +kernel

/-- **C73** (initial values): the C++ simulation starts from the initial values in single precision. The value of
`float(0.1)` is `13421773 / 2^27`. -/
theorem C73_float : exPy 1 (1 / 10) [1] = some [1 / 10] ∧
    exCpp (fun a => if a = 1 / 10 then 13421773 / 2 ^ 27 else a) (1 / 10) [1] = some [13421773 / 2 ^ 27] := by
  constructor <;> decide +kernel

end Cpp
end Pyphs
