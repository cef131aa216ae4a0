/-
Example for C83: the two simulations of a circuit with a constant source.
-/
import Verif.Const.CppSimu
import Verif.Const.Examples

namespace Pyphs
namespace Cpp
open Numeric H5 Scheme

/-- The parameters of the circuit and its constant source. -/
def rcSubs (c : ℝ) : List (String × ℝ) := [("r", 3), ("v", c)]

theorem rc_params (c : ℝ) : params (Record.rcN exBase) (rcSubs c) = [("r", 3)] := by
  unfold params rcSubs
  rw [Record.rcN_all]
  simp

theorem rc_consts (c : ℝ) : consts (Record.rcN exBase) (rcSubs c) = [("v", c)] := by
  unfold consts rcSubs
  rw [Record.rcN_all]
  simp

theorem rc_const_ok (c : ℝ) :
    ConstOK (Record.rcN exBase) (fun _ _ _ => ["", "a", "da", "w", "v"]) (rcSubs c) "F_S" 2 where
  mok := by rw [rc_params]; exact rcN_mok
  up := by
    rw [rc_consts]
    intro q hq
    rw [List.mem_singleton.1 hq]
    show "v" ∈ ["v"] ++ []
    simp

/-- The hypotheses of `C83_cpp_run` hold together: a capacitor, a resistor and a constant source `c`, from an
initial charge `q`, whatever is given as input. -/
example (einv : Mat ℝ → Mat ℝ) (he : ∀ A B : Mat ℝ, A.IsInv B → A.IsInv (einv A)) (q c : ℝ)
    (flt : ℝ → ℝ) (hq : flt q = q) (h0 : flt 0 = 0) (v : List ℝ) (mem : ℕ → ℝ)
    (junk : Obj Nm ℝ) (hj : junk.args.length = 4) :
    ∃ s0 sN ds o dpy s,
      pyBuild ((Record.rcN exBase).constProg [("v", c)]) 4 [(.x, some (.v [q]))] rcDeps = some s0 ∧
      initFile (Record.layout (Record.rcN exBase)) v.length (v.map fun a => [a])
        (List.replicate v.length []) = .ok ds ∧
      (mGen (Record.rcN exBase) (fun _ _ _ => ["", "a", "da", "w", "v"]) [("r", 3), ("v", c)] "F_S" rcDeps 2
        (floatInits flt [(.x, [q]), (.dx, [0]), (.w, [0]), (.u, [0])]) einv).construct junk = some o ∧
      process (Record.layout (Record.rcN exBase)) ⟨0, v.length, 1⟩
        (Record.constMachine (Record.rcN exBase) [("v", c)]) v.length s0 ds = .ok (sN, dpy) ∧
      mainLoop (mDevice (Record.rcN exBase) (fun _ _ _ => ["", "a", "da", "w", "v"]) [("r", 3), ("v", c)] "F_S"
        rcDeps 2 (floatInits flt [(.x, [q]), (.dx, [0]), (.w, [0]), (.u, [0])]) einv)
        (Record.layout (Record.rcN exBase)) v.length ⟨o, mem, ds⟩ = some s ∧ SameFile dpy s.ds := by
  set n := Record.rcN exBase with hn
  have hc := rc_const_ok c
  rw [← hn] at hc
  have hcs : consts n (rcSubs c) = [("v", c)] := rc_consts c
  have hall : n.all = ["a", "da", "w", "v"] := Record.rcN_all _
  have hup := hc.up
  rw [hcs] at hup
  obtain ⟨s1, e1, l1, -⟩ := initLoop_ok (laidOut n) rcN_mok.num.nodup
    (inits := [(Nm.x, some (NV.v [q]))]) (st := ⟨List.replicate 4 0, fun _ => none⟩)
    (by rw [hall]; rfl) (by
      intro kv hkv
      rw [List.mem_singleton] at hkv
      subst hkv
      exact ⟨_, rfl, Numeric.sub_x n, rfl⟩)
  obtain ⟨s0', b1, b2⟩ := linear_builds rcN_mok.num Record.rc_inv
    (s0 := hold n [("v", c)] s1) ((mask_length _ _).trans l1)
  have M := masked rcN_mok.num hup
  have hfold := foldlM_mask (m := maskSt (slots n [("v", c)]))
    (I := fun s : St Nm ℝ => s.args.length = n.all.length) (l := rcDeps)
    (f := fun st k => do
      some { st with vals := Function.update st.vals k (some (← (n.constProg [("v", c)]).eval st k)) })
    (g := fun st k => do
      some { st with vals := Function.update st.vals k (some (← n.prog.eval st k)) })
    (by
      intro s hs k _
      show (n.prog.eval (maskSt (slots n [("v", c)]) s) k).bind _ =
        (((n.constProg [("v", c)]).eval s k).bind _).map _
      rw [M.eval hs k]
      cases (n.constProg [("v", c)]).eval s k <;> rfl)
    (by
      intro s s' k hs hk
      obtain ⟨v, -, hv⟩ := Option.bind_eq_some_iff.1 hk
      cases hv
      exact hs)
    (s := s1) l1
  rw [show (rcDeps.foldlM _ (maskSt (slots n [("v", c)]) s1)) = _ from b1] at hfold
  obtain ⟨s0, f1, -⟩ := Option.map_eq_some_iff.1 hfold.symm
  have hl0 : s0.args.length = n.all.length :=
    foldlM_inv (I := fun s : St Nm ℝ => s.args.length = n.all.length)
      (by
        intro s s' k hs hk
        obtain ⟨v, -, hv⟩ := Option.bind_eq_some_iff.1 hk
        cases hv
        exact hs) l1 f1
  have hb : pyBuild (n.constProg [("v", c)]) 4 [(.x, some (.v [q]))] rcDeps = some s0 := by
    unfold pyBuild initNumeric
    rw [initLoop_const, e1]
    exact f1
  obtain ⟨st, f0, hr⟩ := Record.const_run rcN_mok.num (by show 0 < 2; omega) rfl Record.rc_inv rfl hup
    (nt := v.length) (sequ := v.map fun a => [a]) (seqp := List.replicate v.length []) (by simp) (by simp)
    (by
      intro r hr
      obtain ⟨a, -, rfl⟩ := List.mem_map.1 hr
      rfl)
    (by
      intro r hr
      rw [List.eq_of_mem_replicate hr]
      rfl)
    (s0 := s0) hl0
  have hx : n.syms .x = some ["a"] := rfl
  have hdx : n.syms .dx = some ["da"] := rfl
  have hw : n.syms .w = some ["w"] := rfl
  have hu : n.syms .u = some ["v"] := rfl
  rw [← hcs] at hr hb
  obtain ⟨ds, o, dpy, s, g1, g2, g3, g4, g5, -⟩ := C83_cpp_run hc he (deps := rcDeps)
    (by
      have h1 : n.pre = [⟨.x, .ud_x⟩, ⟨.o, .ud_o⟩, c1 .jactempFll, c1 .ijactempFll, c1 .Gl] := rfl
      have h2 : n.post = [⟨.vl, .ud_vl⟩, c1 .dxH, c1 .z, c1 .y] := rfl
      have h3 : n.nl = 0 := rfl
      rw [h1, h2, h3]; decide)
    (by
      have h3 : n.l = 2 := rfl
      intro k hk
      simp only [rcDeps, List.mem_cons, List.not_mem_nil, or_false] at hk
      rcases hk with rfl | rfl | rfl | rfl | rfl | rfl | rfl | rfl | rfl <;>
        exact ⟨rfl, by rw [h3]; simp, by simp⟩)
    (user := [(.x, [q])]) (extra := [(.dx, [0]), (.w, [0]), (.u, [0])]) (flt := flt)
    (by simp [hq, h0])
    (by
      intro p hp
      simp only [List.cons_append, List.nil_append, List.mem_cons, List.not_mem_nil, or_false] at hp
      rcases hp with rfl | rfl | rfl | rfl <;> exact ⟨_, rfl, rfl⟩)
    (by
      have : (mSrc n (fun _ _ _ => ["", "a", "da", "w", "v"]) (rcSubs c) "F_S" rcDeps).syms = n.syms := rfl
      simp [Apart, this, hx, hdx, hw, hu])
    (by simp)
    (by rw [hall]; simp [hx, hdx, hw, hu]) (by rw [hall]; exact hj) mem hr
    (by rw [f0, hall]; exact hb) (w := ⟨0, v.length, 1⟩) (le_refl _) rfl
  rw [f0, hcs] at g3
  rw [hcs] at hb
  exact ⟨s0, _, ds, o, dpy, s, hb, g1, g2, g3, g4, g5⟩

end Cpp
end Pyphs
