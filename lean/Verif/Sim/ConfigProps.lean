import Verif.Sim.Config
import Mathlib.Algebra.Order.Ring.Int

/-!
# C37: configuration keys
-/

namespace Pyphs
namespace Sim

variable {α : Type}

/-! ### Dictionaries -/

theorem get_set (d : Dict α) (k k' : String) (v : Val α) :
    get (set d k v) k' = if k' = k then some v else get d k' := by
  induction d with
  | nil => simp [set, get]
  | cons kv d ih =>
    obtain ⟨a, b⟩ := kv
    unfold set
    by_cases h : k = a
    · subst h
      rw [if_pos rfl]
      unfold get
      by_cases h' : k' = k <;> simp [h']
    · rw [if_neg h]
      unfold get
      rw [ih]
      by_cases h' : k' = a
      · subst h'; rw [if_pos rfl, if_neg (fun e => h e.symm), if_pos rfl]
      · rw [if_neg h', if_neg h']

theorem get_update (d e : Dict α) (k : String) :
    get (update d e) k = (get e k).or (get d k) := by
  induction e with
  | nil => simp [update, get]
  | cons kv e ih =>
    obtain ⟨a, b⟩ := kv
    show get (set (update d e) a b) k = _
    rw [get_set, ih]
    by_cases h : k = a <;> simp [get, h]

theorem get_isSome (d : Dict α) (k : String) : (get d k).isSome ↔ k ∈ keys d := by
  induction d with
  | nil => simp [get, keys]
  | cons kv d ih =>
    obtain ⟨a, b⟩ := kv
    unfold get
    show _ ↔ k ∈ a :: keys d
    by_cases h : k = a
    · simp [h]
    · rw [if_neg h, ih]; simp [h]

theorem get_none (d : Dict α) (k : String) : get d k = none ↔ k ∉ keys d := by
  rw [← get_isSome]; cases get d k <;> simp

theorem mem_keys_update (d e : Dict α) (k : String) :
    k ∈ keys (update d e) ↔ k ∈ keys e ∨ k ∈ keys d := by
  rw [← get_isSome, ← get_isSome, ← get_isSome, get_update]
  cases get e k <;> simp

theorem restrict_ok (d : Dict α) : ∀ {ks : List String}, (∀ k ∈ ks, k ∈ keys d) →
    ∃ r, restrict d ks = some r := by
  intro ks
  induction ks with
  | nil => intro _; exact ⟨[], rfl⟩
  | cons k ks ih =>
    intro h
    obtain ⟨r, hr⟩ := ih fun k' hk' => h k' (by simp [hk'])
    obtain ⟨v, hv⟩ := Option.isSome_iff_exists.1 ((get_isSome d k).2 (h k (by simp)))
    exact ⟨(k, v) :: r, by simp [restrict, hv, hr]⟩

theorem get_restrict {d : Dict α} : ∀ {ks : List String} {r : Dict α}, restrict d ks = some r →
    keys r = ks ∧ ∀ k, get r k = if k ∈ ks then get d k else none := by
  intro ks
  induction ks with
  | nil =>
    intro r h
    obtain rfl : [] = r := by simpa [restrict] using h
    exact ⟨rfl, fun k => by simp [get]⟩
  | cons k ks ih =>
    intro r h
    unfold restrict at h
    cases hv : get d k with
    | none => simp [hv] at h
    | some v =>
      cases hr : restrict d ks with
      | none => simp [hv, hr] at h
      | some r' =>
        obtain rfl : (k, v) :: r' = r := by simpa [hv, hr] using h
        obtain ⟨h1, h2⟩ := ih hr
        refine ⟨by simp [keys] at h1 ⊢; exact h1, ?_⟩
        intro k'
        show (if k' = k then some v else get r' k') = _
        by_cases hk : k' = k
        · simp [hk, hv]
        · rw [if_neg hk, h2]; simp [hk]

/-! ### Keys and values -/

theorem unknown_iff (d cfg : Dict α) : unknown d cfg = true ↔ ∃ k ∈ keys cfg, k ∉ keys d := by
  unfold unknown; simp

/-- C37. Methods and numerical objects: unknown keys are rejected, the other options override the
defaults, and every existing dictionary, in particular the defaults, is unchanged. -/
theorem C37_configure (h : Heap α) (base : ℕ) (cfg : Dict α) :
    ((configure h base cfg).2 = .error .attribute ↔ ∃ k ∈ keys cfg, k ∉ keys (h.mem base)) ∧
    (∀ a < h.next, (configure h base cfg).1.mem a = h.mem a) ∧
    ((∀ k ∈ keys cfg, k ∈ keys (h.mem base)) → (configure h base cfg).2 = .ok h.next ∧
      (configure h base cfg).1.next = h.next + 1 ∧
      ∀ k, get ((configure h base cfg).1.mem h.next) k = (get cfg k).or (get (h.mem base) k)) := by
  have hm : (h.copy base).1.mem (h.copy base).2 = h.mem base := by
    simp [Heap.copy, Heap.alloc]
  unfold configure
  dsimp only
  rw [hm]
  by_cases hu : unknown (h.mem base) cfg = true
  · rw [if_pos hu]
    rw [unknown_iff] at hu
    refine ⟨by simp [hu], ?_, ?_⟩
    · intro a ha
      simp [Heap.copy, Heap.alloc, Function.update_of_ne (Nat.ne_of_lt ha)]
    · intro hall
      obtain ⟨k, h1, h2⟩ := hu
      exact absurd (hall k h1) h2
  · rw [if_neg hu]
    rw [unknown_iff] at hu
    refine ⟨by simp only [reduceCtorEq, false_iff]; exact hu, ?_, ?_⟩
    · intro a ha
      simp [Heap.copy, Heap.alloc, Heap.upd, Function.update_of_ne (Nat.ne_of_lt ha)]
    · intro _
      refine ⟨rfl, rfl, ?_⟩
      intro k
      simp [Heap.copy, Heap.alloc, Heap.upd, get_update]

/-- The options of a simulation before those of the user, by decreasing priority: the method, the
C++ options, the method defaults, the numerical defaults, the simulation defaults. -/
def baseGet (h : Heap α) (met : ℕ) (k : String) : Option (Val α) :=
  (get (h.mem met) k).or ((get (h.mem CPP) k).or ((get (h.mem MET) k).or
    ((get (h.mem NUM) k).or (get (h.mem SIM) k))))

theorem upd_mem (h : Heap α) (a : ℕ) (e : Dict α) (b : ℕ) :
    (h.upd a e).mem b = if b = a then update (h.mem a) e else h.mem b := by
  unfold Heap.upd
  by_cases hb : b = a
  · subst hb; simp
  · simp [hb]

theorem copy_mem (h : Heap α) (a b : ℕ) :
    (h.copy a).1.mem b = if b = h.next then h.mem a else h.mem b := by
  unfold Heap.copy Heap.alloc
  by_cases hb : b = h.next
  · subst hb; simp
  · simp [hb]

/-- C37. Simulations: a key that is neither a default nor an option of the method is rejected; the
others override; every existing dictionary is unchanged. -/
theorem C37_simulation (h : Heap α) (met : ℕ) (cfg : Dict α) (hn : 5 ≤ h.next) (hm : met < h.next) :
    ((simConfig h met cfg).2 = .error .attribute ↔ ∃ k ∈ keys cfg, baseGet h met k = none) ∧
    (∀ a < h.next, (simConfig h met cfg).1.mem a = h.mem a) ∧
    (simConfig h met cfg).1.next = h.next + 1 ∧
    ((∀ k ∈ keys cfg, baseGet h met k ≠ none) → (simConfig h met cfg).2 = .ok h.next ∧
      ∀ k, get ((simConfig h met cfg).1.mem h.next) k = (get cfg k).or (baseGet h met k)) := by
  have n0 : NUM ≠ h.next := by unfold NUM; omega
  have n1 : MET ≠ h.next := by unfold MET; omega
  have n3 : CPP ≠ h.next := by unfold CPP; omega
  have nm : met ≠ h.next := by omega
  have haddr : (h.copy SIM).2 = h.next := rfl
  let h1 := (h.copy SIM).1.upd h.next ((h.copy SIM).1.mem NUM)
  let h2 := h1.upd h.next (h1.mem MET)
  let h3 := h2.upd h.next (h2.mem CPP)
  let h4 := h3.upd h.next (h3.mem met)
  have ho : ∀ b, b ≠ h.next → h4.mem b = h.mem b := by
    intro b hb
    simp [h4, h3, h2, h1, upd_mem, copy_mem, hb]
  have hg : ∀ k, get (h4.mem h.next) k = baseGet h met k := by
    intro k
    simp [h4, h3, h2, h1, upd_mem, copy_mem, n0, n1, n3, nm, get_update, baseGet]
  have hnext : h4.next = h.next + 1 := rfl
  have hk : ∀ k, k ∈ keys (h4.mem h.next) ↔ baseGet h met k ≠ none := by
    intro k
    rw [← get_isSome, hg]
    cases baseGet h met k <;> simp
  have hs : simConfig h met cfg = if unknown (h4.mem h.next) cfg then (h4, .error .attribute)
      else (h4.upd h.next cfg, .ok h.next) := rfl
  rw [hs]
  by_cases hu : unknown (h4.mem h.next) cfg = true
  · rw [if_pos hu]
    rw [unknown_iff] at hu
    obtain ⟨k, hk1, hk2⟩ := hu
    rw [hk, not_not] at hk2
    refine ⟨by simp only [true_iff]; exact ⟨k, hk1, hk2⟩, fun a ha => ho a (by omega), hnext, ?_⟩
    intro hall
    exact absurd hk2 (hall k hk1)
  · rw [if_neg hu]
    rw [unknown_iff] at hu
    refine ⟨?_, ?_, hnext, ?_⟩
    · simp only [reduceCtorEq, false_iff]
      rintro ⟨k, hk1, hk2⟩
      exact hu ⟨k, hk1, by rw [hk, not_not]; exact hk2⟩
    · intro a ha
      show (h4.upd h.next cfg).mem a = _
      rw [upd_mem, if_neg (by omega), ho a (by omega)]
    · intro _
      refine ⟨rfl, ?_⟩
      intro k
      show get ((h4.upd h.next cfg).mem h.next) k = _
      rw [upd_mem, if_pos rfl, get_update, hg]

/-! ### The defaults along a session -/

/-- The dictionary `config['load']` of these options is not protected. -/
def LoadOk (S : ℕ → Prop) (d : Dict α) : Prop := ∀ l, get d "load" = some (.ref l) → ¬S l

/-- Invariant of a session: the protected dictionaries are unchanged, and no simulation refers to
them. -/
structure Inv (S : ℕ → Prop) (h0 : Heap α) (w : World α) : Prop where
  mem : ∀ a, S a → w.heap.mem a = h0.mem a
  lt : ∀ a, S a → a < w.heap.next
  next : 5 ≤ w.heap.next
  sims : ∀ s ∈ w.sims, ¬S s.cfg ∧ s.cfg < w.heap.next ∧ LoadOk S (w.heap.mem s.cfg)
  mets : ∀ a ∈ w.methods, a < w.heap.next ∧ get (w.heap.mem a) "load" = none

/-- Conditions on the operations: the `'load'` dictionaries given by the user are not protected, and
the default one is not either unless the user gives one. -/
def OpOk (S : ℕ → Prop) (h0 : Heap α) : Op α → Prop
  | .method _ => True
  | .sim _ cfg => LoadOk S cfg ∧ (get cfg "load" = none → LoadOk S (h0.mem SIM))
  | .load _ k _ => k ≠ "load"
  | .init _ cfg _ => LoadOk S cfg

/-- The protected set contains the four default dictionaries of options, in which `'load'` appears
only among the options of simulations. -/
structure Base (S : ℕ → Prop) (h0 : Heap α) : Prop where
  num : S NUM
  met : S MET
  sim : S SIM
  cpp : S CPP
  numLoad : get (h0.mem NUM) "load" = none
  metLoad : get (h0.mem MET) "load" = none
  cppLoad : get (h0.mem CPP) "load" = none
  simLoad : "load" ∈ keys (h0.mem SIM)

/-- A change of the heap that keeps the existing dictionaries, but those at unprotected addresses, in
which `'load'` does not become a protected reference. -/
theorem Inv.heap {S : ℕ → Prop} {h0 : Heap α} {w : World α} (hi : Inv S h0 w) {h : Heap α}
    (hn : w.heap.next ≤ h.next) (h1 : ∀ a < w.heap.next, S a → h.mem a = w.heap.mem a)
    (h2 : ∀ a < w.heap.next, LoadOk S (w.heap.mem a) → LoadOk S (h.mem a))
    (h3 : ∀ a < w.heap.next, get (w.heap.mem a) "load" = none → get (h.mem a) "load" = none) :
    Inv S h0 { w with heap := h } where
  mem := fun a ha => (h1 a (hi.lt a ha) ha).trans (hi.mem a ha)
  lt := fun a ha => lt_of_lt_of_le (hi.lt a ha) hn
  next := le_trans hi.next hn
  sims := fun s hs => by
    obtain ⟨g1, g2, g3⟩ := hi.sims s hs
    exact ⟨g1, lt_of_lt_of_le g2 hn, h2 _ g2 g3⟩
  mets := fun a ha => by
    obtain ⟨g1, g2⟩ := hi.mets a ha
    exact ⟨lt_of_lt_of_le g1 hn, h3 _ g1 g2⟩

/-- A change that keeps every existing dictionary. -/
theorem Inv.grow {S : ℕ → Prop} {h0 : Heap α} {w : World α} (hi : Inv S h0 w) {h : Heap α}
    (hn : w.heap.next ≤ h.next) (h1 : ∀ a < w.heap.next, h.mem a = w.heap.mem a) :
    Inv S h0 { w with heap := h } :=
  hi.heap hn (fun a ha _ => h1 a ha) (fun a ha hl => by rw [h1 a ha]; exact hl)
    (fun a ha hl => by rw [h1 a ha]; exact hl)

/-- Assignments of options of the reader. -/
theorem Inv.upd_load {S : ℕ → Prop} {h0 : Heap α} {w : World α} (hi : Inv S h0 w) {l : ℕ}
    (hl : ¬S l) {e : Dict α} (he : get e "load" = none) :
    Inv S h0 { w with heap := w.heap.upd l e } := by
  have hg : ∀ a, get ((w.heap.upd l e).mem a) "load" = get (w.heap.mem a) "load" := by
    intro a
    rw [upd_mem]
    by_cases ha : a = l
    · rw [if_pos ha, get_update, he, ha]; rfl
    · rw [if_neg ha]
  refine hi.heap (le_refl _) ?_ ?_ ?_
  · intro a _ hS
    rw [upd_mem, if_neg (by rintro rfl; exact hl hS)]
  · intro a _ hlo m hm
    rw [hg] at hm
    exact hlo m hm
  · intro a _ hm
    rw [hg]; exact hm

theorem configure_next (h : Heap α) (base : ℕ) (cfg : Dict α) :
    (configure h base cfg).1.next = h.next + 1 := by
  unfold configure
  dsimp only
  split <;> rfl

theorem configure_met {S : ℕ → Prop} {h0 : Heap α} (hb : Base S h0) {w : World α} (hi : Inv S h0 w)
    {cfg : Dict α} {h : Heap α} {a : ℕ} (hc : configure w.heap MET cfg = (h, .ok a)) :
    a = w.heap.next ∧ h.next = w.heap.next + 1 ∧ get (h.mem a) "load" = none := by
  obtain ⟨c1, -, c3⟩ := C37_configure w.heap MET cfg
  have hall : ∀ k ∈ keys cfg, k ∈ keys (w.heap.mem MET) := by
    intro k hk
    by_contra hk'
    have := c1.2 ⟨k, hk, hk'⟩
    rw [hc] at this
    simp at this
  obtain ⟨d1, d2, d3⟩ := c3 hall
  rw [hc] at d1 d2 d3
  obtain rfl : a = w.heap.next := by simpa using d1
  refine ⟨rfl, d2, ?_⟩
  have hml : get (w.heap.mem MET) "load" = none := by rw [hi.mem _ hb.met]; exact hb.metLoad
  rw [d3, hml]
  have : "load" ∉ keys cfg := fun hk => ((get_none _ _).1 hml) (hall _ hk)
  rw [(get_none _ _).2 this]
  rfl

theorem inv_newMethod {S : ℕ → Prop} {h0 : Heap α} (hb : Base S h0) {w : World α}
    (hi : Inv S h0 w) (cfg : Dict α) : Inv S h0 (newMethod w cfg).1 := by
  obtain ⟨-, c2, -⟩ := C37_configure w.heap MET cfg
  have hn := configure_next w.heap MET cfg
  unfold newMethod
  rcases hc : configure w.heap MET cfg with ⟨h, r⟩
  rw [hc] at c2 hn
  have hg := hi.grow (h := h) (by change h.next = _ at hn; omega) c2
  cases r with
  | error e => exact hg
  | ok a =>
    obtain ⟨d1, d2, d3⟩ := configure_met hb hi hc
    refine ⟨hg.mem, hg.lt, hg.next, hg.sims, ?_⟩
    intro b hb'
    rw [List.mem_append, List.mem_singleton] at hb'
    rcases hb' with hb' | rfl
    · exact hg.mets b hb'
    · exact ⟨by show b < h.next; omega, d3⟩

theorem inv_initMethod [DecidableEq α] {S : ℕ → Prop} {h0 : Heap α} (hb : Base S h0) {w : World α}
    (hi : Inv S h0 w) (cfg m : ℕ) : Inv S h0 (initMethod w cfg m).1 ∧
      (initMethod w cfg m).1.sims = w.sims ∧ w.heap.next ≤ (initMethod w cfg m).1.heap.next ∧
      ∀ a < w.heap.next, (initMethod w cfg m).1.heap.mem a = w.heap.mem a := by
  unfold initMethod
  split
  · rename_i a c ha hc
    split
    · exact ⟨hi, rfl, le_refl _, fun _ _ => rfl⟩
    · obtain ⟨-, c2, -⟩ := C37_configure w.heap MET c
      have hn := configure_next w.heap MET c
      rcases hcc : configure w.heap MET c with ⟨h, r⟩
      rw [hcc] at c2 hn
      have hg := hi.grow (h := h) (by change h.next = _ at hn; omega) c2
      have hle : w.heap.next ≤ h.next := by change h.next = _ at hn; omega
      cases r with
      | error e => exact ⟨hg, rfl, hle, c2⟩
      | ok b =>
        obtain ⟨d1, d2, d3⟩ := configure_met hb hi hcc
        refine ⟨⟨hg.mem, hg.lt, hg.next, hg.sims, ?_⟩, rfl, hle, c2⟩
        intro b' hb'
        rcases List.mem_or_eq_of_mem_set hb' with hb' | rfl
        · exact hg.mets b' hb'
        · exact ⟨by show b' < h.next; omega, d3⟩
  · exact ⟨hi, rfl, le_refl _, fun _ _ => rfl⟩

theorem inv_buildNums {S : ℕ → Prop} {h0 : Heap α} {w : World α} (hi : Inv S h0 w) {cfg : ℕ}
    (hlt : cfg < w.heap.next) (hl : LoadOk S (w.heap.mem cfg)) (none' one : α) :
    Inv S h0 (buildNums w cfg none' one).1 ∧ (buildNums w cfg none' one).1.sims = w.sims ∧
      w.heap.next ≤ (buildNums w cfg none' one).1.heap.next ∧
      ∀ a < w.heap.next, get ((buildNums w cfg none' one).1.heap.mem a) "load" =
        get (w.heap.mem a) "load" := by
  unfold buildNums
  split
  · exact ⟨hi, rfl, le_refl _, fun _ _ => rfl⟩
  · rename_i c hc
    obtain ⟨-, c2, -⟩ := C37_configure w.heap NUM c
    have hn := configure_next w.heap NUM c
    rcases hcc : configure w.heap NUM c with ⟨h, r⟩
    rw [hcc] at c2 hn
    have hle : w.heap.next ≤ h.next := by change h.next = _ at hn; omega
    have hg := hi.grow hle c2
    have hget : ∀ a < w.heap.next, get (h.mem a) "load" = get (w.heap.mem a) "load" := by
      intro a ha
      rw [show h.mem a = w.heap.mem a from c2 a ha]
    cases r with
    | error e => exact ⟨hg, rfl, hle, hget⟩
    | ok b =>
      dsimp only
      unfold resetLoad
      have e1 : h.mem cfg = w.heap.mem cfg := c2 cfg hlt
      cases hgl : get (h.mem cfg) "load" with
      | none => exact ⟨hg, rfl, hle, hget⟩
      | some v =>
        cases v with
        | val x => exact ⟨hg, rfl, hle, hget⟩
        | ref l =>
          have hSl : ¬S l := hl l (by rw [← e1]; exact hgl)
          refine ⟨hg.upd_load hSl (by rfl), rfl, hle, ?_⟩
          intro a ha
          show get ((h.upd l _).mem a) "load" = _
          rw [upd_mem]
          by_cases hal : a = l
          · rw [if_pos hal, get_update, ← hal, hget a ha]; rfl
          · rw [if_neg hal, hget a ha]

theorem baseGet_load {S : ℕ → Prop} {h0 : Heap α} (hb : Base S h0) {w : World α} (hi : Inv S h0 w)
    {a : ℕ} (ha : a ∈ w.methods) : baseGet w.heap a "load" = get (h0.mem SIM) "load" := by
  unfold baseGet
  rw [(hi.mets a ha).2, hi.mem _ hb.cpp, hi.mem _ hb.met, hi.mem _ hb.num, hi.mem _ hb.sim,
    hb.cppLoad, hb.metLoad, hb.numLoad]
  rfl

theorem inv_newSim [DecidableEq α] {S : ℕ → Prop} {h0 : Heap α} (hb : Base S h0) {w : World α}
    (hi : Inv S h0 w) (m : ℕ) {cfg : Dict α} (none' one : α) (hl : LoadOk S cfg)
    (hd : get cfg "load" = none → LoadOk S (h0.mem SIM)) :
    Inv S h0 (newSim w m cfg none' one).1 := by
  unfold newSim
  cases hm : w.methods[m]? with
  | none => exact hi
  | some a =>
    dsimp only
    have ham : a ∈ w.methods := List.mem_of_getElem? hm
    obtain ⟨c1, c2, c3, c4⟩ := C37_simulation w.heap a cfg hi.next (hi.mets a ham).1
    rcases hc : simConfig w.heap a cfg with ⟨h, r⟩
    rw [hc] at c1 c2 c3 c4
    change h.next = _ at c3
    have hg := hi.grow (h := h) (by omega) c2
    cases r with
    | error e => exact hg
    | ok c =>
      dsimp only
      have hall : ∀ k ∈ keys cfg, baseGet w.heap a k ≠ none := by
        intro k hk hk'
        have := c1.2 ⟨k, hk, hk'⟩
        simp at this
      obtain ⟨d1, d2⟩ := c4 hall
      obtain rfl : c = w.heap.next := by simpa using d1
      have hlo : LoadOk S (h.mem w.heap.next) := by
        intro l hl'
        have := d2 "load"
        change get (h.mem w.heap.next) "load" = _ at this
        rw [this, baseGet_load hb hi ham] at hl'
        cases hcl : get cfg "load" with
        | none => rw [hcl] at hl'; exact hd hcl l (by simpa using hl')
        | some v => rw [hcl] at hl'; exact hl l (by rw [hcl]; simpa using hl')
      obtain ⟨i1, i2, i3, i4⟩ := inv_initMethod hb hg w.heap.next m
      rcases hM : initMethod { w with heap := h } w.heap.next m with ⟨w1, r1⟩
      rw [hM] at i1 i2 i3 i4
      cases r1 with
      | some e => exact i1
      | none =>
        dsimp only
        change h.next ≤ w1.heap.next at i3
        have hmem : w1.heap.mem w.heap.next = h.mem w.heap.next := i4 _ (by show _ < h.next; omega)
        obtain ⟨j1, j2, j3, j4⟩ := inv_buildNums i1 (cfg := w.heap.next) (by show _ < w1.heap.next; omega)
          (by show LoadOk S (w1.heap.mem _); rw [hmem]; exact hlo) none' one
        change (buildNums w1 w.heap.next none' one).1.sims = _ at j2
        rcases hN : buildNums w1 w.heap.next none' one with ⟨w2, r2⟩
        rw [hN] at j1 j2 j3 j4
        cases r2 with
        | error e => exact j1
        | ok b =>
          refine ⟨j1.mem, j1.lt, j1.next, ?_, j1.mets⟩
          intro s hs
          rw [List.mem_append, List.mem_singleton] at hs
          rcases hs with hs | rfl
          · exact j1.sims s hs
          · change w1.heap.next ≤ w2.heap.next at j3
            refine ⟨fun hS => ?_, by show w.heap.next < w2.heap.next; omega, ?_⟩
            · have := hi.lt _ hS
              exact absurd this (lt_irrefl _)
            · intro l hl'
              have e1 := j4 w.heap.next (by show _ < w1.heap.next; omega)
              change get (w2.heap.mem w.heap.next) "load" = get (w1.heap.mem w.heap.next) "load" at e1
              change get (w2.heap.mem w.heap.next) "load" = _ at hl'
              rw [e1, hmem] at hl'
              exact hlo l hl'

theorem inv_setLoad {S : ℕ → Prop} {h0 : Heap α} {w : World α} (hi : Inv S h0 w) (i : ℕ)
    {k : String} (hk : k ≠ "load") (v : α) : Inv S h0 (setLoad w i k v).1 := by
  unfold setLoad
  cases hs : w.sims[i]? with
  | none => exact hi
  | some s =>
    dsimp only
    obtain ⟨-, -, g3⟩ := hi.sims s (List.mem_of_getElem? hs)
    cases hl : get (w.heap.mem s.cfg) "load" with
    | none => exact hi
    | some v' =>
      cases v' with
      | val x => exact hi
      | ref l => exact hi.upd_load (g3 l hl) (by simp [get, Ne.symm hk])

theorem inv_initSim [DecidableEq α] {S : ℕ → Prop} {h0 : Heap α} (hb : Base S h0) {w : World α}
    (hi : Inv S h0 w) (i : ℕ) {cfg : Dict α} (rebuild : Bool) (none' one : α) (hl : LoadOk S cfg) :
    Inv S h0 (initSim w i cfg rebuild none' one).1 := by
  unfold initSim
  cases hs : w.sims[i]? with
  | none => exact hi
  | some s =>
    dsimp only
    obtain ⟨g1, g2, g3⟩ := hi.sims s (List.mem_of_getElem? hs)
    split
    · rename_i cm cn cs h1 h2 h3
      let c := update (update (update cm cn) cs) cfg
      have hcl : LoadOk S (update (w.heap.mem s.cfg) c) := by
        intro l hl'
        have e1 : get cs "load" = get (w.heap.mem s.cfg) "load" := by
          rw [(get_restrict h3).2, if_pos]
          rw [hi.mem _ hb.sim]
          exact hb.simLoad
        rw [get_update, get_update, get_update, e1] at hl'
        cases hcg : get cfg "load" with
        | some v => rw [hcg] at hl'; exact hl l (by rw [hcg]; simpa using hl')
        | none =>
          rw [hcg] at hl'
          cases hd : get (w.heap.mem s.cfg) "load" with
          | some v => rw [hd] at hl'; exact g3 l (by rw [hd]; simpa using hl')
          | none =>
            have : "load" ∈ keys (w.heap.mem s.cfg) := by
              have hk := (get_restrict h3).1
              have hmem : "load" ∈ keys cs := by
                rw [hk, hi.mem _ hb.sim]; exact hb.simLoad
              have h5 := (get_isSome cs "load").2 hmem
              rw [e1] at h5
              exact (get_isSome _ _).1 h5
            exact absurd this ((get_none _ _).1 hd)
      have hu : Inv S h0 { w with heap := w.heap.upd s.cfg c } := by
        refine ⟨?_, hi.lt, hi.next, ?_, ?_⟩
        · intro a ha
          show (w.heap.upd s.cfg c).mem a = _
          rw [upd_mem, if_neg (by rintro rfl; exact g1 ha)]
          exact hi.mem a ha
        · intro s' hs'
          obtain ⟨k1, k2, k3⟩ := hi.sims s' hs'
          refine ⟨k1, k2, ?_⟩
          show LoadOk S ((w.heap.upd s.cfg c).mem s'.cfg)
          rw [upd_mem]
          split
          · exact hcl
          · exact k3
        · intro a ha
          obtain ⟨k1, k2⟩ := hi.mets a ha
          refine ⟨k1, ?_⟩
          show get ((w.heap.upd s.cfg c).mem a) "load" = none
          rw [upd_mem]
          by_cases hac : a = s.cfg
          · exfalso
            have hk := (get_restrict h3).1
            have h5 : get cs "load" = get (w.heap.mem s.cfg) "load" := by
              rw [(get_restrict h3).2, if_pos]
              rw [hi.mem _ hb.sim]; exact hb.simLoad
            have hmem : "load" ∈ keys cs := by rw [hk, hi.mem _ hb.sim]; exact hb.simLoad
            have h6 := (get_isSome cs "load").2 hmem
            rw [h5, ← hac, k2] at h6
            simp at h6
          · rw [if_neg hac]; exact k2
      have key : ∀ (r : World α × Option Err), Inv S h0 r.1 → r.1.sims = w.sims →
          w.heap.next ≤ r.1.heap.next → LoadOk S (r.1.heap.mem s.cfg) →
          Inv S h0 (match r with
            | (w1, some e) => (w1, some e)
            | (w1, none) =>
              if rebuild then
                match buildNums w1 s.cfg none' one with
                | (w2, .ok b) => ({ w2 with sims := w2.sims.set i ⟨s.cfg, s.met, b⟩ }, none)
                | (w2, .error e) => (w2, some e)
              else (w1, none) : World α × Option Err).1 := by
        intro r r1 r2 r3 r4
        rcases r with ⟨w1, o⟩
        cases o with
        | some e => exact r1
        | none =>
          dsimp only
          cases rebuild with
          | false => exact r1
          | true =>
            simp only [if_true]
            change w.heap.next ≤ w1.heap.next at r3
            obtain ⟨j1, j2, j3, j4⟩ := inv_buildNums r1 (cfg := s.cfg)
              (by show _ < w1.heap.next; omega) r4 none' one
            change (buildNums w1 s.cfg none' one).1.sims = _ at j2
            rcases hN : buildNums w1 s.cfg none' one with ⟨w2, r2'⟩
            rw [hN] at j1 j2 j3 j4
            cases r2' with
            | error e => exact j1
            | ok b =>
              refine ⟨j1.mem, j1.lt, j1.next, ?_, j1.mets⟩
              intro s' hs'
              rcases List.mem_or_eq_of_mem_set hs' with hs' | rfl
              · exact j1.sims s' hs'
              · have hsm : s ∈ w2.sims := by
                  change w2.sims = w1.sims at j2
                  change w1.sims = w.sims at r2
                  rw [j2, r2]; exact List.mem_of_getElem? hs
                obtain ⟨k1, k2, k3⟩ := j1.sims s hsm
                exact ⟨k1, k2, k3⟩
      refine key _ ?_ ?_ ?_ ?_
      · split
        · exact (inv_initMethod hb hu _ _).1
        · exact hi
      · split
        · exact (inv_initMethod hb hu _ _).2.1
        · rfl
      · split
        · exact (inv_initMethod hb hu _ _).2.2.1
        · exact le_refl _
      · split
        · have := (inv_initMethod hb hu s.cfg s.met).2.2.2 s.cfg g2
          rw [this]
          show LoadOk S ((w.heap.upd s.cfg c).mem s.cfg)
          rw [upd_mem, if_pos rfl]
          exact hcl
        · exact g3
    · exact hi

/-- C37. Along any session of creations (successful or not), assignments of the reader options and
initialisations, protected dictionaries do not change. -/
theorem C37_protected [DecidableEq α] {S : ℕ → Prop} {h0 : Heap α} (hb : Base S h0) (none' one : α)
    {os : List (Op α)} : ∀ {w : World α}, Inv S h0 w → (∀ o ∈ os, OpOk S h0 o) →
    ∀ a, S a → (w.run none' one os).heap.mem a = h0.mem a := by
  induction os with
  | nil => intro w hi _ a ha; exact hi.mem a ha
  | cons o os ih =>
    intro w hi ho a ha
    refine ih ?_ (fun o' ho' => ho o' (by simp [ho'])) a ha
    have h1 := ho o (by simp)
    cases o with
    | method cfg => exact inv_newMethod hb hi cfg
    | sim m cfg => exact inv_newSim hb hi m none' one h1.1 h1.2
    | load i k v => exact inv_setLoad hi i h1 v
    | init i cfg rebuild => exact inv_initSim hb hi i rebuild none' one h1

/-- A session that starts from the defaults. -/
def start (h0 : Heap α) : World α := ⟨h0, [], []⟩

theorem inv_start {S : ℕ → Prop} {h0 : Heap α} (hn : 5 ≤ h0.next) (hS : ∀ a, S a → a < h0.next) :
    Inv S h0 (start h0) :=
  ⟨fun _ _ => rfl, hS, hn, fun _ h => absurd h (by simp [start]), fun _ h => absurd h (by simp [start])⟩

theorem base_defaults {S : ℕ → Prop} (h0 : S 0) (h1 : S 1) (h2 : S 2) (h3 : S 3) :
    Base S defaults :=
  ⟨h0, h1, h2, h3, by decide, by decide, by decide, by decide⟩

/-- C37. The default dictionaries `CONFIG_NUMERIC`, `CONFIG_METHOD`, `CONFIG_SIMULATION` and
`CONFIG_CPP` are never modified, unless the user gives one of them as the value
of the option `'load'`. -/
theorem C37_defaults (none' one : PV) {os : List (Op PV)} (ho : ∀ o ∈ os, match o with
    | .sim _ cfg => LoadOk (· < 4) cfg
    | .init _ cfg _ => LoadOk (· < 4) cfg
    | .load _ k _ => k ≠ "load"
    | .method _ => True) :
    ∀ a < 4, ((start defaults).run none' one os).heap.mem a = defaults.mem a := by
  refine C37_protected (S := (· < 4)) (base_defaults (by decide) (by decide) (by decide) (by decide))
    none' one (inv_start (by decide) (fun a ha => by
      have : a < 4 := ha
      show a < 5
      omega)) ?_
  intro o h
  have h1 := ho o h
  cases o with
  | sim m cfg =>
    refine ⟨h1, fun _ l hl => ?_⟩
    have : l = 4 := by
      have e : get (defaults.mem SIM) "load" = some (.ref 4) := by decide
      rw [e] at hl
      simpa using hl.symm
    subst this
    decide
  | init i cfg r => exact h1
  | load i k v => exact h1
  | method cfg => exact trivial

/-- C37. The shared options of the readers `LOAD_OPTS` are not modified if each simulation is given
its own dictionary `'load'`. -/
theorem C37_own_load (none' one : PV) {os : List (Op PV)} (ho : ∀ o ∈ os, match o with
    | .sim _ cfg => ∃ l, get cfg "load" = some (.ref l) ∧ 5 ≤ l
    | .init _ cfg _ => LoadOk (· < 5) cfg
    | .load _ k _ => k ≠ "load"
    | .method _ => True) :
    ∀ a < 5, ((start defaults).run none' one os).heap.mem a = defaults.mem a := by
  refine C37_protected (S := (· < 5)) (base_defaults (by decide) (by decide) (by decide) (by decide))
    none' one (inv_start (by decide) (fun a ha => ha)) ?_
  intro o h
  have h1 := ho o h
  cases o with
  | sim m cfg =>
    obtain ⟨l, hl, h5⟩ := h1
    refine ⟨?_, fun hn => by rw [hl] at hn; simp at hn⟩
    intro l' hl'
    rw [hl] at hl'
    have : l = l' := by simpa using hl'
    show ¬l' < 5
    omega
  | init i cfg r => exact h1
  | load i k v => exact h1
  | method cfg => exact trivial

/-! ### Consistency of the objects of a simulation -/

/-- C37. The default dictionaries have no key in common, so that the order of the updates of the
options of a simulation has no effect. -/
theorem C37_disjoint : ∀ a < 4, ∀ b < 4, a ≠ b →
    List.Disjoint (keys (defaults.mem a)) (keys (defaults.mem b)) := by
  have h : ∀ a < 4, ∀ b < 4, a ≠ b → ((keys (defaults.mem a)).all fun k =>
      decide (k ∉ keys (defaults.mem b))) = true := by
    decide
  intro a ha b hb hab k h1 h2
  have := List.all_eq_true.1 (h a ha b hb hab) k h1
  simp only [decide_eq_true_eq] at this
  exact this h2

theorem same_get [DecidableEq α] {d e : Dict α} (h : same d e = true) {k : String}
    (hk : k ∈ keys d) : get d k = get e k := by
  have := List.all_eq_true.1 h k (by simp [hk])
  exact beq_iff_eq.1 this

theorem initMethod_ok [DecidableEq α] {w w1 : World α} {cfg m : ℕ}
    (h : initMethod w cfg m = (w1, none)) : ∃ b, w1.methods[m]? = some b ∧
      ∀ k ∈ keys (w.heap.mem MET), get (w1.heap.mem b) k = get (w.heap.mem cfg) k := by
  unfold initMethod at h
  split at h
  · rename_i a c ha hc
    obtain ⟨r1, r2⟩ := get_restrict hc
    split at h
    · rename_i hs
      obtain rfl : w = w1 := by simpa using h
      refine ⟨a, ha, ?_⟩
      intro k hk
      rw [← same_get hs (by rw [r1]; exact hk), r2, if_pos hk]
    · obtain ⟨c1, -, c3⟩ := C37_configure w.heap MET c
      obtain ⟨d1, d2, d3⟩ := c3 (by intro k hk; rw [r1] at hk; exact hk)
      rcases hcc : configure w.heap MET c with ⟨h', r⟩
      rw [hcc] at d1 d2 d3 h
      obtain rfl : r = .ok w.heap.next := d1
      obtain rfl : (⟨h', w.methods.set m w.heap.next, w.sims⟩ : World α) = w1 := by simpa using h
      refine ⟨w.heap.next, ?_, ?_⟩
      · have hlt : m < w.methods.length := by
          rw [List.getElem?_eq_some_iff] at ha
          exact ha.1
        simp [List.getElem?_set, hlt]
      · intro k hk
        show get (h'.mem w.heap.next) k = _
        rw [d3, r2, if_pos hk]
        cases hg : get (w.heap.mem cfg) k with
        | some v => rfl
        | none =>
          have : k ∈ keys c := by rw [r1]; exact hk
          have h5 := (get_isSome c k).2 this
          rw [r2, if_pos hk, hg] at h5
          simp at h5
  · simp at h

/-- Keys of the options of readers. -/
def loadKeys : List String := ["start", "stop", "step"]

theorem resetLoad_get {h h' : Heap α} {cfg : ℕ} {none' one : α} {o : Option Err}
    (hr : resetLoad h cfg none' one = (h', o)) {k : String} (hk : k ∉ loadKeys) (a : ℕ) :
    get (h'.mem a) k = get (h.mem a) k := by
  unfold resetLoad at hr
  split at hr
  · obtain ⟨rfl, -⟩ := Prod.mk.injEq .. ▸ hr
    rw [upd_mem]
    split
    · rename_i l hl ha
      rw [get_update, ha]
      have : get [("start", Val.val none'), ("stop", .val none'), ("step", .val one)] k = none := by
        rw [get_none]
        exact hk
      rw [this]
      rfl
    · rfl
  · obtain ⟨rfl, -⟩ := Prod.mk.injEq .. ▸ hr
    rfl

theorem buildNums_ok {w w1 : World α} {cfg b : ℕ} {none' one : α}
    (h : buildNums w cfg none' one = (w1, .ok b)) (hn : NUM < w.heap.next) :
    w1.methods = w.methods ∧ w1.sims = w.sims ∧
    ∀ k, k ∉ loadKeys → (∀ a < w.heap.next, get (w1.heap.mem a) k = get (w.heap.mem a) k) ∧
      (k ∈ keys (w.heap.mem NUM) → get (w1.heap.mem b) k = get (w.heap.mem cfg) k) := by
  unfold buildNums at h
  split at h
  · simp at h
  · rename_i c hc
    obtain ⟨r1, r2⟩ := get_restrict hc
    obtain ⟨-, c2, c3⟩ := C37_configure w.heap NUM c
    obtain ⟨d1, d2, d3⟩ := c3 (by intro k hk; rw [r1] at hk; exact hk)
    rcases hcc : configure w.heap NUM c with ⟨h', r⟩
    rw [hcc] at c2 d1 d2 d3 h
    obtain rfl : r = .ok w.heap.next := d1
    dsimp only at h
    rcases hl : resetLoad h' cfg none' one with ⟨h2, o⟩
    rw [hl] at h
    cases o with
    | some e => simp at h
    | none =>
      obtain ⟨rfl, hb⟩ := Prod.mk.injEq .. ▸ h
      obtain rfl : w.heap.next = b := by simpa using hb
      refine ⟨rfl, rfl, ?_⟩
      intro k hk
      constructor
      · intro a ha
        show get (h2.mem a) k = _
        rw [resetLoad_get hl hk, show h'.mem a = w.heap.mem a from c2 a ha]
      · intro hkn
        show get (h2.mem w.heap.next) k = _
        rw [resetLoad_get hl hk]
        show get (h'.mem w.heap.next) k = _
        rw [d3, r2, if_pos hkn]
        cases hg : get (w.heap.mem cfg) k with
        | some v => rfl
        | none =>
          have : k ∈ keys c := by rw [r1]; exact hkn
          have h5 := (get_isSome c k).2 this
          rw [r2, if_pos hkn, hg] at h5
          simp at h5

/-- C37. The objects of a new simulation are consistent: its options are those of the user, then those
of the method and of the defaults; its numerical object and its method have
the same values. -/
theorem C37_consistent [DecidableEq α] {S : ℕ → Prop} {h0 : Heap α} (hb : Base S h0)
    {w w' : World α} (hi : Inv S h0 w) {m a : ℕ} (hm : w.methods[m]? = some a) {cfg : Dict α}
    {none' one : α} (h : newSim w m cfg none' one = (w', none)) :
    ∃ s, w'.sims = w.sims ++ [s] ∧ s.met = m ∧
      (∀ k, k ∉ loadKeys →
        get (w'.heap.mem s.cfg) k = (get cfg k).or (baseGet w.heap a k) ∧
        (k ∈ keys (h0.mem NUM) → get (w'.heap.mem s.nums) k = get (w'.heap.mem s.cfg) k) ∧
        (k ∈ keys (h0.mem MET) → ∃ b, w'.methods[m]? = some b ∧
          get (w'.heap.mem b) k = get (w'.heap.mem s.cfg) k)) := by
  unfold newSim at h
  rw [hm] at h
  dsimp only at h
  have ham : a ∈ w.methods := List.mem_of_getElem? hm
  obtain ⟨c1, c2, c3, c4⟩ := C37_simulation w.heap a cfg hi.next (hi.mets a ham).1
  rcases hc : simConfig w.heap a cfg with ⟨h1, r⟩
  rw [hc] at c1 c2 c3 c4 h
  change h1.next = _ at c3
  have hg := hi.grow (h := h1) (by omega) c2
  cases r with
  | error e => simp at h
  | ok c =>
    dsimp only at h
    have hall : ∀ k ∈ keys cfg, baseGet w.heap a k ≠ none := by
      intro k hk hk'
      have := c1.2 ⟨k, hk, hk'⟩
      simp at this
    obtain ⟨d1, d2⟩ := c4 hall
    obtain rfl : c = w.heap.next := by simpa using d1
    obtain ⟨i1, i2, i3, i4⟩ := inv_initMethod hb hg w.heap.next m
    rcases hM : initMethod { w with heap := h1 } w.heap.next m with ⟨w1, r1⟩
    rw [hM] at i1 i2 i3 i4 h
    cases r1 with
    | some e => simp at h
    | none =>
      dsimp only at h
      change h1.next ≤ w1.heap.next at i3
      obtain ⟨b, m1, m2⟩ := initMethod_ok hM
      have hmem : w1.heap.mem w.heap.next = h1.mem w.heap.next := i4 _ (by show _ < h1.next; omega)
      rcases hN : buildNums w1 w.heap.next none' one with ⟨w2, r2⟩
      rw [hN] at h
      cases r2 with
      | error e => simp at h
      | ok nb =>
        obtain ⟨rfl, -⟩ := Prod.mk.injEq .. ▸ h
        have hN0 : NUM < w1.heap.next := i1.lt _ hb.num
        obtain ⟨n1, n2, n3⟩ := buildNums_ok hN hN0
        have hmet : h1.mem MET = h0.mem MET := hg.mem MET hb.met
        have hnum : w1.heap.mem NUM = h0.mem NUM := i1.mem NUM hb.num
        have hbm : b < w1.heap.next := (i1.mets b (List.mem_of_getElem? m1)).1
        refine ⟨⟨w.heap.next, m, nb⟩, ?_, rfl, ?_⟩
        · show w2.sims ++ _ = _
          rw [n2]
          change w1.sims = w.sims at i2
          rw [i2]
        · intro k hk
          obtain ⟨k1, k2⟩ := n3 k hk
          have e1 : get (w2.heap.mem w.heap.next) k = get (h1.mem w.heap.next) k := by
            rw [k1 w.heap.next (by omega), hmem]
          refine ⟨?_, ?_, ?_⟩
          · show get (w2.heap.mem w.heap.next) k = _
            rw [e1]
            exact d2 k
          · intro hkn
            show get (w2.heap.mem nb) k = get (w2.heap.mem w.heap.next) k
            rw [k2 (by rw [hnum]; exact hkn), e1, hmem]
          · intro hkm
            refine ⟨b, by show w2.methods[m]? = _; rw [n1]; exact m1, ?_⟩
            show get (w2.heap.mem b) k = get (w2.heap.mem w.heap.next) k
            rw [k1 b hbm, e1]
            exact m2 k (by show k ∈ keys (h1.mem MET); rw [hmet]; exact hkm)

/-- An option of a simulation. -/
def option (w : World α) (i : ℕ) (k : String) : Option (Val α) :=
  (w.sims[i]?).bind fun s => get (w.heap.mem s.cfg) k

/-- An option of the numerical object of a simulation. -/
def numOption (w : World α) (i : ℕ) (k : String) : Option (Val α) :=
  (w.sims[i]?).bind fun s => get (w.heap.mem s.nums) k

/-- An option of the method of a simulation. -/
def metOption (w : World α) (i : ℕ) (k : String) : Option (Val α) :=
  (w.sims[i]?).bind fun s => (w.methods[s.met]?).bind fun a => get (w.heap.mem a) k

/-- An option of the reader of a simulation. -/
def loadOption (w : World α) (i : ℕ) (k : String) : Option (Val α) :=
  match option w i "load" with
  | some (.ref l) => get (w.heap.mem l) k
  | _ => none

/-- A session with the defaults. -/
def session (os : List (Op PV)) : World PV := (start defaults).run .none (.int 1) os

/-- C37. The options of the readers are shared: setting the window of a simulation changes
the window of another one, and the creation of a simulation resets the windows of the others and
modifies the default `LOAD_OPTS`. -/
theorem C37_load_counterexample :
    (loadOption (session [.method [], .sim 0 [], .method [], .sim 1 [], .load 0 "start" (.int 3)]) 1
      "start" = some (.val (.int 3))) ∧
    (loadOption (session [.method [], .sim 0 [], .load 0 "start" (.int 3), .method [], .sim 1 []]) 0
      "start" = some (.val .none)) ∧
    get ((session [.method [], .sim 0 []]).heap.mem LOAD) "start" = some (.val .none) ∧
    get (defaults.mem LOAD) "start" = some (.val (.int 0)) := by
  decide +kernel

/-- C37. A second simulation with other options of the method, on the same method object, changes the
method of the first one, whose options say otherwise. -/
theorem C37_method_counterexample :
    let w := session [.method [], .sim 0 [], .sim 0 [("theta", .val (.int 1))]]
    option w 0 "theta" = some (.val (.int 0)) ∧ metOption w 0 "theta" = some (.val (.int 1)) := by
  decide +kernel

/-- C37. `Simulation.init(config=..)`: a change of the sample rate reaches the options and not the
numerical object; an unknown key is accepted if another option changes; an option of
simulations alone is ignored. -/
theorem C37_init_counterexample :
    option (session [.method [], .sim 0 [], .init 0 [("fs", .val (.int 96000))] false]) 0 "fs" =
      some (.val (.int 96000)) ∧
    numOption (session [.method [], .sim 0 [], .init 0 [("fs", .val (.int 96000))] false]) 0 "fs" =
      some (.val (.int 48000)) ∧
    option (session [.method [], .sim 0 [], .init 0 [("fs", .val (.int 96000)),
      ("typo", .val (.int 1))] false]) 0 "typo" = some (.val (.int 1)) ∧
    option (session [.method [], .sim 0 [], .init 0 [("pbar", .val (.str "True"))] false]) 0 "pbar" =
      some (.val (.str "False")) := by
  decide +kernel

example : (configure defaults MET [("gard", .val (.str "theta"))]).2 = .error .attribute :=
  (C37_configure _ _ _).1.2 ⟨"gard", by decide, by decide⟩

example := C37_consistent (S := (· < 4))
  (base_defaults (by decide) (by decide) (by decide) (by decide))
  (w := (newMethod (start defaults) []).1)
  (inv_newMethod (base_defaults (by decide) (by decide) (by decide) (by decide))
    (inv_start (by decide) (fun a ha => by have : a < 4 := ha; show a < 5; omega)) [])
  (m := 0) (a := 5) (by decide) (cfg := [("fs", .val (.int 96000)), ("theta", .val (.int 1))])
  (none' := .none) (one := .int 1)
  (w' := (newSim (newMethod (start defaults) []).1 0
    [("fs", .val (.int 96000)), ("theta", .val (.int 1))] .none (.int 1)).1)
  (Prod.ext rfl (by decide +kernel))

example := C37_own_load .none (.int 1) (os := [.method [], .sim 0 [("load", .ref 10)],
    .load 0 "start" (.int 3), .init 0 [("fs", .val (.int 96000))] true])
  (by
    intro o ho
    simp only [List.mem_cons, List.not_mem_nil, or_false] at ho
    rcases ho with rfl | rfl | rfl | rfl
    · exact trivial
    · exact ⟨10, rfl, by decide⟩
    · show "start" ≠ "load"; decide
    · intro l hl
      simp [get] at hl)

end Sim
end Pyphs
