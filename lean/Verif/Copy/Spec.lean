/-
The specification for C57: cores that are plain values. A change of one core does not say anything about
another one, a copy is a value with the same content.
-/
import Verif.Copy.Model

namespace Pyphs
namespace Copy

variable {α : Type}

structure ACore (α : Type) where
  label : String
  view : View α

structure AWorld (α : Type) where
  cores : List (ACore α)
  disk : String → Option (Dico α)

/-- The value of a core after a change. -/
def Prim.spec (c : ACore α) : Prim α → ACore α
  | bindAtom n a => { c with view := put c.view n (.atom a) }
  | bind n d => { c with view := put c.view n (.data d) }
  | inplace n f =>
    match c.view n with
    | some (.data d) => { c with view := put c.view n (.data (f d)) }
    | _ => c
  | clear n => { c with view := put c.view n (.conns []) }
  | addConn n x =>
    match c.view n with
    | some (.conns cs) => { c with view := put c.view n (.conns (cs ++ [x])) }
    | _ => c
  | setAlpha n k a =>
    match c.view n with
    | some (.conns cs) =>
      { c with view := put c.view n (.conns (cs.modify k fun x => { x with alpha := a })) }
    | _ => c
  | label s => { c with label := s }

/-- The last value given to each name. -/
def assign (v : View α) (l : List (Name × Tree α)) : View α :=
  l.foldl (fun v e => put v e.1 e.2) v

def Op.spec (none' zero : α) (w : AWorld α) : Op α → AWorld α
  | new label =>
    { w with cores := w.cores ++ [⟨label.getD "phs", assign (fun _ => none) (defaults none' zero)⟩] }
  | step i s =>
    match w.cores[i]? with
    | none => w
    | some c => { w with cores := w.cores.set i ((s c.label c.view).spec c) }
  | copy i _ =>
    match w.cores[i]? with
    | none => w
    | some c =>
      match nameUnion c.view with
      | none => w
      | some ns =>
        if ns.all (fun n => (c.view n).isSome) then
          { w with cores := w.cores ++ [⟨c.label, fun n =>
              if n ∈ ns then c.view n else assign (fun _ => none) (defaults none' zero) n⟩] }
        else w
  | add i j F =>
    match w.cores[i]?, w.cores[j]? with
    | some c₁, some c₂ =>
      match c₁.view (.own "connectors"), c₂.view (.own "connectors") with
      | some (.conns x₁), some (.conns x₂) =>
        { w with cores := w.cores ++ [⟨c₁.label,
            put (assign (fun _ => none) (defaults none' zero ++ F c₁.view c₂.view))
              (.own "connectors") (.conns (x₁ ++ x₂))⟩] }
      | _, _ => w
    | _, _ => w
  | save i label ord =>
    match w.cores[i]? with
    | none => w
    | some c =>
      match nameUnion c.view with
      | none => w
      | some ns =>
        match collect c.view (fun _ => none) (ord ns) with
        | none => w
        | some e =>
          { w with disk := fun k => if k = label.getD c.label then some ⟨label.getD c.label, e⟩
                                    else w.disk k }
  | load i label ord =>
    match w.cores[i]? with
    | none => w
    | some c =>
      match w.disk (label.getD c.label) with
      | none => w
      | some d =>
        match nameUnion c.view with
        | none => { w with cores := w.cores.set i { c with label := d.label } }
        | some ns =>
          { w with cores := w.cores.set i ⟨d.label,
              assign c.view (((ord ns).map fun n => (n, d.entries n.key)).takeWhile (·.2.isSome)
                |>.filterMap fun e => e.2.map fun x => (e.1, x))⟩ }

def specAll (none' zero : α) (w : AWorld α) (ops : List (Op α)) : AWorld α :=
  ops.foldl (fun w op => op.spec none' zero w) w

/-- What a user sees. -/
def World.abs (w : World α) : AWorld α :=
  ⟨w.objs.map fun o => ⟨o.label, view w.heap o.attrs⟩, w.disk⟩

end Copy
end Pyphs
