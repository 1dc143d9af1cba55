import Verif.Model.Interp
/-! Specification for C43: evaluation of a program that keeps every value. -/
namespace Jaqmc.Interp.Spec
open Jaqmc.Interp

variable {V E : Type}

/-- Look up an operand in a store that never forgets. -/
def value (m : Nat → Option V) : Atom V → Except (Err E) V
  | .lit v => .ok v
  | .var x => match m x with
    | some v => .ok v
    | none => .error (.keyError x)

/-- Values of several operands, left to right. -/
def values (m : Nat → Option V) : List (Atom V) → Except (Err E) (List V)
  | [] => .ok []
  | a :: as => do
    let v ← value m a
    let vs ← values m as
    return v :: vs

/-- Bind variables to values. -/
def bind (m : Nat → Option V) : List Nat → List V → Nat → Option V
  | x :: xs, v :: vs => bind (fun y => if y = x then some v else m y) xs vs
  | _, _ => m

/-- Run the equations in order. -/
def run (m : Nat → Option V) : List (Eqn V E) → Except (Err E) (Nat → Option V)
  | [] => .ok m
  | e :: es => do
    let vals ← values m e.invars
    let outs ← match e.eval vals with
      | .ok o => .ok o
      | .error err => .error (.raised err)
    run (bind m e.outvars outs) es

/-- The value of a program. -/
def eval (p : Jaxpr V E) (consts args : List V) : Except (Err E) (List V) := do
  let m ← run (bind (bind (fun _ => none) p.constvars consts) p.invars args) p.eqns
  values m p.outvars

/-- Number of reads of `x` by the equations. -/
def reads (x : Nat) (es : List (Eqn V E)) : Nat := (es.map (fun e => occ x e.invars)).sum

/-- Every operand is a literal or one of `xs`. -/
def Covered (xs : List Nat) (as : List (Atom V)) : Prop := ∀ x, Atom.var x ∈ as → x ∈ xs

/-- Well-scoped equations: each reads only variables bound before, and returns as many values as it binds. -/
def Scoped : List Nat → List (Eqn V E) → List (Atom V) → Prop
  | xs, [], outs => Covered xs outs
  | xs, e :: es, outs => Covered xs e.invars ∧ (∀ i o, e.eval i = .ok o → o.length = e.outvars.length) ∧
      Scoped (xs ++ e.outvars) es outs

end Jaqmc.Interp.Spec
