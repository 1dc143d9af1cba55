import Verif.Model.Callable
/-! Vocabulary for calls of configured functions. -/
namespace Jaqmc.Callable.Spec
open Jaqmc.Config Jaqmc.Callable

variable {X : Type}

/-- The argument by position that belongs to a parameter. -/
def posArg (ps : List (Param X)) (args : List X) (p : Param X) : Option X :=
  if p.kind = .posOnly ∨ p.kind = .posOrKw then args[((ps.filter fun r => r.kind = .posOnly ∨ r.kind = .posOrKw).map (·.name)).idxOf p.name]? else none

/-- The function takes any keyword. -/
def AnyKw (ps : List (Param X)) : Prop := ∃ p ∈ ps, p.kind = .varKw

/-- The names of the parameters that can be given by keyword. -/
def Keyword (ps : List (Param X)) (k : Str) : Prop := ∃ p ∈ ps, (p.kind = .posOrKw ∨ p.kind = .kwOnly) ∧ p.name = k

/-- The first of several values that is there. -/
def firstOf : List (Option X) → Option X
  | [] => none
  | some v :: _ => some v
  | none :: r => firstOf r

end Jaqmc.Callable.Spec
