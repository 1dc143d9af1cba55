import Verif.Model.Cli
import Verif.Spec.Config
/-! Specification vocabulary for C150. -/
namespace Jaqmc.Cli.Spec
open Jaqmc.Config Jaqmc.Config.Spec

/-- A workflow that reads nothing at or below the section `distributed`. -/
def Avoids {V W : Type} : Prog V W → Prop
  | .done _ => True
  | .fail => True
  | .preset _ k => Avoids k
  | .read name _ k => (splitDot name).head? ≠ some distributedName ∧ ∀ c, Avoids (k c)

/-- The user gave an option at or below the section `distributed` (in the files or on the command line). -/
def GivesDistributed {V : Type} (m : Manager V) (p : List Str) : Prop :=
  (p ∈ optionPaths m.user ∨ p ∈ optionPaths m.cli) ∧ DotFree p ∧ p.head? = some distributedName

end Jaqmc.Cli.Spec
