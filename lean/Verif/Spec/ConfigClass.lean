import Verif.Model.ConfigClass
import Verif.Spec.Replay
/-! Vocabulary for configurable classes. -/
namespace Jaqmc.ConfigClass.Spec
open Jaqmc.Config Jaqmc.Config.Spec Jaqmc.Replay Jaqmc.Replay.Spec Jaqmc.ConfigClass

variable {V : Type}

/-- What can be seen of a value that may be missing. -/
def peek (x : Option (Cfg V)) (q : List Str) : Option (Option V) := x.bind fun c => Cfg.see c q

/-- A value that may be missing is proper. -/
def WFOption (x : Option (Cfg V)) : Prop := ∀ c, x = some c → WFValue c

/-- A field: loading does not look at the order of keys, keeps what is given, gives a proper value, and loading what it dumped gives the same. -/
structure LawfulField (load : Option (Cfg V) → Except Err (Cfg V)) : Prop where
  order : ∀ x x' c, WFOption x → WFOption x' → peek x = peek x' → load x = .ok c → ∃ c', load x' = .ok c' ∧ Cfg.see c' = Cfg.see c
  keeps : ∀ x c, WFOption x → load x = .ok c → Keeps (peek x) (Cfg.see c)
  proper : ∀ x c, WFOption x → load x = .ok c → WFValue c
  again : ∀ x c, WFOption x → load x = .ok c → ∃ c', load (some c) = .ok c' ∧ Cfg.see c' = Cfg.see c

/-- The classes of a `module_config` field are lawful, a class can be found under the name it dumps, the default name means the default class,
and converting a direct value twice changes nothing. -/
structure LawfulModuleField (f : ModuleField V) : Prop where
  classes : ∀ m c, f.resolve m = .ok c → LawfulClass c.norm
  names : ∀ m c, f.resolve m = .ok c → f.resolve c.name = .ok c
  default : ∀ m c, f.default = .cls m c → f.resolve m = .ok c
  direct : ∀ v w, f.direct v = .ok w → f.direct w = .ok w
  direct_default : ∀ v, f.default = .direct v → f.direct v = .ok v
  kwargs : WF f.kwargs

end Jaqmc.ConfigClass.Spec
