import Verif.Model.Replay
import Verif.Spec.Config
/-! Vocabulary for replaying a recorded configuration. -/
namespace Jaqmc.Replay.Spec
open Jaqmc.Config Jaqmc.Config.Spec Jaqmc.Replay

variable {V : Type}

/-- What can be seen at a path of a dictionary. -/
def at_ (d : Entries V) (p : List Str) : Option (Option V) := Cfg.see (.dict d) p

/-- A single value above the path hides what is below it. -/
def Hidden (t : List Str → Option (Option V)) (p : List Str) : Prop := ∃ q r v, p = q ++ r ∧ r ≠ [] ∧ t q = some (some v)

/-- The result still has every option of the data, single values as single values. -/
def Keeps (t t' : List Str → Option (Option V)) : Prop :=
  ∀ p, (t p = some none → t' p ≠ none ∨ Hidden t' p) ∧ (∀ v, t p = some (some v) → (∃ w, t' p = some (some w)) ∨ Hidden t' p)

/-- A configurable class: loading does not look at the order of keys, keeps the given options, gives a proper dictionary without the key
`module`, and loading what it dumped gives the same. -/
structure LawfulClass (norm : Entries V → Except Err (Entries V)) : Prop where
  order : ∀ d d' r, WF d → WF d' → at_ d = at_ d' → norm d = .ok r → ∃ r', norm d' = .ok r' ∧ at_ r' = at_ r
  keeps : ∀ d r, WF d → norm d = .ok r → Keeps (at_ d) (at_ r)
  proper : ∀ d r, WF d → norm d = .ok r → WF r ∧ r.lookup moduleKey = none
  again : ∀ d r, WF d → norm d = .ok r → ∃ r', norm r = .ok r' ∧ at_ r' = at_ r

/-- A lawful implementation. -/
def LawfulImpl : Impl V → Prop
  | .dataclass norm => LawfulClass norm
  | .callable sig => WF sig ∧ sig.lookup moduleKey = none

/-- A lawful way to read an option: converting a converted value changes nothing. -/
def LawfulRead : Read V → Prop
  | .primitive n conv => n ≠ [] ∧ ∀ x v, conv x = .ok v → conv (some (.leaf v)) = .ok v
  | .container n default => n ≠ [] ∧ WFValue default
  | .dataclass n base norm => n ≠ [] ∧ WF base ∧ base.lookup moduleKey = none ∧ LawfulClass norm
  | .callable n sig => n ≠ [] ∧ WF sig
  | .module n choose resolve => n ≠ [] ∧ (∀ x m, choose x = .ok m → choose (some m) = .ok m) ∧ ∀ m i, resolve m = .ok i → LawfulImpl i

/-- All reads a program can make are lawful. -/
def LawfulProg {A : Type} : Prog V A → Prop
  | .ret _ => True
  | .read r next => LawfulRead r ∧ ∀ t, LawfulProg (next t)

/-- No option read is another one or a section of another one. -/
def Apart (names : List (List Str)) : Prop := names.Pairwise fun a b => ¬ a <+: b ∧ ¬ b <+: a

/-- A layer puts no single value where the presets have a section. -/
def Respects (presets layer : Entries V) : Prop := ∀ p, at_ presets p = some none → ∀ v, at_ layer p ≠ some (some v)

end Jaqmc.Replay.Spec
