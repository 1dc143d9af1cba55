import Mathlib.Data.List.Basic
/-! # Random keys: what is claimed (C126) -/

namespace Jaqmc.Keys.Spec

/-- Two keys, given as derivation paths, are unrelated: they are different, and nothing derived
from one is ever equal to anything derived from the other. -/
def Unrelated (a b : List Nat) : Prop := ∀ s t, a ++ s ≠ b ++ t

/-- A piece of code respects its key: it only draws with keys derived from the one it was given,
and never draws twice with related keys. -/
def Respects (f : List Nat → List (List Nat)) : Prop :=
  ∀ k, (∀ u ∈ f k, ∃ s, u = k ++ s) ∧ (f k).Pairwise Unrelated

/-- Two groups of draws have nothing to do with each other. -/
def Separate (xs ys : List (List Nat)) : Prop := ∀ x ∈ xs, ∀ y ∈ ys, Unrelated x y

end Jaqmc.Keys.Spec
