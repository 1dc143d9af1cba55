import Verif.Model.Spins
/-! Specifications for C38, C39, C59 and C60. -/
namespace Jaqmc.Spins.Spec
open Jaqmc.Spins

/-- Electrons an atom should start with: its charge minus its local charge (the documented meaning:
"Positive values cause fewer electrons to be initialized near the atom"). -/
def documentedElectrons (a : Atom) (i : Init) : ℤ := a.charge - i.localCharge

/-- `r` is an admissible assignment for starting occupations `start` of atoms with flags `fixed`: no negative
occupation, every atom keeps its number of electrons, fixed atoms keep their occupation, and the channel totals are
as requested. -/
structure Good (start : List (ℤ × ℤ)) (fixed : List Bool) (total : ℤ × ℤ) (r : List (ℤ × ℤ)) : Prop where
  length : r.length = start.length
  nonneg : ∀ j, 0 ≤ (r.getD j (0, 0)).1 ∧ 0 ≤ (r.getD j (0, 0)).2
  electrons : ∀ j, (r.getD j (0, 0)).1 + (r.getD j (0, 0)).2 = (start.getD j (0, 0)).1 + (start.getD j (0, 0)).2
  kept : ∀ j, fixed.getD j true = true → r.getD j (0, 0) = start.getD j (0, 0)
  up : (r.map Prod.fst).sum = total.1
  down : (r.map Prod.snd).sum = total.2

/-- Starting occupations of all atoms (`rawSpins` is characterised by C39). -/
def starts (atoms : List (Atom × Init)) : List (ℤ × ℤ) := atoms.map (fun p => rawSpins p.1 p.2)

/-- Flags of atoms with a prescribed spin. -/
def flags (atoms : List (Atom × Init)) : List Bool := atoms.map (fun p => p.2.imbalance.isSome)

end Jaqmc.Spins.Spec
