import Verif.Model.DmcStart
/-! What C147 speaks about: moves with an exact guide, branching that only selects. -/

namespace Jaqmc.DmcRun.Spec
open Jaqmc.DmcRun Jaqmc.DmcEnergy

/-- The clipping of energies (if there is one) leaves energies from `lo` to `hi` alone. -/
def Fits (pair : Option (ℝ × ℝ)) (lo hi : ℝ) : Prop :=
  ∀ a b, pair = some (a, b) → a ≤ lo ∧ hi ≤ b

/-- Whatever is moved, the energies that come back are between `lo` and `hi`. -/
def Between {X Key : Type} (s : Setup X Key) (lo hi : ℝ) : Prop :=
  ∀ l k o m, ∀ x ∈ s.move l k o m, lo ≤ x.energy ∧ x.energy ≤ hi

/-- Every local energy is `E`: the growth of a walker's weight is that of two energies `E` (before and after
the proposed move, with any acceptance rate and any velocities). -/
def ExactGuide {X Key : Type} (s : Setup X Key) (alpha : ℝ) (E : ℝ) : Prop :=
  ∀ l k o m, ∀ x ∈ s.move l k o m, x.energy = E ∧
    ∃ (electrons : ℕ) (rate v vc v' vc' : ℝ), x.deltaLog = weightDeltaLog rate
      (branchVal alpha s.pair electrons s.timeStep v vc o m E)
      (branchVal alpha s.pair electrons s.timeStep v' vc' o m E)

/-- A branching step that, of walkers with positive weights, keeps some, makes no other walkers and no weight
that is not positive. -/
def Fair {Key Y : Type} (branch : Key → List (ℝ × Y) → Option (List (ℝ × Y))) : Prop :=
  ∀ k l p, l ≠ [] → (∀ e ∈ l, 0 < e.1) → branch k l = some p →
    p ≠ [] ∧ ∀ e ∈ p, 0 < e.1 ∧ ∃ e' ∈ l, e'.2 = e.2

/-- A branching step that leaves a population of two or more walkers alone when all weights are one. -/
def Idle {Key Y : Type} (branch : Key → List (ℝ × Y) → Option (List (ℝ × Y))) : Prop :=
  ∀ k l, 2 ≤ l.length → (∀ e ∈ l, e.1 = 1) → branch k l = some l

end Jaqmc.DmcRun.Spec
