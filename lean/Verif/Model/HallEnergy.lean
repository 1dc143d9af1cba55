import Verif.Model.HallStats
import Verif.Model.Kinetic
import Verif.Model.Stats
import Mathlib.Analysis.SpecialFunctions.Sqrt
/-!
Model of the energy estimators of a training run on the Haldane sphere: `app/hall/hamiltonian.py`,
`app/hall/estimator/penalized_loss.py` and their wiring in `app/hall/workflow.py`.  Exact arithmetic.
-/
namespace Jaqmc.HallEnergy
open Jaqmc.Hall Jaqmc.HallStats Jaqmc.Kinetic Jaqmc.Stats
open scoped BigOperators

/-- `SpherePotential.evaluate_single_walker`, hamiltonian.py:46-62, the Coulomb interaction (the only member of `InteractionType`);
`jnp.triu(·, k=1)` keeps the entries above the diagonal. -/
noncomputable def potential {n : ℕ} (radius strength : ℝ) (e : Fin n → Angles) : ℝ :=
  let ree := fun i j => Real.sqrt (2 - 2 * cos12 (e i) (e j))
  (∑ i, ∑ j, if i < j then 1 / ree i j else 0) / radius * strength

/-- The settings of `PenalizedLoss`, penalized_loss.py:33-35. -/
structure Penalty where
  lzCenter : ℝ
  lzPenalty : ℝ
  l2Penalty : ℝ

/-- `prev_walker_stats[key]` for a scalar; `keyError` when absent. -/
def get (prev : Dict (Stat ℂ)) (k : String) : Except EnergyErr ℂ :=
  match prev.lookup k with
  | none => .error .keyError
  | some .array => .error .valueError
  | some (.scalar x) => .ok x

open Classical in
/-- `PenalizedLoss.evaluate_single_walker`, penalized_loss.py:37-61, the value of `penalized_loss` (the arrays an estimator could
have written are not modelled: `get` fails on them). -/
noncomputable def penalizedLoss (p : Penalty) (prev : Dict (Stat ℂ)) : Except EnergyErr ℂ := do
  let loss ← get prev "total_energy"
  let loss ←
    if p.lzPenalty ≠ 0 then do
      let lz ← get prev "angular_momentum_z"
      let lzSq ← get prev "angular_momentum_z_square"
      pure (loss + p.lzPenalty * (lzSq - 2 * p.lzCenter * lz + p.lzCenter ^ 2))
    else pure loss
  if p.l2Penalty ≠ 0 then do
    let l2 ← get prev "angular_momentum_square"
    pure (loss + p.l2Penalty * l2)
  else pure loss

/-- `HallConfig`, app/hall/config.py:22-48, the fields the energy depends on. -/
structure Config where
  flux : ℕ
  radius : Option ℝ
  strength : ℝ
  penalty : Penalty

/-- The radius, workflow.py:126-131. -/
noncomputable def Config.r (c : Config) : ℝ := c.radius.getD (Real.sqrt ((c.flux : ℝ) / 2))

/-- The Laplacian mode of `SphericalKinetic` (spherical.py:140-152); in forward mode, with what `forward_laplacian` returned. -/
inductive KMode (n : ℕ)
  | hessian
  | forward (jac : Fin n → Fin 2 → ℂ) (lap : ℂ)

/-- `SphericalKinetic.evaluate_single_walker`, spherical.py:141-288: the dictionary it returns. -/
noncomputable def kineticStats {n : ℕ} (mode : KMode n) (Q r : ℝ) (f : Conf n → ℂ) (x : Conf n) : Dict (Stat ℂ) :=
  let (e, s) := match mode with
    | .hessian => (sphereHessian Q r f x, angularHessian Q f x)
    | .forward jac lap => (sphereForward Q r x jac lap, angularForward Q f x)
  [("energy:kinetic", .scalar e), ("angular_momentum_z", .scalar s.z), ("angular_momentum_z_square", .scalar s.zSquare),
    ("angular_momentum_square", .scalar s.square)]

open Classical in
/-- `has_penalties`, workflow.py:60. -/
noncomputable def hasPenalties (p : Penalty) : Bool := decide (p.lzPenalty ≠ 0 ∨ p.l2Penalty ≠ 0)

/-- `loss_key`, workflow.py:61. -/
noncomputable def lossKey (p : Penalty) : String := if hasPenalties p then "penalized_loss" else "total_energy"

/-- The statistics of one walker after the estimators `make_estimators` lists under `energy` (workflow.py:124-163), each shown the values of the earlier
ones (estimator/base.py:350-362). -/
noncomputable def walkerStats {n : ℕ} (c : Config) (mode : KMode n) (f : Conf n → ℂ) (x : Conf n) : Except EnergyErr (Dict (Stat ℂ)) := do
  let Q : ℝ := (c.flux : ℝ) / 2
  let d := Dict.update [] (kineticStats mode Q c.r f x)
  let d := Dict.update d [("energy:potential", .scalar (potential c.r c.strength x : ℂ))]
  let t ← totalEnergy none d
  let d := Dict.update d [("total_energy", .scalar t)]
  if hasPenalties c.penalty then do
    let l ← penalizedLoss c.penalty d
    pure (Dict.update d [("penalized_loss", .scalar l)])
  else pure d

/-- The loss of one walker that `LossAndGrad(loss_key=loss_key)` reads, workflow.py:70-73 and loss_grad.py:79-93. -/
noncomputable def loss {n : ℕ} (c : Config) (mode : KMode n) (f : Conf n → ℂ) (x : Conf n) : Except EnergyErr ℂ := do
  let d ← walkerStats c mode f x
  get d (lossKey c.penalty)

end Jaqmc.HallEnergy
