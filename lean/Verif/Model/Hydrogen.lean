import Verif.Model.Kinetic
import Verif.Model.Ph
import Verif.Model.Stats
/-!
Model of `src/jaqmc/app/hydrogen_atom.py`: the one-parameter wavefunction, its potential and the local energy assembled by the
workflow.  Exact arithmetic; the electron is not at the nucleus.
-/
namespace Jaqmc.Hydrogen

/-- `jnp.linalg.norm(data.electrons)` of one walker: three coordinates. -/
noncomputable def norm3 (x : Fin 3 → ℝ) : ℝ := Real.sqrt (∑ k, x k ^ 2)

/-- `HydrogenAtom.__call__`, hydrogen_atom.py:31-35. -/
noncomputable def logpsi (alpha : ℝ) (x : Fin 3 → ℝ) : ℝ := norm3 x * alpha

/-- `potential_energy`, hydrogen_atom.py:38-41. -/
noncomputable def potential (x : Fin 3 → ℝ) : ℝ := -1 / norm3 x

/-- The statistics `total_energy` of one walker: the estimators `kinetic`, `potential`, `total`, hydrogen_atom.py:71-75, 96-100, through
the pipeline of C19 and C21. -/
noncomputable def localEnergy (mode : Kinetic.Mode) (alpha : ℝ) (x : Fin 3 → ℝ) : Option ℝ :=
  let d0 : Stats.Dict ℝ := []
  let d1 := Stats.Dict.update d0 [("energy:kinetic", Kinetic.standard mode (logpsi alpha) x)]
  let d2 := Stats.Dict.update d1 [("energy:potential", potential x)]
  (Stats.totalEnergy none (d2.map fun p => (p.1, Stats.Stat.scalar p.2))).toOption

/-- `data_init`, hydrogen_atom.py:44-57, one walker, from the drawn radius and angles. -/
noncomputable def init (r theta phi : ℝ) : Fin 3 → ℝ :=
  ![r * Real.sin theta * Real.cos phi, r * Real.sin theta * Real.sin phi, r * Real.cos theta]

end Jaqmc.Hydrogen
