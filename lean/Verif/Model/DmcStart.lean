import Verif.Model.DmcRun
/-! # The default start of a legacy DMC run, and its fixed-size branching on lists (C147)

`/repo/src/jaqmc_legacy/dmc/{state,hamiltonian,branch_fix_size}.py`.  The walkers of all hosts are one list. -/

namespace Jaqmc.DmcRun
open Jaqmc.DmcEnergy
open scoped Classical

/-- `calc_masked_energy` (hamiltonian.py:198-203) of a list of (energy, mask): `agg_mean` (utils.py:36-42)
of the clipped energies with the masks as weights. -/
noncomputable def maskedEnergy (pair : Option (ℝ × ℝ)) (l : List (ℝ × ℝ)) : ℝ :=
  (l.map fun e => clipPair pair e.1 * e.2).sum / (l.map Prod.snd).sum

/-- `to_pad_num` of `calc_energy` (hamiltonian.py:175-180). -/
def startPad (walkers devices : ℕ) : ℕ :=
  (if walkers % devices = 0 then walkers else walkers + devices - walkers % devices) - walkers

/-- `calc_energy` (hamiltonian.py:174-193) of the local energies of the walkers: padded with masked walkers
(energy 0, hamiltonian.py:162-167) to a multiple of the number of devices. -/
noncomputable def startEnergy (pair : Option (ℝ × ℝ)) (devices : ℕ) (energies : List ℝ) : ℝ :=
  maskedEnergy pair (energies.map (fun e => (e, 1)) ++ List.replicate (startPad energies.length devices) (0, 0))

/-- `State.default` (state.py:36-63): weights one, the number of walkers as target, their energy as offset and
as mixed estimator, fresh calculators; with it `run` starts at step 0 if it is given no state and finds no
checkpoint (dmc.py:188-216).  `energy` is the local energy of a walker, not modelled here. -/
noncomputable def defaultState {X : Type} (pair : Option (ℝ × ℝ)) (devices : ℕ) (energy : X → ℝ)
    (positions : List X) : State X :=
  let e := startEnergy pair devices (positions.map energy)
  ⟨positions.map fun x => (1, x), e, positions.length, e, Calc.init, TStep.init⟩

/-- The fixed-size branching (branch_fix_size.py:12-62, `fix_size`, dmc.py:248-250) of a list of walkers; `u`
are the uniform draws made with a key. -/
noncomputable def fixBranch {Key Y : Type} (minT maxT : ℝ) (u : Key → ℕ → ℝ) (key : Key)
    (l : List (ℝ × Y)) : Option (List (ℝ × Y)) :=
  (DmcBranch.branchFix (fun i : Fin l.length => (l.get i).1) (fun i => (l.get i).2) minT maxT (u key)).map
    fun r => List.ofFn fun i => (r.1 i, r.2 i)

end Jaqmc.DmcRun
