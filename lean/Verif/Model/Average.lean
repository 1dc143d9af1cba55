import Verif.Model.Sampler
import Verif.Model.Stats
import Mathlib.Analysis.Complex.Norm
/-!
Model of an evaluation of a fixed wavefunction as a random experiment (C135): `src/jaqmc/sampler/mcmc.py`, `src/jaqmc/sampler/base.py` (one
sampler, one sampled field), the energy statistics of `src/jaqmc/estimator/base.py` and their average over the steps.  The generator's draws are
functions on a probability space; all the rest is the model of `Verif.Model.Sampler` and `Verif.Model.Stats`.
-/
namespace Jaqmc.Average
open Jaqmc.Sampler

variable {V N Ω Key : Type} {n d : Nat}

/-- `jax.random.split` into three, and the draws of the proposal and of `jax.random.uniform` for each walker, mcmc.py:54-55,125-131; `ω` stands
for the seed. -/
structure RandomRng (Ω Key N : Type) (n : Nat) where
  split3 : Key → Key × Key × Key
  noise : Key → Fin n → Ω → N
  uniform : Key → Fin n → Ω → ℝ

/-- The generator for one seed. -/
def RandomRng.seed (g : RandomRng Ω Key N n) (ω : Ω) : Rng Key n := ⟨g.split3, fun k i => g.uniform k i ω⟩

/-- `sampling_proposal` on a batch with one sampled field: each walker is moved with its own noise, mcmc.py:54-55, geometry/sphere.py:57-72. -/
def moveAll (g : RandomRng Ω Key N n) (move : ℝ → N → V → V) (ω : Ω) (width : ℝ) (key : Key) (x : Batch Unit n V) : Batch Unit n V :=
  fun f i => move width (g.noise key i ω) (x f i)

/-- `2 * log_amplitude`, sampler/base.py:175: minus infinity where the wavefunction vanishes. -/
noncomputable def logProbOf (ψ : V → ℂ) (x : V) : LP := by
  classical exact if ψ x = 0 then .ninf else .fin (2 * Real.log ‖ψ x‖)

/-- The target of every device in every step of an evaluation: the parameters do not change, evaluation.py:141-170. -/
noncomputable def target (ψ : V → ℂ) : Fin d → Batch Unit n V → Fin n → LP := fun _ => batched fun _ y => logProbOf ψ (y ())

/-- The walkers after `T` sampling steps; `keys t a` is the key device `a` gets in step `t`. -/
noncomputable def walkers (cfg : Cfg) (g : RandomRng Ω Key N n) (move : ℝ → N → V → V) (ψ : V → ℂ) (keys : Nat → Fin d → Key)
    (x₀ : Ω → Fin d → Batch Unit n V) (s : State) (ω : Ω) (T : Nat) : Fin d → Batch Unit n V :=
  (run cfg (g.seed ω) (moveAll g move ω) (x₀ ω) s ((List.range T).map fun t => (target ψ, keys t))).1

/-- The energy a step reports: `mean_reduce` over walkers and devices, estimator/base.py:43-45. -/
noncomputable def stepEnergy (e : V → ℂ) (x : Fin d → Batch Unit n V) : Option ℂ :=
  Stats.meanOf ((List.finRange d).map fun a => (List.finRange n).map fun i => some (e (x a () i)))

/-- The energy an evaluation of `T` steps reports: the average over its steps, each measured after its sampling step,
estimator/base.py:172-193. -/
noncomputable def reported (cfg : Cfg) (g : RandomRng Ω Key N n) (move : ℝ → N → V → V) (ψ e : V → ℂ) (keys : Nat → Fin d → Key)
    (x₀ : Ω → Fin d → Batch Unit n V) (s : State) (T : Nat) (ω : Ω) : Option ℂ :=
  Stats.nanmean ((List.range T).map fun t => stepEnergy e (walkers cfg g move ψ keys x₀ s ω (t + 1)))

/-- `gaussian_proposal` for one walker with `m` coordinates, mcmc.py:54-55. -/
def gaussianMove {m : Nat} (width : ℝ) (z x : Fin m → ℝ) : Fin m → ℝ := fun c => x c + z c * width

end Jaqmc.Average
