import Verif.Model.Average
/-!
Model of the variance an evaluation reports beside its energy (C140): `src/jaqmc/estimator/base.py` and `src/jaqmc/estimator/total_energy.py`.
-/
namespace Jaqmc.Average
open Jaqmc.Sampler

variable {V N Ω Key : Type} {n d : Nat}

/-- The variance a step reports, `total_energy_var`, or `total_energy_real_var` for complex energies: `mean_reduce` on the real parts, total_energy.py:62-70,
estimator/base.py:46-51. -/
noncomputable def stepVar (e : V → ℂ) (x : Fin d → Batch Unit n V) : Option ℝ :=
  Stats.varOf ((List.finRange d).map fun a => (List.finRange n).map fun i => some (e (x a () i)).re)

/-- The variance an evaluation of `T` steps reports: `finalize_stats` averages this key over the steps like every other, estimator/base.py:172-193. -/
noncomputable def reportedVar (cfg : Cfg) (g : RandomRng Ω Key N n) (move : ℝ → N → V → V) (ψ e : V → ℂ) (keys : Nat → Fin d → Key)
    (x₀ : Ω → Fin d → Batch Unit n V) (s : State) (T : Nat) (ω : Ω) : Option ℝ :=
  Stats.nanmean ((List.range T).map fun t => stepVar e (walkers cfg g move ψ keys x₀ s ω (t + 1)))

end Jaqmc.Average
