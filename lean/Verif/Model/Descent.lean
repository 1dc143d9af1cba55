import Verif.Model.Training
import Verif.Model.SampledGradient
/-!
Model of a training run with plain gradient descent (C143): `optax.sgd`, wrapped by `src/jaqmc/optimizer/optax.py`, in the main loop of `src/jaqmc/workflow/stage/vmc.py`.
-/
namespace Jaqmc.Average
open Jaqmc.Sampler

variable {V N Ω Key : Type} {n d p : Nat}

/-- One update of the parameters `θ`: the gradient of each is computed from the walkers the sampler left, vmc.py:242-247, `optax.sgd` (no momentum) turns it into minus the learning
rate times the gradient, optimizer/optax.py:72-74, and `optax.apply_updates` adds that, vmc.py:251-258.  `η t` is the learning rate of step `t`, whatever the schedule, `g θ k` the
derivative of `log ψ` by parameter `k` and `e θ` the local energy at the parameters `θ`.  Simplification: the clipping does not raise and no walker has NaN, so that the other branch is
never taken. -/
noncomputable def sgdUpdate (method : String) (scale : ℝ) (η : Nat → ℝ) (g : (Fin p → ℝ) → Fin p → V → ℂ) (e : (Fin p → ℝ) → V → ℂ) (t : Nat) (θ : Fin p → ℝ)
    (x : Fin d → Batch Unit n V) : Fin p → ℝ := fun k =>
  match stepGradient method scale (g θ k) (e θ) x with
  | .ok (_, some G) => θ k - η t * G
  | _ => θ k

/-- The parameters after `t` steps of such a run, `state.params` of vmc.py:258-266. -/
noncomputable def descended (cfg : Cfg) (r : RandomRng Ω Key N n) (move : ℝ → N → V → V) (ψ : (Fin p → ℝ) → V → ℂ) (method : String) (scale : ℝ) (η : Nat → ℝ)
    (g : (Fin p → ℝ) → Fin p → V → ℂ) (e : (Fin p → ℝ) → V → ℂ) (keys : Nat → Fin d → Key) (x₀ : Ω → Fin d → Batch Unit n V) (θ₀ : Fin p → ℝ) (s : State) (ω : Ω) (t : Nat) : Fin p → ℝ :=
  trained cfg r move ψ (sgdUpdate method scale η g e) keys x₀ θ₀ s ω t

end Jaqmc.Average
