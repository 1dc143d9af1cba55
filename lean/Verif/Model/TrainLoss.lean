import Verif.Model.Training
import Verif.Model.SampledGradient
/-!
Model of the loss a training run prints (C144): `src/jaqmc/workflow/stage/vmc.py` with `src/jaqmc/estimator/loss_grad.py`.
-/
namespace Jaqmc.Average
open Jaqmc.Sampler

variable {V N Ω Key Θ : Type} {n d : Nat}

/-- The loss step `t` of a training run reports, vmc.py:242-247, 258, estimator/loss_grad.py:96-128: the walkers are those the step's sampling leaves, the log-derivatives `lg` and the
local energies `e` those of the trainable state before the update.  `none` stands for an error. -/
noncomputable def trainLoss (cfg : Cfg) (r : RandomRng Ω Key N n) (move : ℝ → N → V → V) (ψ : Θ → V → ℂ) (update : Nat → Θ → (Fin d → Batch Unit n V) → Θ)
    (method : String) (scale : ℝ) (lg e : Θ → V → ℂ) (keys : Nat → Fin d → Key) (x₀ : Ω → Fin d → Batch Unit n V) (τ₀ : Θ) (s : State) (ω : Ω) (t : Nat) : Option ℂ :=
  match stepGradient method scale (lg (trained cfg r move ψ update keys x₀ τ₀ s ω t)) (e (trained cfg r move ψ update keys x₀ τ₀ s ω t))
      (trainWalkers cfg r move ψ update keys x₀ τ₀ s ω (t + 1)) with
  | .ok (l, _) => l
  | .error _ => none

end Jaqmc.Average
