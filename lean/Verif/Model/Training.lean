import Verif.Model.Average
/-!
Model of a whole training run as a random experiment (C142): the main loop of `src/jaqmc/workflow/stage/vmc.py` with the sampler of
`src/jaqmc/sampler/mcmc.py`, whose width is adapted all along.
-/
namespace Jaqmc.Average
open Jaqmc.Sampler

variable {V N Ω Key Θ : Type} {n d : Nat}

/-- What a training run holds after `t` steps: the trainable state, the walkers and the state of the sampler.  Step `t` moves the walkers for the wavefunction `ψ τ` of the current
trainable state `τ` and then computes the next one from `τ` and the new walkers, vmc.py:239-266, 310-317.  `τ` stands for the parameters with the states of the
estimators and of the optimizer, `update t` for the estimators, the loss, the gradient, the optimizer and `apply_updates` of step `t`.  Simplification: nothing but the sampler draws
random numbers (vmc.py passes keys to the estimators and to the optimizer), and no step raises. -/
noncomputable def trainRun (cfg : Cfg) (g : RandomRng Ω Key N n) (move : ℝ → N → V → V) (ψ : Θ → V → ℂ) (update : Nat → Θ → (Fin d → Batch Unit n V) → Θ)
    (keys : Nat → Fin d → Key) (x₀ : Ω → Fin d → Batch Unit n V) (τ₀ : Θ) (s : State) (ω : Ω) : Nat → Θ × (Fin d → Batch Unit n V) × State
  | 0 => (τ₀, x₀ ω, s)
  | t + 1 =>
    let h := trainRun cfg g move ψ update keys x₀ τ₀ s ω t
    let r := step cfg (g.seed ω) (target (ψ h.1)) (moveAll g move ω) h.2.1 h.2.2 (keys t)
    (update t h.1 r.1, r.1, r.2.2)

/-- The trainable state after `t` steps, `state.params`, `state.estimator_state` and `state.opt_state` of vmc.py:258-266. -/
noncomputable def trained (cfg : Cfg) (g : RandomRng Ω Key N n) (move : ℝ → N → V → V) (ψ : Θ → V → ℂ) (update : Nat → Θ → (Fin d → Batch Unit n V) → Θ)
    (keys : Nat → Fin d → Key) (x₀ : Ω → Fin d → Batch Unit n V) (τ₀ : Θ) (s : State) (ω : Ω) (t : Nat) : Θ := (trainRun cfg g move ψ update keys x₀ τ₀ s ω t).1

/-- The walkers after `t` steps, `state.batched_data` of vmc.py:262. -/
noncomputable def trainWalkers (cfg : Cfg) (g : RandomRng Ω Key N n) (move : ℝ → N → V → V) (ψ : Θ → V → ℂ) (update : Nat → Θ → (Fin d → Batch Unit n V) → Θ)
    (keys : Nat → Fin d → Key) (x₀ : Ω → Fin d → Batch Unit n V) (τ₀ : Θ) (s : State) (ω : Ω) (t : Nat) : Fin d → Batch Unit n V :=
  (trainRun cfg g move ψ update keys x₀ τ₀ s ω t).2.1

/-- The width of the proposals in step `t`, `stddev` of `MCMCState`, mcmc.py:39-51, 173-180. -/
noncomputable def trainWidth (cfg : Cfg) (g : RandomRng Ω Key N n) (move : ℝ → N → V → V) (ψ : Θ → V → ℂ) (update : Nat → Θ → (Fin d → Batch Unit n V) → Θ)
    (keys : Nat → Fin d → Key) (x₀ : Ω → Fin d → Batch Unit n V) (τ₀ : Θ) (s : State) (ω : Ω) (t : Nat) : ℝ :=
  (trainRun cfg g move ψ update keys x₀ τ₀ s ω t).2.2.stddev

end Jaqmc.Average
