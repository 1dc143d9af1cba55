import Verif.Model.Descent
import Verif.Model.ImagTime
/-!
Model of a training run with stochastic reconfiguration (C146): `src/jaqmc/optimizer/sr/jasr.py` in the main loop of `src/jaqmc/workflow/stage/vmc.py`.
-/
namespace Jaqmc.Average
open Jaqmc.Sampler

variable {V N Ω Key : Type} {n d p : Nat}

/-- The gradients handed to the optimizer, one number per parameter, vmc.py:242-250, loss_grad.py:96-128; zero stands for what never happens: an error or NaN. -/
noncomputable def stepGradients (method : String) (scale : ℝ) (g : Fin p → V → ℂ) (e : V → ℂ) (x : Fin d → Batch Unit n V) : Fin p → ℝ := fun k =>
  match stepGradient method scale (g k) e x with
  | .ok (_, some G) => G
  | _ => 0

/-- One update with SR: `τ` is the parameters with the optimizer's state.  The gradient is computed from the walkers the sampler left, vmc.py:242-247, the optimizer turns it and the
derivatives of `log ψ` at the same walkers into the change of the parameters, vmc.py:248-257 with jasr.py:352-519, and `optax.apply_updates` adds that, vmc.py:258.  `v0 t` is the start
vector of the power iteration in step `t`, `g` the derivatives and `e` the local energies as in `sgdUpdate`, with the same simplification. -/
noncomputable def srUpdate (C : SR.Config) (lr : ℕ → ℝ) (mx : SR.MaxNorm) (v0 : ℕ → SR.Row d n 2 → ℝ) (method : String) (scale : ℝ) (g : (Fin p → ℝ) → Fin p → V → ℂ)
    (e : (Fin p → ℝ) → V → ℂ) (t : Nat) (τ : (Fin p → ℝ) × (SR.State p × ℕ)) (x : Fin d → Batch Unit n V) : (Fin p → ℝ) × (SR.State p × ℕ) :=
  let o := SR.step C lr mx (v0 t) (ImagTime.complexRaw fun a i k => g τ.1 k (x a () i)) (stepGradients method scale (g τ.1) (e τ.1) x) τ.2
  (fun k => τ.1 k + o.1 k, o.2)

end Jaqmc.Average
