import Verif.Model.SR
import Verif.Model.LossGrad
import Mathlib.Analysis.Calculus.Deriv.Basic
/-! # A training step with stochastic reconfiguration (C134)

How the pieces meet: the derivatives of the log-wavefunction that `optimizer/sr/jasr.py:322,389-398` computes (`adaptive_grad`,
jasr.py:996-1038), the gradient that `estimator/loss_grad.py` reports from the same walkers (the optimizer is called with the walkers at
which the gradient was evaluated, `workflow/stage/vmc.py:238-262`, C128), and the step of `Model/SR`. -/

namespace Jaqmc.ImagTime
open Jaqmc.SR Jaqmc.LossGrad

/-- `adaptive_grad(f)` along one real parameter, jasr.py:1023-1038: `jax.grad` for a real function; for a complex one `jax.grad` raises
`TypeError` and `r2c_grad` (jasr.py:996-1010) differentiates real and imaginary part. -/
noncomputable def adaptiveGrad (f : (ℝ → ℝ) ⊕ (ℝ → ℂ)) (x : ℝ) : ℂ :=
  match f with
  | .inl f => ((deriv f x : ℝ) : ℂ)
  | .inr f => ((deriv (fun t => (f t).re) x : ℝ) : ℂ) + Complex.I * ((deriv (fun t => (f t).im) x : ℝ) : ℂ)

variable {dev m P : ℕ}

/-- The rows of the score matrix of a complex log-wavefunction before centring, `[score.real, score.imag]`, jasr.py:448-450; `D d i j` is the derivative
for walker `i` of device `d` with respect to parameter `j`. -/
def complexRaw (D : Fin dev → Fin m → Fin P → ℂ) : Raw dev m 2 P := fun d i a j => if a = 0 then (D d i j).re else (D d i j).im

/-- The rows for a real log-wavefunction. -/
def realRaw (D : Fin dev → Fin m → Fin P → ℝ) : Raw dev m 1 P := fun d i _ j => D d i j

/-- The walkers as the loss estimator sees them for parameter `j`, loss_grad.py:68-94: derivative and local energy, device by device. -/
def shardsOf (D : Fin dev → Fin m → Fin P → ℂ) (E : Fin dev → Fin m → ℂ) (j : Fin P) : List (List (ℂ × ℂ)) :=
  List.ofFn fun d => List.ofFn fun i => (D d i j, E d i)

/-- `grads` of a training step, loss_grad.py:96-128: one number per parameter. -/
def IsGradient (method : String) (scale : ℝ) (D : Fin dev → Fin m → Fin P → ℂ) (E : Fin dev → Fin m → ℂ) (grad : Fin P → ℝ) : Prop :=
  ∀ j, ∃ loss, lossAndGrad method scale [(shardsOf D E j).map (List.map fun w => ⟨some w.1, some w.2⟩)] = .ok (loss, some (grad j))

end Jaqmc.ImagTime
