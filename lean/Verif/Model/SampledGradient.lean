import Verif.Model.Average
import Verif.Model.LossGrad
/-!
Model of the gradient a training step takes from the walkers its sampler left (C141): `compute_step` of `src/jaqmc/workflow/stage/vmc.py`.
-/
namespace Jaqmc.Average
open Jaqmc.Sampler

variable {V N Ω Key : Type} {n d : Nat}

/-- The loss and the gradient (for one parameter) a training step computes from the walkers `x`: each walker's log-derivative `g` and local energy `e` go through the
clipping and the reductions of `loss_grad.py`, one step in all, vmc.py:242-247, estimator/loss_grad.py.  Simplification: no walker has NaN in `g` or `e`. -/
noncomputable def stepGradient (method : String) (scale : ℝ) (g e : V → ℂ) (x : Fin d → Batch Unit n V) : Except LossGrad.ClipErr (Option ℂ × Option ℝ) :=
  LossGrad.lossAndGrad method scale [(List.finRange d).map fun a => (List.finRange n).map fun i => ⟨some (g (x a () i)), some (e (x a () i))⟩]

/-- The loss and the gradient of training step `k`, with the walkers as the step's own sampling leaves them, vmc.py:239-247.  The parameters are those of step `k`: between
updates of the parameters the walkers are moved with the wavefunction `ψ` that is differentiated. -/
noncomputable def sampledGradient (method : String) (scale : ℝ) (cfg : Cfg) (r : RandomRng Ω Key N n) (move : ℝ → N → V → V) (ψ g e : V → ℂ) (keys : Nat → Fin d → Key)
    (x₀ : Ω → Fin d → Batch Unit n V) (s : State) (k : Nat) (ω : Ω) : Except LossGrad.ClipErr (Option ℂ × Option ℝ) :=
  stepGradient method scale g e (walkers cfg r move ψ keys x₀ s ω k)

end Jaqmc.Average
