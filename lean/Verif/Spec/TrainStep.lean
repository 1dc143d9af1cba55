import Verif.Model.TrainStep
/-! # Training runs: what is claimed (C128) -/

namespace Jaqmc.TrainStep.Spec
open Jaqmc.TrainStep
variable {K P D S E O V R : Type}

/-- One sampling step with the parameters `θ` fixed leads from `(d, s)` to `(d', s')` and reports
`stats`. -/
def Sampled (c : Parts K P D S E O V R) (θ : P) (d : D) (s : S) (d' : D) (s' : S) (stats : Dict V) : Prop :=
  ∃ key, c.sample θ d s key = (d', stats, s')

/-- One step of training: the walkers move with the old parameters, everything is estimated for the new
walkers with the old parameters, and the old parameters are changed by the optimizer's answer to the
gradient estimated there. `row` are the statistics to be reported: those of the samplers, and those of
the estimators under all other names except `grads`. -/
def Trained (c : Parts K P D S E O V R) (a : State P D S E O) (row : Dict V) (b : State P D S E O) : Prop :=
  ∃ samplerStats raw g u k₁ k₂,
    Sampled c a.params a.data a.sampler b.data b.sampler samplerStats ∧
    c.evaluate a.params b.data a.estimator k₁ = (raw, b.estimator) ∧
    c.finalize raw b.estimator "grads" = some g ∧
    c.update g a.opt a.params b.data k₂ = (u, b.opt) ∧
    b.params = c.apply a.params u ∧
    (∀ name v, samplerStats name = some v → row name = some v) ∧
    (∀ name, samplerStats name = none → name ≠ "grads" → row name = c.finalize raw b.estimator name) ∧
    (samplerStats "grads" = none → row "grads" = none)

/-- One step of evaluation: the walkers move and everything is estimated; parameters stay. -/
def Evaluated (c : Parts K P D S E O V R) (a : State P D S E O) (row : R) (b : State P D S E O) : Prop :=
  ∃ samplerStats k,
    Sampled c a.params a.data a.sampler b.data b.sampler samplerStats ∧
    c.evaluate a.params b.data a.estimator k = (row, b.estimator) ∧
    b.params = a.params ∧ b.opt = a.opt

end Jaqmc.TrainStep.Spec
