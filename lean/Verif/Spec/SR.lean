import Verif.Model.SR
import Mathlib.LinearAlgebra.Matrix.PosDef
/-!
Specifications for stochastic reconfiguration (C76-C79), following docs/guide/optimizers/sr-spring-march.md.
-/
namespace Jaqmc.SR.Spec
open Matrix

variable {dev m k P : ℕ}

/-- Mean modulus of the derivatives of one sample. -/
noncomputable def rowMean (raw : Raw dev m k P) (d : Fin dev) (i : Fin m) : ℝ :=
  (∑ j, Real.sqrt (∑ a, raw d i a j ^ 2)) / P

/-- Rows whose mean modulus exceeds the clip value are shrunk to it. -/
noncomputable def clipped (clip : Option ℝ) (raw : Raw dev m k P) : Raw dev m k P := fun d i a j =>
  match clip with
  | none => raw d i a j
  | some c => if rowMean raw d i ≤ c then raw d i a j else c / rowMean raw d i * raw d i a j

/-- The score matrix: clipped derivatives minus their mean over all samples of all devices, over the square root of the
number of samples. -/
noncomputable def O (clip : Option ℝ) (raw : Raw dev m k P) : Matrix (Row dev m k) (Fin P) ℝ := fun r j =>
  (clipped clip raw r.1 r.2.1 r.2.2 j - (∑ d, ∑ i, clipped clip raw d i r.2.2 j) / (dev * m)) / Real.sqrt (dev * m)

/-- The Fisher matrix `Oᵀ O`. -/
noncomputable def fisher (clip : Option ℝ) (raw : Raw dev m k P) : Matrix (Fin P) (Fin P) ℝ :=
  fun i j => ∑ r, O clip raw r i * O clip raw r j

/-- The diagonal metric `M`: the square root of the accumulated variance (plus eps), or the identity. -/
noncomputable def metric (C : Config) (v : Fin P → ℝ) : Matrix (Fin P) (Fin P) ℝ :=
  match C.beta with
  | some _ => diagonal fun j => Real.sqrt (v j + C.eps)
  | none => 1

/-- Momentum: `μ` times the previous update. -/
noncomputable def momentum (C : Config) (st : State P) (j : Fin P) : ℝ :=
  match C.mu with
  | some mu => mu st.counter * st.prevDelta j
  | none => 0

/-- The documented weak-mode factor for a damping `lam`: `1/λ` (standard), `1/√λ` (`"sqrt"`), or the given value clipped
between 1 and `1/λ`. -/
noncomputable def gamma (C : Config) (step : ℕ) (lam : ℝ) : ℝ :=
  match C.gamma with
  | .standard => 1 / lam
  | .sqrt => 1 / Real.sqrt lam
  | .schedule f => if f step < min 1 (1 / lam) then min 1 (1 / lam) else if max 1 (1 / lam) < f step then max 1 (1 / lam) else f step

/-- The robust step `A⁻¹ ((S + γλ²M) A⁻¹ g + λ M p)` with `A = S + λM`; for `M = 1` its action on a mode of curvature `h` is
`(h + γλ²)/(h + λ)²` on the gradient and `λ/(h + λ)` on the momentum. -/
noncomputable def robust (S M : Matrix (Fin P) (Fin P) ℝ) (lam gamma : ℝ) (g p : Fin P → ℝ) : Fin P → ℝ :=
  (S + lam • M)⁻¹ *ᵥ ((S + (gamma * lam ^ 2) • M) *ᵥ ((S + lam • M)⁻¹ *ᵥ g) + lam • (M *ᵥ p))

/-- The accumulated variance that enters the metric of a step: in mode `var` it already includes the variance of the scores
of this step, in mode `diff` it is that of the state. -/
noncomputable def variance (C : Config) (raw : Raw dev m k P) (st : State P) : Fin P → ℝ :=
  accVar C (O C.clip raw) st

/-- States the optimizer can reach from its initial state, whatever samples, gradients and start vectors it is given. -/
inductive Reachable (C : Config) (lr : ℕ → ℝ) (mx : MaxNorm) : State P × ℕ → Prop
  | init : Reachable C lr mx (SR.init P, 0)
  | step {dev m k : ℕ} (v0 : Row dev m k → ℝ) (raw : Raw dev m k P) (grad : Fin P → ℝ) (st : State P × ℕ) :
      Reachable C lr mx st → Reachable C lr mx (SR.step C lr mx v0 raw grad st).2

/-- The options the documentation assumes: positive `eps`, positive clip value, a decay factor between 0 and 1, at least
one chunk, positive damping. -/
structure Valid (C : Config) : Prop where
  eps : 0 < C.eps
  clip : ∀ c, C.clip = some c → 0 < c
  beta : ∀ b, C.beta = some b → ∀ t, 0 ≤ b t ∧ b t ≤ 1
  chunks : ∀ n, C.chunks = some n → 0 < n
  damping : ∀ t, 0 < C.damping t
  cond : ∀ c, C.maxCond = some c → 1 < c

end Jaqmc.SR.Spec
