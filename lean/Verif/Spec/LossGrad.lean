import Verif.Model.LossGrad
import Verif.Spec.Stats
/-! Specifications for C22 and C23. -/
namespace Jaqmc.LossGrad.Spec
open Jaqmc.LossGrad

/-- `m` is the `q`-quantile of the numbers `xs` with linear interpolation: with the numbers in ascending order
and `q (n-1) = i + t`, `0 ≤ t < 1`, it lies between the `i`-th and the next one (counting from 0) in the
proportion `t`. -/
def IsQuantile (q : ℝ) (xs : List ℝ) (m : ℝ) : Prop :=
  ∃ s : List ℝ, s.Perm xs ∧ s.Pairwise (· ≤ ·) ∧ ∃ (i : ℕ) (t a b : ℝ), 0 ≤ t ∧ t < 1 ∧
    q * ((xs.length : ℝ) - 1) = i + t ∧ s[i]? = some a ∧ (t ≠ 0 → s[i + 1]? = some b) ∧ m = (1 - t) * a + t * b

/-- `y` is `x` limited to the window `[lo, hi]`; NaN stays NaN. -/
def Limited (lo hi : ℝ) (x y : Option ℝ) : Prop :=
  match x with
  | none => y = none
  | some x => ∃ y', y = some y' ∧ lo ≤ y' ∧ y' ≤ hi ∧
      (lo ≤ x → x ≤ hi → y' = x) ∧ (x < lo → y' = lo) ∧ (hi < x → y' = hi)

/-- Every value of every shard is limited to the window. -/
def AllLimited (lo hi : ℝ) (shards out : List (List (Option ℝ))) : Prop :=
  List.Forall₂ (List.Forall₂ (Limited lo hi)) shards out

/-- Walkers without NaN, given as pairs (derivative of log ψ, local energy). -/
def walkers (shards : List (List (ℂ × ℂ))) : List (List Walker) :=
  shards.map (List.map (fun w => ⟨some w.1, some w.2⟩))

/-- Add a constant to every walker's local energy. -/
def shift (c : ℂ) (shards : List (List (ℂ × ℂ))) : List (List (ℂ × ℂ)) :=
  shards.map (List.map (fun w => (w.1, w.2 + c)))

/-- The energy gradient estimator: twice the real part of the covariance of the log-derivative and the
local energy. -/
noncomputable def covarianceGradient (ws : List (ℂ × ℂ)) : ℝ :=
  let g := Jaqmc.Stats.Spec.globalMean (ws.map Prod.fst)
  let e := Jaqmc.Stats.Spec.globalMean (ws.map Prod.snd)
  2 * Jaqmc.Stats.Spec.globalMean (ws.map (fun w => ((starRingEnd ℂ) (w.1 - g) * (w.2 - e)).re))

end Jaqmc.LossGrad.Spec
