import Verif.Model.LegacyLoss
import Verif.Spec.Stats
import Verif.Spec.LossGrad
/-! Specifications for the losses of `jaqmc_legacy` (C102–C108). -/
namespace Jaqmc.LegacyLoss.Spec
open Jaqmc.LegacyLoss Jaqmc.Stats.Spec

/-- The real numbers among floating-point values. -/
def finite (xs : List F) : List ℝ := xs.filterMap fun
  | .num x => some x
  | _ => none

/-- The mean absolute deviation from the mean. -/
noncomputable def absDev (xs : List ℝ) : ℝ := globalMean (xs.map fun x => |x - globalMean xs|)

/-- Close to the mean: within `width` times the mean absolute deviation, the end points excluded. -/
def Near (width : ℝ) (xs : List ℝ) (x : ℝ) : Prop := |x - globalMean xs| < width * absDev xs

open Classical in
/-- The values that count: all of them, or those near the mean if outliers are removed. -/
noncomputable def kept (rmOutlier : Bool) (width : ℝ) (xs : List ℝ) : List ℝ :=
  if rmOutlier ∧ width > 0 then xs.filter fun x => Near width xs x else xs

/-- The walkers, pairs (log-derivative, local energy), whose energy is a real number. -/
def finitePairs (ws : List (ℝ × F)) : List (ℝ × ℝ) := ws.filterMap fun
  | (t, .num e) => some (t, e)
  | _ => none

open Classical in
/-- The walkers that count. -/
noncomputable def keptPairs (rmOutlier : Bool) (width : ℝ) (ws : List (ℝ × F)) : List (ℝ × ℝ) :=
  let ps := finitePairs ws
  if rmOutlier ∧ width > 0 then ps.filter fun w => Near width (ps.map Prod.snd) w.2 else ps

/-- The covariance of log-derivative and energy. -/
noncomputable def cov (ws : List (ℝ × ℝ)) : ℝ :=
  globalMean (ws.map fun w => (w.1 - globalMean (ws.map Prod.fst)) * (w.2 - globalMean (ws.map Prod.snd)))

open Classical in
/-- The average over the devices (by the optimizer); NaN if one of them is. -/
noncomputable def deviceMean (xs : List (Option ℝ)) : Option ℝ :=
  if xs = [] ∨ none ∈ xs then none else some (globalMean (xs.filterMap id))

/-- The average of a list, NaN if it is empty. -/
noncomputable def meanOrNan (xs : List ℝ) : Option ℝ := if xs = [] then none else some (globalMean xs)

end Jaqmc.LegacyLoss.Spec
