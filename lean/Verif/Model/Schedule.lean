import Mathlib.Analysis.SpecialFunctions.Pow.Real
/-! Model of `src/jaqmc/optimizer/schedule.py` over the real numbers (floating-point rounding is not modelled). -/
namespace Jaqmc.Schedule

/-- `Standard.__call__`, schedule.py:24-29. -/
noncomputable def standard (rate delay decay : ℝ) (t : ℕ) : ℝ :=
  rate * (1 / (1 + (t : ℝ) / delay)) ^ decay

/-- `Constant.__call__`, schedule.py:40-43. -/
def constant (rate : ℝ) (_t : ℕ) : ℝ := rate

end Jaqmc.Schedule
