import Verif.Model.Schedule
import Mathlib.Tactic.Positivity
import Mathlib.Tactic.FieldSimp
import Mathlib.Tactic.Linarith
import Mathlib.Tactic.NormNum
/-! # Learning-rate schedules: C41 -/
namespace Jaqmc.Schedule.Props
open Jaqmc.Schedule

/-- **C41** With positive rate and delay and non-negative decay exponent, the standard schedule starts at the
configured rate, is always positive and never increases; with a positive exponent it strictly decreases and comes
below every positive bound; after `delay` steps the rate is `rate / 2 ^ decay`. -/
theorem c41_standard (rate delay decay : ℝ) (hr : 0 < rate) (hd : 0 < delay) (hk : 0 ≤ decay) :
    standard rate delay decay 0 = rate ∧
    (∀ t, 0 < standard rate delay decay t) ∧
    (∀ s t, s ≤ t → standard rate delay decay t ≤ standard rate delay decay s) ∧
    (0 < decay → ∀ s t, s < t → standard rate delay decay t < standard rate delay decay s) ∧
    (0 < decay → ∀ ε, 0 < ε → ∃ T, ∀ t, T ≤ t → standard rate delay decay t < ε) ∧
    (∀ n : ℕ, (n : ℝ) = delay → standard rate delay decay n = rate / 2 ^ decay) := by
  have hpos : ∀ t : ℕ, 0 < 1 + (t : ℝ) / delay := fun t => by positivity
  have hanti : ∀ s t, s ≤ t → standard rate delay decay t ≤ standard rate delay decay s := by
    intro s t hst
    unfold standard
    apply mul_le_mul_of_nonneg_left _ hr.le
    apply Real.rpow_le_rpow (by have := hpos t; positivity) _ hk
    apply one_div_le_one_div_of_le (hpos s)
    have : (s : ℝ) / delay ≤ (t : ℝ) / delay :=
      div_le_div_of_nonneg_right (by exact_mod_cast hst) hd.le
    linarith
  refine ⟨by simp [standard], fun t => ?_, hanti, ?_, ?_, ?_⟩
  · have := hpos t
    unfold standard; positivity
  · intro hk' s t hst
    unfold standard
    apply mul_lt_mul_of_pos_left _ hr
    apply Real.rpow_lt_rpow (by have := hpos t; positivity) _ hk'
    apply one_div_lt_one_div_of_lt (hpos s)
    have : (s : ℝ) / delay < (t : ℝ) / delay :=
      div_lt_div_of_pos_right (by exact_mod_cast hst) hd
    linarith
  · intro hk' ε hε
    -- choose T with delay * ((rate/ε)^(1/decay)) < T
    obtain ⟨T, hT⟩ := exists_nat_gt (delay * (rate / ε) ^ (1 / decay))
    refine ⟨T, fun t ht => ?_⟩
    have hTt : (T : ℝ) ≤ t := by exact_mod_cast ht
    have h1 : (rate / ε) ^ (1 / decay) < (t : ℝ) / delay := by
      rw [lt_div_iff₀ hd]; linarith [mul_comm delay ((rate / ε) ^ (1 / decay))]
    have h2 : (rate / ε) ^ (1 / decay) < 1 + (t : ℝ) / delay := by linarith
    have h3 : rate / ε < (1 + (t : ℝ) / delay) ^ decay := by
      have := Real.rpow_lt_rpow (by positivity) h2 hk'
      rwa [← Real.rpow_mul (by positivity), one_div, inv_mul_cancel₀ hk'.ne', Real.rpow_one] at this
    unfold standard
    have hq := hpos t
    rw [one_div, Real.inv_rpow hq.le, ← div_eq_mul_inv, div_lt_iff₀ (Real.rpow_pos_of_pos hq _)]
    rw [div_lt_iff₀ hε] at h3
    linarith [mul_comm ε ((1 + (t : ℝ) / delay) ^ decay)]
  · intro n hn
    unfold standard
    rw [hn, div_self hd.ne', show (1 : ℝ) / (1 + 1) = 2⁻¹ by norm_num, Real.inv_rpow (by norm_num), div_eq_mul_inv]

/-- C41 for the constant schedule. -/
theorem c41_constant (rate : ℝ) (t : ℕ) : constant rate t = rate := rfl

/-- The default parameters (schedule.py:24-26) meet the hypotheses: 0.05, 2000, 1; after 2000 steps the rate is 0.025. -/
example : standard 0.05 2000 1 2000 = 0.025 := by
  have := (c41_standard 0.05 2000 1 (by norm_num) (by norm_num) (by norm_num)).2.2.2.2.2 2000 (by norm_num)
  rw [this]; norm_num

end Jaqmc.Schedule.Props
