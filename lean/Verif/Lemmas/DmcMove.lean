import Verif.Model.DmcMove
import Mathlib.MeasureTheory.Integral.IntegralEqImproper
import Mathlib.Tactic.FieldSimp
import Mathlib.Tactic.Ring
import Mathlib.Tactic.Linarith
import Mathlib.Tactic.NormNum
/-! Lemmas for the DMC walker moves. -/
namespace Jaqmc.DmcMove
open MeasureTheory

theorem erfc_pos (a : ℝ) : 0 < erfc a := by
  unfold erfc
  refine mul_pos (div_pos two_pos (Real.sqrt_pos.mpr Real.pi_pos)) ?_
  have hi : Integrable (fun t : ℝ => Real.exp (-1 * t ^ 2)) := integrable_exp_neg_mul_sq one_pos
  rw [setIntegral_pos_iff_support_of_nonneg_ae]
  · have : Function.support (fun t : ℝ => Real.exp (-1 * t ^ 2)) = Set.univ := by
      ext t; simp [Real.exp_ne_zero]
    rw [this, Set.univ_inter]
    simp
  · exact Filter.Eventually.of_forall fun t => (Real.exp_pos _).le
  · exact hi.integrableOn

theorem erfc_add (a : ℝ) : erfc a + erfc (-a) = 2 := by
  unfold erfc
  have hi : Integrable (fun t : ℝ => Real.exp (-1 * t ^ 2)) := integrable_exp_neg_mul_sq one_pos
  have e : ∫ t in Set.Ioi (-a), Real.exp (-1 * t ^ 2) = ∫ t in Set.Iic a, Real.exp (-1 * t ^ 2) := by
    rw [← integral_comp_neg_Iic a (fun t => Real.exp (-1 * t ^ 2))]
    simp
  rw [e, ← mul_add, add_comm, ← setIntegral_union (Set.Iic_disjoint_Ioi le_rfl) measurableSet_Ioi
    hi.integrableOn hi.integrableOn, Set.Iic_union_Ioi, setIntegral_univ, integral_gaussian, div_one]
  have := Real.sqrt_pos.mpr Real.pi_pos
  field_simp

theorem erfc_lt_two (a : ℝ) : erfc a < 2 := by
  have := erfc_pos (-a)
  linarith [erfc_add a]

theorem clipFactor_spec (x : ℝ) :
    0 < clipFactor x ∧ clipFactor x ≤ 1 ∧ clipFactor x ^ 2 * x ≤ 2 := by
  unfold clipFactor
  split
  · rename_i h
    exact ⟨one_pos, le_refl _, by norm_num at h ⊢; linarith⟩
  · rename_i h
    have xp : 0 < x := by norm_num at h; linarith
    set s := Real.sqrt (1 + 2 * x) with hs
    have s2 : s ^ 2 = 1 + 2 * x := Real.sq_sqrt (by linarith)
    have s1 : 1 < s := by
      rw [hs]; exact Real.lt_sqrt_of_sq_lt (by linarith)
    refine ⟨div_pos (by linarith) xp, ?_, ?_⟩
    · rw [div_le_one xp]; nlinarith
    · rw [div_pow, div_mul_eq_mul_div, div_le_iff₀ (by positivity)]
      have hx' : x = (s ^ 2 - 1) / 2 := by linarith
      rw [hx']
      nlinarith [mul_pos (sub_pos.mpr s1) (sub_pos.mpr s1), mul_pos (sub_pos.mpr s1) xp,
        mul_pos (mul_pos (sub_pos.mpr s1) (sub_pos.mpr s1)) (by linarith : (0:ℝ) < s + 1)]

theorem unitTo_norm (nucleus x : V) (h : x ≠ nucleus) : ‖unitTo nucleus x‖ = 1 := by
  unfold unitTo
  rw [norm_smul, norm_inv, norm_norm, inv_mul_cancel₀ (norm_ne_zero_iff.mpr (sub_ne_zero.mpr h))]

theorem drift_inner (x nucleus vc : V) (tau : ℝ) (h : x ≠ nucleus) :
    inner ℝ (drift x nucleus vc tau - nucleus) (unitTo nucleus x) =
      max (‖x - nucleus‖ + inner ℝ vc (unitTo nucleus x) * tau) 0 := by
  unfold drift
  simp only
  set e := unitTo nucleus x with he
  have ee : inner ℝ e e = (1 : ℝ) := by
    rw [real_inner_self_eq_norm_sq, he, unitTo_norm nucleus x h]; norm_num
  rw [add_assoc, add_sub_cancel_left, inner_add_left, inner_smul_left, inner_smul_left,
    inner_smul_left, inner_sub_left, inner_smul_left, ee]
  simp

theorem g1_pos (tau : ℝ) (xi : V) : 0 < g1 tau xi := Real.exp_pos _
theorem g2_pos (zeta : ℝ) (xi : V) : 0 < g2 zeta xi := div_pos (Real.exp_pos _) Real.pi_pos

theorem overshoot_range (x nucleus vc : V) (tau : ℝ) :
    0 < overshootProb x nucleus vc tau ∧ overshootProb x nucleus vc tau < 1 := by
  unfold overshootProb
  set a := (‖x - nucleus‖ + inner ℝ vc (unitTo nucleus x) * tau) / Real.sqrt (2 * tau)
  have h1 := erfc_pos a
  have h2 := erfc_lt_two a
  constructor
  · positivity
  · norm_num; linarith

theorem calcG_pos (updated nucleus drifted : V) (q zeta tau : ℝ) (h0 : 0 < q) (h1 : q < 1) :
    0 < calcG updated nucleus drifted q zeta tau := by
  unfold calcG
  rw [sub_sub_cancel]
  exact add_pos (mul_pos (by linarith) (g1_pos _ _)) (mul_pos h0 (g2_pos _ _))

section
variable {M n : ℕ} (S : Sys M)

theorem clippedRatio_range (a b r : ℝ) : 0 ≤ clippedRatio a b r ∧ clippedRatio a b r ≤ 1 := by
  unfold clippedRatio
  split
  · simp
  · split
    · simp
    · exact ⟨le_min (le_max_right _ _) zero_le_one, min_le_right _ _⟩

theorem exp_ratio (a b r : ℝ) (ha : a ≠ 0) (hb : b ≠ 0) :
    Real.exp (2 * (Real.log |b| - Real.log |a|) + r) = b ^ 2 / a ^ 2 * Real.exp r := by
  have e : ∀ c : ℝ, c ≠ 0 → Real.exp (2 * Real.log |c|) = c ^ 2 := by
    intro c hc
    rw [Real.log_abs, show 2 * Real.log c = Real.log (c ^ 2) by rw [Real.log_pow]; norm_num,
      Real.exp_log (by positivity)]
  rw [Real.exp_add, mul_sub, Real.exp_sub, e b hb, e a ha]

/-- The clipped ratio, multiplied out: symmetric. -/
theorem ratio_balance (a b p q : ℝ) (hp : 0 < p) (hq : 0 < q) (ha : a ≠ 0) (hb : b ≠ 0) :
    a ^ 2 * p * clippedRatio a b (Real.log q - Real.log p) = min (a ^ 2 * p) (b ^ 2 * q) := by
  unfold clippedRatio
  rw [if_neg hb, if_neg ha, max_eq_left (Real.exp_pos _).le, exp_ratio a b _ ha hb, Real.exp_sub,
    Real.exp_log hq, Real.exp_log hp]
  have ap : 0 < a ^ 2 * p := by positivity
  rw [mul_min_of_nonneg _ _ ap.le, mul_one, min_comm]
  congr 1
  field_simp

end
end Jaqmc.DmcMove
