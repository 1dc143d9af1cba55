import Mathlib.MeasureTheory.Constructions.HaarToSphere
import Mathlib.MeasureTheory.Integral.Pi
import Mathlib.MeasureTheory.Measure.Haar.InnerProductSpace
import Mathlib.Analysis.SpecialFunctions.Gaussian.GaussianIntegral
import Mathlib.MeasureTheory.Integral.Gamma
import Verif.Spec.Ecp
/-! Integrals of monomials over the unit sphere, through Gaussian integrals. -/

open MeasureTheory Set Metric

namespace Jaqmc.Ecp
open Spec

theorem finrank_E3 : Module.finrank ℝ E3 = 3 := by simp

/-- Polar coordinates for a homogeneous function times a radial one. -/
theorem polar (m : E3 → ℂ) (n : ℕ) (hm : ∀ (r : ℝ) (u : E3), m (r • u) = (r : ℂ) ^ n * m u) (g : ℝ → ℂ) :
    ∫ x : E3, m x * g ‖x‖ = (∫ u : sphere (0 : E3) 1, m u ∂(volume : Measure E3).toSphere) *
      ∫ r in Ioi (0 : ℝ), (r : ℂ) ^ (n + 2) * g r := by
  calc
    ∫ x : E3, m x * g ‖x‖ = ∫ x : ({(0)}ᶜ : Set E3), m x.1 * g (‖x.1‖) ∂((volume : Measure E3).comap Subtype.val) := by
      rw [integral_subtype_comap (measurableSet_singleton _).compl fun x : E3 ↦ m x * g (‖x‖),
        restrict_compl_singleton]
    _ = ∫ x : sphere (0 : E3) 1 × Ioi (0 : ℝ), m x.1 * ((x.2 : ℂ) ^ n * g x.2)
          ∂(volume : Measure E3).toSphere.prod (.volumeIoiPow (Module.finrank ℝ E3 - 1)) := by
      rw [← (volume : Measure E3).measurePreserving_homeomorphUnitSphereProd.integral_comp
        (Homeomorph.measurableEmbedding _)]
      refine integral_congr_ae (Filter.Eventually.of_forall fun x => ?_)
      show m x.1 * g ‖x.1‖ = _
      have hx : (x : E3) = ‖(x : E3)‖ • ((homeomorphUnitSphereProd E3 x).1 : E3) := by
        have h0 : ‖(x : E3)‖ ≠ 0 := norm_ne_zero_iff.mpr x.2
        simp [smul_smul, h0]
      have hmx : m (x : E3) = (‖(x : E3)‖ : ℂ) ^ n * m ((homeomorphUnitSphereProd E3 x).1 : E3) := by
        conv_lhs => rw [hx, hm]
      rw [hmx]
      have h2 : ((homeomorphUnitSphereProd E3 x).2 : ℝ) = ‖(x : E3)‖ := by simp
      beta_reduce
      rw [h2]
      ring
    _ = _ := by
      rw [integral_prod_mul (fun u : sphere (0 : E3) 1 => m u) (fun r : Ioi (0 : ℝ) => (r : ℂ) ^ n * g r)]
      congr 1
      rw [finrank_E3]
      simp only [Measure.volumeIoiPow, ENNReal.ofReal]
      rw [integral_withDensity_eq_integral_smul,
        integral_subtype_comap measurableSet_Ioi fun a : ℝ ↦ Real.toNNReal (a ^ (3 - 1)) • ((a : ℂ) ^ n * g a),
        setIntegral_congr_fun measurableSet_Ioi fun x hx ↦ ?_]
      · rw [NNReal.smul_def, Real.coe_toNNReal _ (pow_nonneg (le_of_lt hx) _)]
        simp
        ring
      · exact (measurable_subtype_coe.pow_const _).real_toNNReal


theorem gauss_odd (i : ℕ) : ∫ x : ℝ, x ^ (2 * i + 1) * Real.exp (-x ^ 2) = 0 := by
  have h := integral_neg_eq_self (fun x : ℝ => x ^ (2 * i + 1) * Real.exp (-x ^ 2)) volume
  have h2 : (fun x : ℝ => (-x) ^ (2 * i + 1) * Real.exp (-(-x) ^ 2)) = fun x => -(x ^ (2 * i + 1) * Real.exp (-x ^ 2)) := by
    funext x
    rw [Odd.neg_pow ⟨i, rfl⟩, neg_sq]
    ring
  simp only [h2, integral_neg] at h
  linarith

theorem gauss_Ioi (n : ℕ) : ∫ x in Ioi (0 : ℝ), x ^ n * Real.exp (-x ^ 2) = 1 / 2 * Real.Gamma ((n + 1) / 2) := by
  have h := integral_rpow_mul_exp_neg_rpow (p := 2) (q := n) (by norm_num) (by have := n.cast_nonneg (α := ℝ); linarith)
  rw [← h]
  refine setIntegral_congr_fun measurableSet_Ioi fun x _ => ?_
  simp

theorem gauss_even (i : ℕ) : ∫ x : ℝ, x ^ (2 * i) * Real.exp (-x ^ 2) = Real.Gamma (i + 1 / 2) := by
  have h := integral_comp_abs (f := fun x : ℝ => x ^ (2 * i) * Real.exp (-x ^ 2))
  have h2 : (fun x : ℝ => |x| ^ (2 * i) * Real.exp (-|x| ^ 2)) = fun x => x ^ (2 * i) * Real.exp (-x ^ 2) := by
    funext x
    rw [pow_mul, sq_abs, ← pow_mul]
  rw [h2, gauss_Ioi] at h
  rw [h]
  push_cast
  rw [show ((2 * (i : ℝ) + 1) / 2) = i + 1 / 2 by ring]
  ring

/-- The Gaussian moment of one coordinate. -/
noncomputable def gauss (a : ℕ) : ℝ := ∫ x : ℝ, x ^ a * Real.exp (-x ^ 2)

theorem gauss_prod (a : Fin 3 → ℕ) :
    ∫ x : E3, (∏ i, (x i : ℂ) ^ a i) * (Real.exp (-‖x‖ ^ 2) : ℂ) = ((∏ i, gauss (a i) : ℝ) : ℂ) := by
  have e : ∀ x : E3, (∏ i, (x i : ℂ) ^ a i) * (Real.exp (-‖x‖ ^ 2) : ℂ) =
      ((∏ i, (x i ^ a i * Real.exp (-(x i) ^ 2)) : ℝ) : ℂ) := by
    intro x
    rw [Finset.prod_mul_distrib, ← Real.exp_sum, EuclideanSpace.norm_sq_eq, Finset.sum_neg_distrib]
    simp
  simp only [e]
  simp only [gauss]
  rw [integral_complex_ofReal, ← integral_fintype_prod_volume_eq_prod (fun i (x : ℝ) => x ^ a i * Real.exp (-x ^ 2)),
    ← (EuclideanSpace.volume_preserving_symm_measurableEquiv_toLp (Fin 3)).integral_comp
      (MeasurableEquiv.measurableEmbedding _)]
  rfl

/-- The integral of a monomial over the unit sphere, as a ratio of Gaussian moments. -/
theorem sphere_gauss (a : Fin 3 → ℕ) :
    (∫ u : sphere (0 : E3) 1, ∏ i, ((u : E3) i : ℂ) ^ a i ∂(volume : Measure E3).toSphere) *
      ((1 / 2 * Real.Gamma ((∑ i, a i + 3 : ℕ) / 2) : ℝ) : ℂ) = ((∏ i, gauss (a i) : ℝ) : ℂ) := by
  rw [← gauss_prod]
  have h := polar (fun x => ∏ i, (x i : ℂ) ^ a i) (∑ i, a i)
    (by
      intro r u
      simp only [PiLp.smul_apply, smul_eq_mul, Complex.ofReal_mul, mul_pow, Finset.prod_mul_distrib, Finset.prod_pow_eq_pow_sum])
    (fun r => (Real.exp (-r ^ 2) : ℂ))
  rw [h]
  congr 1
  have e : ∀ r : ℝ, (r : ℂ) ^ (∑ i, a i + 2) * (Real.exp (-r ^ 2) : ℂ) = ((r ^ (∑ i, a i + 2) * Real.exp (-r ^ 2) : ℝ) : ℂ) := by
    intro r; push_cast; rfl
  simp only [e]
  rw [integral_complex_ofReal, gauss_Ioi]
  push_cast
  congr 3
  ring


theorem gauss_two (i : ℕ) : gauss (2 * i) = (2 * i - 1).doubleFactorial * √Real.pi / 2 ^ i := by
  rw [gauss, gauss_even, Real.Gamma_nat_add_half]

theorem radial_pos (a : Fin 3 → ℕ) : (0 : ℝ) < 1 / 2 * Real.Gamma ((∑ i, a i + 3 : ℕ) / 2) := by
  have : 0 < Real.Gamma ((∑ i, a i + 3 : ℕ) / 2) := Real.Gamma_pos_of_pos (by positivity)
  linarith

/-- Monomials with an odd exponent integrate to zero. -/
theorem sphere_odd (a : Fin 3 → ℕ) (j : Fin 3) (h : Odd (a j)) :
    ∫ u : sphere (0 : E3) 1, ∏ i, ((u : E3) i : ℂ) ^ a i ∂(volume : Measure E3).toSphere = 0 := by
  have h1 := sphere_gauss a
  obtain ⟨k, hk⟩ := h
  rw [Finset.prod_eq_zero (Finset.mem_univ j) (by rw [hk]; exact gauss_odd k)] at h1
  have h2 := (radial_pos a).ne'
  rcases mul_eq_zero.mp (h1.trans Complex.ofReal_zero) with h3 | h3
  · exact h3
  · exact absurd (Complex.ofReal_eq_zero.mp h3) h2

/-- Monomials with even exponents. -/
theorem sphere_even (b : Fin 3 → ℕ) :
    ∫ u : sphere (0 : E3) 1, ∏ i, ((u : E3) i : ℂ) ^ (2 * b i) ∂(volume : Measure E3).toSphere =
      ((4 * Real.pi * (∏ i, ((2 * b i - 1).doubleFactorial : ℝ)) / ((2 * ∑ i, b i + 1).doubleFactorial : ℝ) : ℝ) : ℂ) := by
  have h1 := sphere_gauss (fun i => 2 * b i)
  have h2 : (1 / 2 * Real.Gamma ((∑ i, 2 * b i + 3 : ℕ) / 2) : ℝ) =
      1 / 2 * (((2 * ∑ i, b i + 1).doubleFactorial : ℝ) * √Real.pi / 2 ^ (∑ i, b i + 1)) := by
    rw [← Finset.mul_sum]
    have := Real.Gamma_nat_add_half (∑ i, b i + 1)
    rw [show 2 * (∑ i, b i + 1) - 1 = 2 * ∑ i, b i + 1 by omega] at this
    rw [← this]
    congr 2
    push_cast
    ring
  have hd : ((2 * ∑ i, b i + 1).doubleFactorial : ℝ) ≠ 0 := by
    exact_mod_cast (Nat.doubleFactorial_pos _).ne'
  have hp : √Real.pi ≠ 0 := (Real.sqrt_pos.mpr Real.pi_pos).ne'
  have hsq : √Real.pi * √Real.pi = Real.pi := Real.mul_self_sqrt Real.pi_pos.le
  simp only [gauss_two] at h1
  rw [h2] at h1
  have hr : (1 / 2 * (((2 * ∑ i, b i + 1).doubleFactorial : ℝ) * √Real.pi / 2 ^ (∑ i, b i + 1))) ≠ 0 := by positivity
  rw [← eq_div_iff (by exact_mod_cast hr)] at h1
  rw [h1, ← Complex.ofReal_div]
  congr 1
  rw [div_eq_div_iff hr hd]
  simp only [Fin.prod_univ_three, Fin.sum_univ_three]
  rw [show (2 : ℝ) ^ (b 0 + b 1 + b 2 + 1) = 2 ^ b 0 * 2 ^ b 1 * 2 ^ b 2 * 2 by ring]
  field_simp
  have hsq' : √Real.pi ^ 2 = Real.pi := by rw [sq]; exact hsq
  rw [hsq']
  ring

theorem sphere_one : ∫ _u : sphere (0 : E3) 1, (1 : ℂ) ∂(volume : Measure E3).toSphere = 4 * Real.pi := by
  have := sphere_even (fun _ => 0)
  simpa using this

end Jaqmc.Ecp
