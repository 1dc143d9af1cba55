import Verif.Model.Gto
import Verif.Spec.Gto
import Mathlib.Data.Nat.Choose.Cast
import Mathlib.Tactic.LinearCombination
import Mathlib.Tactic.FieldSimp
/-! Legendre functions and solid harmonics (C101). -/
namespace Jaqmc.Gto
open Geometry Spec
open scoped BigOperators

/-- The coefficient of `z^(l-m-2k)`. -/
noncomputable def coef (l m k : ℕ) : ℝ :=
  (-1) ^ k * ((2 * l - 2 * k).factorial : ℝ) / (2 ^ l * k.factorial * (l - k).factorial * (l - m - 2 * k).factorial)

open Polynomial in
theorem legendre_formula (l m : ℕ) (hm : m ≤ l) :
    derivative^[m] (legendreP l) = ∑ k ∈ Finset.range ((l - m) / 2 + 1), C (coef l m k) * X ^ (l - m - 2 * k) := by
  unfold legendreP
  rw [iterate_derivative_C_mul, ← Function.iterate_add_apply]
  rw [show ((X : ℝ[X]) ^ 2 - 1) ^ l = ∑ k ∈ Finset.range (l + 1), C ((-1) ^ k * (l.choose k : ℝ)) * X ^ (2 * l - 2 * k) by
    rw [sub_eq_neg_add, add_pow]
    refine Finset.sum_congr rfl fun k hk => ?_
    have hk' : k ≤ l := by simpa [Nat.lt_succ_iff] using hk
    rw [← pow_mul, C_mul, C_pow, C_neg, C_1, C_eq_natCast, show 2 * (l - k) = 2 * l - 2 * k by omega]
    ring]
  rw [iterate_derivative_sum, Finset.mul_sum]
  symm
  refine Finset.sum_subset_zero_on_sdiff (fun k hk => ?_) (fun k hk => ?_) (fun k hk => ?_)
  · simp only [Finset.mem_range] at hk ⊢; omega
  · simp only [Finset.mem_sdiff, Finset.mem_range] at hk
    rw [iterate_derivative_C_mul, iterate_derivative_X_pow_eq_C_mul, Nat.descFactorial_of_lt (by omega)]
    simp
  · simp only [Finset.mem_range] at hk
    rw [iterate_derivative_C_mul, iterate_derivative_X_pow_eq_C_mul, show 2 * l - 2 * k - (m + l) = l - m - 2 * k by omega,
      ← mul_assoc, ← mul_assoc, ← C_mul, ← C_mul]
    congr 2
    unfold coef
    have h1 : ((l.choose k : ℕ) : ℝ) = l.factorial / (k.factorial * (l - k).factorial) := Nat.cast_choose ℝ (by omega)
    have h2 : ((2 * l - 2 * k).descFactorial (m + l) : ℝ) = (2 * l - 2 * k).factorial / (l - m - 2 * k).factorial := by
      rw [eq_div_iff (by positivity), mul_comm, ← Nat.cast_mul, show l - m - 2 * k = (2 * l - 2 * k) - (m + l) by omega,
        Nat.factorial_mul_descFactorial (by omega)]
    rw [h1, h2]
    field_simp

/-- The explicit form of the derivatives of the Legendre polynomial. -/
theorem legendre_eval (l m : ℕ) (hm : m ≤ l) (x : ℝ) :
    (Polynomial.derivative^[m] (legendreP l)).eval x = ∑ k ∈ Finset.range ((l - m) / 2 + 1), coef l m k * x ^ (l - m - 2 * k) := by
  rw [legendre_formula l m hm, Polynomial.eval_finsetSum]
  simp

open Polynomial in
theorem legendre_zero (l m : ℕ) (hm : l < m) : derivative^[m] (legendreP l) = 0 := by
  unfold legendreP
  rw [iterate_derivative_C_mul, ← Function.iterate_add_apply]
  rw [iterate_derivative_eq_zero, mul_zero]
  have : ((X : ℝ[X]) ^ 2 - 1).natDegree = 2 := by
    rw [show ((X : ℝ[X]) ^ 2 - 1) = X ^ 2 - C 1 by simp, natDegree_X_pow_sub_C]
  calc (((X : ℝ[X]) ^ 2 - 1) ^ l).natDegree ≤ l * 2 := (natDegree_pow_le (p := (X : ℝ[X]) ^ 2 - 1) (n := l)).trans (by rw [this])
    _ < m + l := by omega

/-- Evaluating the zonal part. -/
theorem eval_zonal (l m : ℕ) (r : Vec 3) :
    MvPolynomial.eval r (zonal l m) = ∑ k ∈ Finset.range ((l - m) / 2 + 1), coef l m k * r 2 ^ (l - m - 2 * k) * (r 0 ^ 2 + r 1 ^ 2 + r 2 ^ 2) ^ k := by
  simp [zonal, rsq, coef]

/-- On the axis and off it: `ρ^(l-m) P_l^(m)(z/ρ)` is the zonal part. -/
theorem zonal_legendre (l m : ℕ) (hm : m ≤ l) (r : Vec 3) (ρ : ℝ) (hρ : ρ ≠ 0) (h : r 0 ^ 2 + r 1 ^ 2 + r 2 ^ 2 = ρ ^ 2) :
    ρ ^ (l - m) * (Polynomial.derivative^[m] (legendreP l)).eval (r 2 / ρ) = MvPolynomial.eval r (zonal l m) := by
  rw [legendre_eval l m hm, eval_zonal, Finset.mul_sum]
  refine Finset.sum_congr rfl fun k hk => ?_
  simp only [Finset.mem_range] at hk
  rw [h, div_pow, ← pow_mul]
  have : ρ ^ (l - m) = ρ ^ (l - m - 2 * k) * ρ ^ (2 * k) := by rw [← pow_add]; congr 1; omega
  rw [this]
  field_simp

theorem azimuth_eval (m : ℕ) (r : Vec 3) (σ φ : ℝ) (h0 : r 0 = σ * Real.cos φ) (h1 : r 1 = σ * Real.sin φ) :
    MvPolynomial.eval r (azimuth m).1 = σ ^ m * Real.cos (m * φ) ∧ MvPolynomial.eval r (azimuth m).2 = σ ^ m * Real.sin (m * φ) := by
  induction m with
  | zero => simp [azimuth]
  | succ m ih =>
    simp only [azimuth, map_sub, map_add, map_mul, MvPolynomial.eval_X, ih.1, ih.2, h0, h1]
    rw [Nat.cast_succ, add_mul, one_mul, Real.cos_add, Real.sin_add]
    constructor <;> ring

theorem norm_sq (r : Vec 3) : Geometry.norm r ^ 2 = r 0 ^ 2 + r 1 ^ 2 + r 2 ^ 2 := by
  unfold Geometry.norm
  rw [Real.sq_sqrt (Finset.sum_nonneg fun i _ => sq_nonneg _), Fin.sum_univ_three]

theorem atan2_spec (x y : ℝ) : Real.sqrt (x ^ 2 + y ^ 2) * Real.cos (atan2 y x) = x ∧ Real.sqrt (x ^ 2 + y ^ 2) * Real.sin (atan2 y x) = y := by
  have hn : ‖(⟨x, y⟩ : ℂ)‖ = Real.sqrt (x ^ 2 + y ^ 2) := by
    rw [Complex.norm_def, Complex.normSq_mk]
    congr 1; ring
  have h := Complex.norm_mul_cos_add_sin_mul_I (⟨x, y⟩ : ℂ)
  rw [hn] at h
  have hre := congrArg Complex.re h
  have him := congrArg Complex.im h
  unfold atan2
  constructor
  · simpa [Complex.cos_ofReal_re, Complex.sin_ofReal_re, Complex.cos_ofReal_im, Complex.sin_ofReal_im] using hre
  · simpa [Complex.cos_ofReal_re, Complex.sin_ofReal_re, Complex.cos_ofReal_im, Complex.sin_ofReal_im] using him

/-- What the code multiplies: `ρ^l P_l^m(cos θ) cos(m φ)` without normalisation and sign. -/
theorem polar_part (l m : ℕ) (hm : m ≤ l) (r : Vec 3) :
    let s := cart2sph r
    let c := Real.cos s.2.2
    s.1 ^ l * (Real.sqrt (1 - c ^ 2) ^ m * (Polynomial.derivative^[m] (legendreP l)).eval c) * Real.cos (m * s.2.1)
        = MvPolynomial.eval r ((azimuth m).1 * zonal l m) ∧
    s.1 ^ l * (Real.sqrt (1 - c ^ 2) ^ m * (Polynomial.derivative^[m] (legendreP l)).eval c) * Real.sin (m * s.2.1)
        = MvPolynomial.eval r ((azimuth m).2 * zonal l m) := by
  intro s c
  set ρ := Geometry.norm r with hρd
  set σ := Real.sqrt (r 0 ^ 2 + r 1 ^ 2) with hσ
  have hφ := atan2_spec (r 0) (r 1)
  have hθ := atan2_spec (r 2) σ
  have hσ2 : σ ^ 2 = r 0 ^ 2 + r 1 ^ 2 := Real.sq_sqrt (by positivity)
  have hσ0 : 0 ≤ σ := Real.sqrt_nonneg _
  have hρ0 : 0 ≤ ρ := Real.sqrt_nonneg _
  have hρ2 : r 0 ^ 2 + r 1 ^ 2 + r 2 ^ 2 = ρ ^ 2 := (norm_sq r).symm
  have hr : Real.sqrt (r 2 ^ 2 + σ ^ 2) = ρ := by
    rw [hσ2, show r 2 ^ 2 + (r 0 ^ 2 + r 1 ^ 2) = ρ ^ 2 by rw [← hρ2]; ring, Real.sqrt_sq hρ0]
  rw [hr] at hθ
  have hs1 : s.1 = ρ := rfl
  have hs2 : s.2.1 = atan2 (r 1) (r 0) := rfl
  have hc : c = Real.cos (atan2 σ (r 2)) := rfl
  have hA := azimuth_eval m r σ s.2.1 (by rw [hs2, hσ, hφ.1]) (by rw [hs2, hσ, hφ.2])
  rw [map_mul, map_mul, hA.1, hA.2, hs1]
  have hsin : Real.sqrt (1 - c ^ 2) = |Real.sin (atan2 σ (r 2))| := by
    rw [hc, ← Real.sin_sq, Real.sqrt_sq_eq_abs]
  by_cases h0 : ρ = 0
  · -- the origin
    have hz : r 2 = 0 ∧ σ = 0 := by
      rw [h0] at hρ2
      have : r 0 ^ 2 = 0 ∧ r 1 ^ 2 = 0 ∧ r 2 ^ 2 = 0 := by
        refine ⟨?_, ?_, ?_⟩ <;> nlinarith [sq_nonneg (r 0), sq_nonneg (r 1), sq_nonneg (r 2)]
      refine ⟨by simpa using this.2.2, ?_⟩
      rw [hσ, this.1, this.2.1]; simp
    rcases Nat.eq_zero_or_pos l with rfl | hl
    · obtain rfl : m = 0 := by omega
      have : (legendreP 0) = 1 := by simp [legendreP]
      simp [this, zonal]
    · rw [h0, zero_pow hl.ne']
      rcases Nat.eq_zero_or_pos m with rfl | hm0
      · have : MvPolynomial.eval r (zonal l 0) = 0 := by
          rw [eval_zonal]
          refine Finset.sum_eq_zero fun k hk => ?_
          simp only [Finset.mem_range] at hk
          rw [hρ2, h0, hz.1]
          rcases Nat.eq_zero_or_pos k with rfl | hk0
          · rw [zero_pow (by omega)]; simp
          · rw [show ((0 : ℝ) ^ 2) ^ k = 0 by rw [zero_pow two_ne_zero, zero_pow hk0.ne']]; simp
        rw [this]; simp
      · rw [hz.2, zero_pow hm0.ne']; simp
  · have hc' : c = r 2 / ρ := by rw [hc, eq_div_iff h0, mul_comm]; exact hθ.1
    have hsn : Real.sqrt (1 - c ^ 2) = σ / ρ := by
      have h2 : ρ * |Real.sin (atan2 σ (r 2))| = σ := by
        rw [← abs_of_nonneg hρ0, ← abs_mul, hθ.2, abs_of_nonneg hσ0]
      rw [hsin, eq_div_iff h0, mul_comm]
      exact h2
    have key : ρ ^ l * ((σ / ρ) ^ m * (Polynomial.derivative^[m] (legendreP l)).eval (r 2 / ρ)) = σ ^ m * MvPolynomial.eval r (zonal l m) := by
      rw [← zonal_legendre l m hm r ρ h0 hρ2, show ρ ^ l = ρ ^ m * ρ ^ (l - m) by rw [← pow_add]; congr 1; omega, div_pow]
      field_simp
    rw [hsn, hc', key]
    constructor <;> ring

end Jaqmc.Gto
