import Verif.Props.Gto
import Verif.Lemmas.LegendreOrtho
import Verif.Lemmas.SphereArea
import Verif.Spec.PairCorrelation
/-! C101: the angular parts are orthonormal on the unit sphere. -/
namespace Jaqmc.Gto.Props
open Geometry Spec MeasureTheory Set
open HallStats.Spec (point area polarM integral_polar)
open scoped BigOperators

/-- The factor that depends on the azimuth. -/
noncomputable def phi (m : ℤ) (t : ℝ) : ℝ :=
  if m = 0 then 1 else if 0 < m then Real.sqrt 2 * Real.cos (m.natAbs * t) else Real.sqrt 2 * Real.sin (m.natAbs * t)

/-- The factor that depends on the polar angle. -/
noncomputable def theta (l m : ℕ) (t : ℝ) : ℝ :=
  normalisation l m * (Real.sin t ^ m * (Polynomial.derivative^[m] (legendreP l)).eval (Real.cos t))

/-- A point in angles. -/
noncomputable def vec (e : ℝ × ℝ) : Vec 3 := fun c => point e c

theorem solid_point (l : ℕ) (m : ℤ) (hm : m.natAbs ≤ l) (e : ℝ × ℝ) :
    MvPolynomial.eval (vec e) (solid l m) = theta l m.natAbs e.1 * phi m e.2 := by
  have v0 : vec e 0 = Real.sin e.1 * Real.cos e.2 := rfl
  have v1 : vec e 1 = Real.sin e.1 * Real.sin e.2 := rfl
  have v2 : vec e 2 = Real.cos e.1 := rfl
  have hz : ∀ k ≤ l, MvPolynomial.eval (vec e) (zonal l k) = (Polynomial.derivative^[k] (legendreP l)).eval (Real.cos e.1) := by
    intro k hk
    rw [← zonal_legendre l k hk (vec e) 1 one_ne_zero ?_, v2]
    · simp
    · rw [v0, v1, v2]
      nlinarith [Real.sin_sq_add_cos_sq e.1, Real.sin_sq_add_cos_sq e.2]
  have ha := azimuth_eval m.natAbs (vec e) (Real.sin e.1) e.2 v0 v1
  unfold solid phi theta
  by_cases h : m = 0
  · subst h
    simp [hz 0 (by omega)]
  · rw [if_neg h, if_neg h]
    split
    · simp only [map_mul, MvPolynomial.eval_C, hz _ hm, ha.1]; ring
    · simp only [map_mul, MvPolynomial.eval_C, hz _ hm, ha.2]; ring

theorem int_cos (n : ℤ) : ∫ t in (-Real.pi)..Real.pi, Real.cos (n * t) = if n = 0 then 2 * Real.pi else 0 := by
  by_cases h : n = 0
  · subst h; simp; ring
  · rw [if_neg h, intervalIntegral.integral_comp_mul_left _ (by exact_mod_cast h), integral_cos]
    simp [Real.sin_int_mul_pi]

theorem int_sin (n : ℤ) : ∫ t in (-Real.pi)..Real.pi, Real.sin (n * t) = 0 := by
  by_cases h : n = 0
  · subst h; simp
  · rw [intervalIntegral.integral_comp_mul_left _ (by exact_mod_cast h), integral_sin]
    simp

theorem ii_cos (n : ℤ) : IntervalIntegrable (fun t : ℝ => Real.cos (n * t)) volume (-Real.pi) Real.pi :=
  (by fun_prop : Continuous fun t : ℝ => Real.cos (n * t)).intervalIntegrable _ _
theorem ii_sin (n : ℤ) : IntervalIntegrable (fun t : ℝ => Real.sin (n * t)) volume (-Real.pi) Real.pi :=
  (by fun_prop : Continuous fun t : ℝ => Real.sin (n * t)).intervalIntegrable _ _

/-- The azimuthal factors are orthogonal. -/
theorem phi_ortho (m m' : ℤ) : ∫ t in (-Real.pi)..Real.pi, phi m t * phi m' t = if m = m' then 2 * Real.pi else 0 := by
  have s2 : Real.sqrt 2 * Real.sqrt 2 = 2 := Real.mul_self_sqrt (by norm_num)
  have key : ∀ (f : ℝ → ℝ) (c d : ℝ) (a b : ℤ), (∀ t, f t = c * Real.cos (a * t) + d * Real.cos (b * t)) →
      ∫ t in (-Real.pi)..Real.pi, f t = c * (if a = 0 then 2 * Real.pi else 0) + d * (if b = 0 then 2 * Real.pi else 0) := by
    intro f c d a b hf
    rw [intervalIntegral.integral_congr (g := fun t => c * Real.cos (a * t) + d * Real.cos (b * t)) fun t _ => hf t,
      intervalIntegral.integral_add ((ii_cos a).const_mul c) ((ii_cos b).const_mul d), intervalIntegral.integral_const_mul,
      intervalIntegral.integral_const_mul, int_cos, int_cos]
  have keys : ∀ (f : ℝ → ℝ) (c d : ℝ) (a b : ℤ), (∀ t, f t = c * Real.sin (a * t) + d * Real.sin (b * t)) →
      ∫ t in (-Real.pi)..Real.pi, f t = 0 := by
    intro f c d a b hf
    rw [intervalIntegral.integral_congr (g := fun t => c * Real.sin (a * t) + d * Real.sin (b * t)) fun t _ => hf t,
      intervalIntegral.integral_add ((ii_sin a).const_mul c) ((ii_sin b).const_mul d), intervalIntegral.integral_const_mul,
      intervalIntegral.integral_const_mul, int_sin, int_sin]
    simp
  have expand : ∀ n : ℤ, ∀ t : ℝ, phi n t = if n = 0 then 1 else if 0 < n then Real.sqrt 2 * Real.cos (n * t) else -(Real.sqrt 2 * Real.sin (n * t)) := by
    intro n t
    unfold phi
    by_cases h : n = 0
    · simp [h]
    · rw [if_neg h, if_neg h]
      rcases lt_or_gt_of_ne h with h' | h'
      · have e : ((n.natAbs : ℕ) : ℝ) = -(n : ℝ) := by
          rw [Nat.cast_natAbs, abs_of_neg h']; push_cast; ring
        rw [if_neg (by omega), if_neg (by omega), e, neg_mul, Real.sin_neg]; ring
      · have e : ((n.natAbs : ℕ) : ℝ) = (n : ℝ) := by
          rw [Nat.cast_natAbs, abs_of_pos h']
        rw [if_pos h', if_pos h', e]
  simp only [expand]
  rcases lt_trichotomy m 0 with h | h | h <;> rcases lt_trichotomy m' 0 with h' | h' | h'
  · rw [key _ 1 (-1) (m - m') (m + m') (fun t => ?_), if_neg (show m + m' ≠ 0 by omega)]
    · by_cases e : m = m'
      · simp [e]
      · rw [if_neg (by omega), if_neg e]; simp
    · rw [if_neg h.ne, if_neg (by omega), if_neg h'.ne, if_neg (by omega)]
      push_cast
      rw [sub_mul, add_mul, Real.cos_sub, Real.cos_add]
      linear_combination (Real.sin (m * t) * Real.sin (m' * t)) * s2
  · rw [if_neg (by omega), keys _ (-Real.sqrt 2) 0 m 0 (fun t => ?_)]
    rw [if_neg h.ne, if_neg (by omega), if_pos h']; ring
  · rw [if_neg (by omega), keys _ (-1) (-1) (m - m') (m + m') (fun t => ?_)]
    rw [if_neg h.ne, if_neg (by omega), if_neg h'.ne', if_pos h']
    push_cast
    rw [sub_mul, add_mul, Real.sin_sub, Real.sin_add]
    linear_combination (-Real.sin (m * t) * Real.cos (m' * t)) * s2
  · rw [if_neg (by omega), keys _ (-Real.sqrt 2) 0 m' 0 (fun t => ?_)]
    rw [if_pos h, if_neg h'.ne, if_neg (by omega)]; ring
  · subst h h'
    simp; ring
  · rw [if_neg (by omega), key _ (Real.sqrt 2) 0 m' 1 (fun t => ?_), if_neg h'.ne']
    · simp
    · rw [if_pos h, if_neg h'.ne', if_pos h']; ring
  · rw [if_neg (by omega), keys _ (-1) 1 (m + m') (m - m') (fun t => ?_)]
    rw [if_neg h.ne', if_pos h, if_neg h'.ne, if_neg (by omega)]
    push_cast
    rw [sub_mul, add_mul, Real.sin_sub, Real.sin_add]
    linear_combination (-Real.cos (m * t) * Real.sin (m' * t)) * s2
  · rw [if_neg (by omega), key _ (Real.sqrt 2) 0 m 1 (fun t => ?_), if_neg h.ne']
    · simp
    · rw [if_neg h.ne', if_pos h, if_pos h']; ring
  · rw [key _ 1 1 (m - m') (m + m') (fun t => ?_), if_neg (show m + m' ≠ 0 by omega)]
    · by_cases e : m = m'
      · simp [e]
      · rw [if_neg (by omega), if_neg e]; simp
    · rw [if_neg h.ne', if_pos h, if_neg h'.ne', if_pos h']
      push_cast
      rw [sub_mul, add_mul, Real.cos_sub, Real.cos_add]
      linear_combination (Real.cos (m * t) * Real.cos (m' * t)) * s2

/-- The polar factors of the same order are orthogonal. -/
theorem theta_ortho (l l' m : ℕ) (hm : m ≤ l) (hm' : m ≤ l') :
    ∫ t, theta l m t * theta l' m t ∂polarM = if l = l' then 1 / (2 * Real.pi) else 0 := by
  obtain ⟨P, hP⟩ : ∃ P : Polynomial ℝ, P = (1 - Polynomial.X ^ 2) ^ m * (Polynomial.derivative^[m] (legendreP l) * Polynomial.derivative^[m] (legendreP l')) :=
    ⟨_, rfl⟩
  have e : ∀ t, theta l m t * theta l' m t = (fun x : ℝ => normalisation l m * normalisation l' m * P.eval x) (Real.cos t) := by
    intro t
    simp only [hP, theta, Polynomial.eval_mul, Polynomial.eval_pow, Polynomial.eval_sub, Polynomial.eval_one, Polynomial.eval_X, ← Real.sin_sq]
    ring
  rw [integral_congr_ae (Filter.Eventually.of_forall e), integral_polar (fun x : ℝ => normalisation l m * normalisation l' m * P.eval x)]
  · rw [integral_Icc_eq_integral_Ioc, ← intervalIntegral.integral_of_le (by norm_num), intervalIntegral.integral_const_mul]
    have := legendre_ortho l l' m hm hm'
    unfold I at this
    rw [hP, this]
    by_cases h : l = l'
    · subst h
      rw [if_pos rfl, if_pos rfl]
      unfold normalisation
      rw [Real.mul_self_sqrt (by positivity)]
      have := Real.pi_pos
      field_simp
      norm_num
    · rw [if_neg h, if_neg h, mul_zero]
  · refine (Continuous.aestronglyMeasurable ?_)
    exact ((continuous_const.mul (Polynomial.continuous _)).comp Real.continuous_cos)

/-- **C101** (normalisation).  The real spherical harmonics, the restrictions of the angular polynomials to the unit sphere,
are orthonormal. -/
theorem c101_orthonormal (l l' : ℕ) (m m' : ℤ) (hm : m.natAbs ≤ l) (hm' : m'.natAbs ≤ l') :
    ∫ e, MvPolynomial.eval (fun c => point e c) (solid l m) * MvPolynomial.eval (fun c => point e c) (solid l' m') ∂area
      = if l = l' ∧ m = m' then 1 else 0 := by
  have e : ∀ e : ℝ × ℝ, MvPolynomial.eval (fun c => point e c) (solid l m) * MvPolynomial.eval (fun c => point e c) (solid l' m') =
      (theta l m.natAbs e.1 * theta l' m'.natAbs e.1) * (phi m e.2 * phi m' e.2) := by
    intro e
    have h1 := solid_point l m hm e
    have h2 := solid_point l' m' hm' e
    unfold vec at h1 h2
    rw [h1, h2]; ring
  simp only [e]
  unfold HallStats.Spec.area
  rw [integral_prod_mul (fun t => theta l m.natAbs t * theta l' m'.natAbs t) (fun t => phi m t * phi m' t), integral_Icc_eq_integral_Ioc,
    ← intervalIntegral.integral_of_le (by linarith [Real.pi_pos]), phi_ortho]
  by_cases h : m = m'
  · subst h
    rw [if_pos rfl, theta_ortho _ _ _ hm hm']
    by_cases hl : l = l'
    · rw [if_pos hl, if_pos ⟨hl, rfl⟩]
      have := Real.pi_pos
      field_simp
    · rw [if_neg hl, if_neg (by tauto), zero_mul]
  · rw [if_neg h, if_neg (by tauto), mul_zero]

end Jaqmc.Gto.Props
