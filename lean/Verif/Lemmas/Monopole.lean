import Verif.Lemmas.SphereArea
import Mathlib.Analysis.SpecialFunctions.Pow.NNReal
import Mathlib.Data.Nat.Choose.Sum
/-! Overlaps of the monopole harmonics and of the orbitals the code evaluates (C97). -/
namespace Jaqmc.HallStats.Spec
open MeasureTheory Set
open scoped BigOperators ComplexConjugate ENNReal

/-! ### The beta integral -/

theorem beta_base (t : ℕ) : ∫ x in (-1 : ℝ)..1, ((1 + x) / 2) ^ t = 2 / (t + 1) := by
  have h : ∀ x ∈ uIcc (-1 : ℝ) 1, HasDerivAt (fun x : ℝ => 2 / (t + 1) * ((1 + x) / 2) ^ (t + 1)) (((1 + x) / 2) ^ t) x := by
    intro x _
    have h1 : HasDerivAt (fun x : ℝ => (1 + x) / 2) (1 / 2) x := ((hasDerivAt_id x).const_add 1).div_const 2
    have h2 := (h1.pow (t + 1)).const_mul (2 / ((t : ℝ) + 1))
    refine h2.congr_deriv ?_
    have : (t : ℝ) + 1 ≠ 0 := by positivity
    push_cast
    field_simp
  rw [intervalIntegral.integral_eq_sub_of_hasDerivAt h ((Continuous.intervalIntegrable (by fun_prop) _ _))]
  norm_num

theorem beta_step (t a : ℕ) :
    (t + 1) * ∫ x in (-1 : ℝ)..1, ((1 + x) / 2) ^ t * ((1 - x) / 2) ^ (a + 1) = (a + 1) * ∫ x in (-1 : ℝ)..1, ((1 + x) / 2) ^ (t + 1) * ((1 - x) / 2) ^ a := by
  have h : ∀ x ∈ uIcc (-1 : ℝ) 1, HasDerivAt (fun x : ℝ => 2 * (((1 + x) / 2) ^ (t + 1) * ((1 - x) / 2) ^ (a + 1)))
      ((t + 1) * (((1 + x) / 2) ^ t * ((1 - x) / 2) ^ (a + 1)) - (a + 1) * (((1 + x) / 2) ^ (t + 1) * ((1 - x) / 2) ^ a)) x := by
    intro x _
    have h1 : HasDerivAt (fun x : ℝ => (1 + x) / 2) (1 / 2) x := ((hasDerivAt_id x).const_add 1).div_const 2
    have h2 : HasDerivAt (fun x : ℝ => (1 - x) / 2) (-1 / 2) x := ((hasDerivAt_id x).const_sub 1).div_const 2
    have h3 := ((h1.pow (t + 1)).mul (h2.pow (a + 1))).const_mul 2
    refine h3.congr_deriv ?_
    simp only [Pi.pow_apply]
    push_cast
    ring
  have e := intervalIntegral.integral_eq_sub_of_hasDerivAt h ((Continuous.intervalIntegrable (by fun_prop) _ _))
  rw [intervalIntegral.integral_sub ((Continuous.intervalIntegrable (by fun_prop) _ _)) ((Continuous.intervalIntegrable (by fun_prop) _ _)),
    intervalIntegral.integral_const_mul, intervalIntegral.integral_const_mul] at e
  norm_num at e
  linarith

theorem beta (t a : ℕ) : (∫ x in (-1 : ℝ)..1, ((1 + x) / 2) ^ t * ((1 - x) / 2) ^ a) * ((t + a + 1) * (t + a).choose t) = 2 := by
  induction a generalizing t with
  | zero =>
    simp only [pow_zero, mul_one, Nat.add_zero, Nat.choose_self, Nat.cast_zero, add_zero, Nat.cast_one]
    rw [beta_base]
    have : (t : ℝ) + 1 ≠ 0 := by positivity
    field_simp
  | succ a ih =>
    have h := beta_step t a
    have i := ih (t + 1)
    have c := Nat.choose_succ_right_eq (t + (a + 1)) t
    rw [show t + (a + 1) - t = a + 1 by omega] at c
    have c' : ((t + (a + 1)).choose (t + 1) : ℝ) * (t + 1) = (t + (a + 1)).choose t * (a + 1) := by exact_mod_cast c
    rw [show t + 1 + a = t + (a + 1) by ring] at i
    push_cast at i ⊢
    have ha : (a : ℝ) + 1 ≠ 0 := by positivity
    have ht : (t : ℝ) + 1 ≠ 0 := by positivity
    set I := ∫ x in (-1 : ℝ)..1, ((1 + x) / 2) ^ t * ((1 - x) / 2) ^ (a + 1)
    set J := ∫ x in (-1 : ℝ)..1, ((1 + x) / 2) ^ (t + 1) * ((1 - x) / 2) ^ a
    set A : ℝ := ((t + (a + 1)).choose t : ℝ)
    set B : ℝ := ((t + (a + 1)).choose (t + 1) : ℝ)
    have : (I * ((t + (a + 1) + 1) * A)) * ((t + 1) * (a + 1)) = 2 * ((t + 1) * (a + 1)) := by
      calc (I * ((t + (a + 1) + 1) * A)) * ((t + 1) * (a + 1)) = ((t + 1) * I) * (t + (a + 1) + 1) * (A * (a + 1)) := by ring
        _ = ((a + 1) * J) * (t + (a + 1) + 1) * (B * (t + 1)) := by rw [h, c']
        _ = (J * ((t + 1 + a + 1) * B)) * ((t + 1) * (a + 1)) := by ring
        _ = _ := by rw [i]
    exact mul_right_cancel₀ (mul_ne_zero ht ha) this

/-! ### The polar parts -/

/-- The squared modulus of the polar part of `Y`. -/
noncomputable def dens (flux t : ℕ) (x : ℝ) : ℝ := (flux + 1) / (4 * Real.pi) * flux.choose t * (((1 + x) / 2) ^ t * ((1 - x) / 2) ^ (flux - t))

/-- The polar part of `Y` as a function of the cosine. -/
noncomputable def amp (flux t : ℕ) (x : ℝ) : ℝ := (-1) ^ (flux - t) * Real.sqrt (dens flux t x)

/-- The polar part of `Y`. -/
noncomputable def yPart (flux t : ℕ) (θ : ℝ) : ℝ :=
  (-1) ^ (flux - t) * Real.sqrt ((flux + 1) / (4 * Real.pi) * flux.choose t) * (Real.cos (θ / 2) ^ t * Real.sin (θ / 2) ^ (flux - t))

/-- `e^{imφ}`. -/
noncomputable def phase (flux t : ℕ) (φ : ℝ) : ℂ := Complex.exp (Complex.I * ((((t : ℝ) - ((flux - t : ℕ) : ℝ)) / 2 : ℝ) : ℂ) * φ)

theorem Y_eq (flux t : ℕ) (e : ℝ × ℝ) : Y flux t e = (yPart flux t e.1 : ℂ) * phase flux t e.2 := by
  unfold Y yPart phase
  rw [mul_pow, mul_pow, ← Complex.exp_nat_mul, ← Complex.exp_nat_mul]
  have : Complex.exp (Complex.I * ((((t : ℝ) - ((flux - t : ℕ) : ℝ)) / 2 : ℝ) : ℂ) * e.2) =
      Complex.exp (t * (Complex.I * e.2 / 2)) * Complex.exp ((flux - t : ℕ) * -(Complex.I * e.2 / 2)) := by
    rw [← Complex.exp_add]
    congr 1
    push_cast
    ring
  rw [this]
  push_cast
  ring

theorem cos_sq_half (θ : ℝ) : Real.cos (θ / 2) ^ 2 = (1 + Real.cos θ) / 2 := by
  have := Real.cos_sq (θ / 2)
  rw [this, show 2 * (θ / 2) = θ by ring]
  ring

theorem sin_sq_half (θ : ℝ) : Real.sin (θ / 2) ^ 2 = (1 - Real.cos θ) / 2 := by
  have := Real.sin_sq (θ / 2)
  rw [this, cos_sq_half]
  ring

theorem yPart_sq (flux t : ℕ) (θ : ℝ) : yPart flux t θ ^ 2 = dens flux t (Real.cos θ) := by
  unfold yPart dens
  rw [mul_pow, mul_pow, mul_pow, ← pow_mul, mul_comm (flux - t) 2, pow_mul, neg_one_sq, one_pow, one_mul, Real.sq_sqrt (by positivity), ← pow_mul, ← pow_mul,
    mul_comm t 2, mul_comm (flux - t) 2, pow_mul, pow_mul, cos_sq_half, sin_sq_half]

theorem yPart_eq (flux t : ℕ) {θ : ℝ} (h : θ ∈ Icc 0 Real.pi) : yPart flux t θ = amp flux t (Real.cos θ) := by
  have hc : 0 ≤ Real.cos (θ / 2) := Real.cos_nonneg_of_mem_Icc ⟨by linarith [h.1, Real.pi_pos], by linarith [h.2]⟩
  have hs : 0 ≤ Real.sin (θ / 2) := Real.sin_nonneg_of_nonneg_of_le_pi (by linarith [h.1]) (by linarith [h.2, Real.pi_pos])
  unfold amp
  rw [← yPart_sq]
  unfold yPart
  rw [mul_assoc, mul_pow, ← pow_mul, mul_comm (flux - t) 2, pow_mul, neg_one_sq, one_pow, one_mul, Real.sqrt_sq (by positivity)]

theorem clip_mem (x : ℝ) : clip (-1 + 1e-4) (1 - 1e-4) x ∈ Icc (-1 + 1e-4 : ℝ) (1 - 1e-4) :=
  ⟨le_min (by norm_num) (le_max_left _ _), min_le_left _ _⟩

theorem one_sub_clip (x : ℝ) : 0 < 1 - clip (-1 + 1e-4) (1 - 1e-4) x ∧ 0 < 1 + clip (-1 + 1e-4) (1 - 1e-4) x := by
  obtain ⟨h1, h2⟩ := clip_mem x
  constructor
  · have : (1 - 1e-4 : ℝ) < 1 := by norm_num
    linarith
  · have : (-1 : ℝ) < -1 + 1e-4 := by norm_num
    linarith

/-- What the orbitals of the code are. -/
theorem orbital_eq {flux t : ℕ} (ht : t ≤ flux) (e : ℝ × ℝ) :
    orbital flux t e = (amp flux t (clip (-1 + 1e-4) (1 - 1e-4) (Real.cos e.1)) : ℂ) * phase flux t e.2 := by
  obtain ⟨a, rfl⟩ := Nat.exists_eq_add_of_le ht
  unfold orbital harm amp phase dens
  rw [Nat.add_sub_cancel_left]
  simp only
  congr 1
  obtain ⟨h1, h2⟩ := one_sub_clip (Real.cos e.1)
  set x := clip (-1 + 1e-4) (1 - 1e-4) (Real.cos e.1)
  rw [Finset.sum_eq_single 0]
  · rw [Complex.ofReal_inj]
    simp only [Nat.choose_zero_right, Nat.cast_one, mul_one, tsub_zero, Nat.factorial_zero, Nat.cast_zero, sub_zero, zero_add, one_mul]
    have e1 : (((t + a : ℕ) : ℝ) / 2 - (((t : ℝ) - a) / 2 + ((t + a : ℕ) : ℝ) / 2) / 2) = a / 2 := by push_cast; ring
    have e2 : (((t : ℝ) - a) / 2 + ((t + a : ℕ) : ℝ) / 2) / 2 = t / 2 := by push_cast; ring
    have hsym : (t + a).choose a = (t + a).choose t := by
      rw [← Nat.choose_symm (show t ≤ t + a by omega), Nat.add_sub_cancel_left]
    have hf : (((t + a).choose t : ℕ) : ℝ) * (t.factorial * a.factorial) = ((t + a).factorial : ℝ) := by
      have := Nat.choose_mul_factorial_mul_factorial (show t ≤ t + a by omega)
      rw [Nat.add_sub_cancel_left] at this
      rw [← mul_assoc]
      exact_mod_cast this
    rw [e1, e2, hsym]
    have hC : 0 < (((t + a).choose t : ℕ) : ℝ) := by exact_mod_cast Nat.choose_pos (by omega)
    have hfac : (0 : ℝ) < ((t + a).factorial : ℝ) := by exact_mod_cast Nat.factorial_pos _
    have ht0 : (0 : ℝ) < (t.factorial : ℝ) := by exact_mod_cast Nat.factorial_pos _
    have ha0 : (0 : ℝ) < (a.factorial : ℝ) := by exact_mod_cast Nat.factorial_pos _
    have q1 : (1 - x) ^ ((a : ℝ) / 2) = Real.sqrt (1 - x) ^ a := by
      rw [Real.rpow_div_two_eq_sqrt _ h1.le, Real.rpow_natCast]
    have q2 : (1 + x) ^ ((t : ℝ) / 2) = Real.sqrt (1 + x) ^ t := by
      rw [Real.rpow_div_two_eq_sqrt _ h2.le, Real.rpow_natCast]
    have q3 : (2 : ℝ) ^ (((t + a : ℕ) : ℝ) / 2) = Real.sqrt 2 ^ (t + a) := by
      rw [Real.rpow_div_two_eq_sqrt _ (by norm_num), Real.rpow_natCast]
    rw [q1, q2, q3]
    set C : ℝ := (((t + a).choose t : ℕ) : ℝ)
    set K : ℝ := (((t + a : ℕ) : ℝ) + 1) / (4 * Real.pi)
    have hK : 0 < K := by positivity
    have n1 : Real.sqrt ((2 * (((t + a : ℕ) : ℝ) / 2) + 1) / (4 * Real.pi) * ((a.factorial : ℝ) * t.factorial) / ((t + a).factorial : ℝ)) * C = Real.sqrt (K * C) := by
      rw [← hf]
      have : (2 * (((t + a : ℕ) : ℝ) / 2) + 1) / (4 * Real.pi) * ((a.factorial : ℝ) * t.factorial) / (C * (t.factorial * a.factorial)) = K / C := by
        simp only [K]
        field_simp
      rw [this]
      rw [show K * C = K / C * C ^ 2 by field_simp, Real.sqrt_mul (by positivity), Real.sqrt_sq hC.le]
    have n2 : Real.sqrt (K * C * (((1 + x) / 2) ^ t * ((1 - x) / 2) ^ a)) = Real.sqrt (K * C) * (Real.sqrt (1 + x) ^ t * Real.sqrt (1 - x) ^ a / Real.sqrt 2 ^ (t + a)) := by
      rw [Real.sqrt_mul (by positivity)]
      congr 1
      rw [Real.sqrt_eq_iff_mul_self_eq (by positivity) (by positivity)]
      rw [div_pow, div_pow, div_mul_div_comm, div_mul_div_comm, ← mul_pow, Real.mul_self_sqrt (by norm_num), pow_add]
      congr 1
      rw [show Real.sqrt (1 + x) ^ t * Real.sqrt (1 - x) ^ a * (Real.sqrt (1 + x) ^ t * Real.sqrt (1 - x) ^ a) =
        (Real.sqrt (1 + x) * Real.sqrt (1 + x)) ^ t * (Real.sqrt (1 - x) * Real.sqrt (1 - x)) ^ a by ring, Real.mul_self_sqrt h1.le, Real.mul_self_sqrt h2.le]
    rw [n2, ← n1]
    field_simp
  · intro s _ hs
    rw [Nat.choose_eq_zero_of_lt (by omega : 0 < s)]
    simp
  · intro h; simp at h

/-! ### The azimuthal integral -/

theorem phase_mul (flux t j : ℕ) (ht : t ≤ flux) (hj : j ≤ flux) (φ : ℝ) :
    conj (phase flux j φ) * phase flux t φ = Complex.exp (Complex.I * (((t : ℤ) - j : ℤ) : ℂ) * φ) := by
  unfold phase
  rw [← Complex.exp_conj, ← Complex.exp_add]
  congr 1
  rw [map_mul, map_mul, Complex.conj_I, Complex.conj_ofReal, Complex.conj_ofReal, Nat.cast_sub ht, Nat.cast_sub hj]
  push_cast
  ring

theorem azimuth (k : ℤ) : ∫ φ in Icc (-Real.pi) Real.pi, Complex.exp (Complex.I * (k : ℂ) * φ) = if k = 0 then 2 * Real.pi else 0 := by
  rw [integral_Icc_eq_integral_Ioc, ← intervalIntegral.integral_of_le (by linarith [Real.pi_pos])]
  split
  · next h =>
    subst h
    simp
    ring
  · next h =>
    have hk : Complex.I * (k : ℂ) ≠ 0 := mul_ne_zero Complex.I_ne_zero (by exact_mod_cast h)
    rw [integral_exp_mul_complex hk]
    rw [show Complex.I * (k : ℂ) * ((Real.pi : ℝ) : ℂ) = Complex.I * k * ((-Real.pi : ℝ) : ℂ) + k * (2 * Real.pi * Complex.I) by push_cast; ring,
      Complex.exp_add, Complex.exp_int_mul_two_pi_mul_I, mul_one, sub_self, zero_div, Complex.ofReal_zero]

/-- Orthogonality in the azimuth. -/
theorem overlap (A B : ℝ → ℝ) (flux t j : ℕ) (ht : t ≤ flux) (hj : j ≤ flux) :
    ∫ e : ℝ × ℝ, conj ((A e.1 : ℂ) * phase flux j e.2) * ((B e.1 : ℂ) * phase flux t e.2) ∂area =
      if j = t then ((2 * Real.pi * ∫ θ, A θ * B θ ∂polarM : ℝ) : ℂ) else 0 := by
  have h : ∀ e : ℝ × ℝ, conj ((A e.1 : ℂ) * phase flux j e.2) * ((B e.1 : ℂ) * phase flux t e.2) =
      ((A e.1 * B e.1 : ℝ) : ℂ) * Complex.exp (Complex.I * (((t : ℤ) - j : ℤ) : ℂ) * e.2) := by
    intro e
    rw [← phase_mul flux t j ht hj, map_mul, Complex.conj_ofReal]
    push_cast
    ring
  simp only [h]
  unfold area
  rw [integral_prod_mul (fun θ => ((A θ * B θ : ℝ) : ℂ)) (fun φ : ℝ => Complex.exp (Complex.I * (((t : ℤ) - j : ℤ) : ℂ) * φ)), azimuth, show (∫ θ, ((A θ * B θ : ℝ) : ℂ) ∂polarM) = ((∫ θ, A θ * B θ ∂polarM : ℝ) : ℂ) from integral_complex_ofReal]
  by_cases hh : j = t
  · subst hh
    simp
    ring
  · rw [if_neg (by omega), if_neg hh, Complex.ofReal_zero, mul_zero]

/-! ### Normalisation and the effect of the clipping -/

theorem dens_nonneg (flux t : ℕ) {x : ℝ} (h : x ∈ Icc (-1 : ℝ) 1) : 0 ≤ dens flux t x := by
  have h1 : 0 ≤ (1 + x) / 2 := by linarith [h.1]
  have h2 : 0 ≤ (1 - x) / 2 := by linarith [h.2]
  unfold dens
  positivity

theorem dens_le {flux t : ℕ} (ht : t ≤ flux) {x : ℝ} (h : x ∈ Icc (-1 : ℝ) 1) : dens flux t x ≤ (flux + 1) / (4 * Real.pi) := by
  have h1 : 0 ≤ (1 + x) / 2 := by linarith [h.1]
  have h2 : 0 ≤ (1 - x) / 2 := by linarith [h.2]
  have hs := add_pow ((1 + x) / 2) ((1 - x) / 2) flux
  rw [show (1 + x) / 2 + (1 - x) / 2 = 1 by ring, one_pow] at hs
  have hle : ((1 + x) / 2) ^ t * ((1 - x) / 2) ^ (flux - t) * (flux.choose t : ℝ) ≤ 1 := by
    refine le_trans ?_ hs.ge
    exact Finset.single_le_sum (f := fun m => ((1 + x) / 2) ^ m * ((1 - x) / 2) ^ (flux - m) * (flux.choose m : ℝ)) (fun i _ => by positivity)
      (show t ∈ Finset.range (flux + 1) from Finset.mem_range.2 (by omega))
  unfold dens
  calc (flux + 1) / (4 * Real.pi) * flux.choose t * (((1 + x) / 2) ^ t * ((1 - x) / 2) ^ (flux - t))
      = (flux + 1) / (4 * Real.pi) * (((1 + x) / 2) ^ t * ((1 - x) / 2) ^ (flux - t) * (flux.choose t : ℝ)) := by ring
    _ ≤ (flux + 1) / (4 * Real.pi) * 1 := by
      refine mul_le_mul_of_nonneg_left hle (by positivity)
    _ = _ := mul_one _

theorem continuous_dens (flux t : ℕ) : Continuous (dens flux t) := by unfold dens; fun_prop

theorem continuous_amp (flux t : ℕ) : Continuous (amp flux t) := by
  unfold amp
  exact continuous_const.mul (continuous_dens flux t).sqrt

theorem continuous_clip : Continuous fun x => clip (-1 + 1e-4) (1 - 1e-4) x := by unfold clip; fun_prop

theorem amp_sq (flux t : ℕ) {x : ℝ} (h : x ∈ Icc (-1 : ℝ) 1) : amp flux t x ^ 2 = dens flux t x := by
  unfold amp
  rw [mul_pow, ← pow_mul, mul_comm (flux - t) 2, pow_mul, neg_one_sq, one_pow, one_mul, Real.sq_sqrt (dens_nonneg flux t h)]

theorem dens_integral {flux t : ℕ} (ht : t ≤ flux) : ∫ x in Icc (-1 : ℝ) 1, dens flux t x = 1 / (2 * Real.pi) := by
  obtain ⟨a, rfl⟩ := Nat.exists_eq_add_of_le ht
  have h := beta t a
  unfold dens
  rw [Nat.add_sub_cancel_left, integral_const_mul, integral_Icc_eq_integral_Ioc, ← intervalIntegral.integral_of_le (by norm_num)]
  have hp := Real.pi_pos
  push_cast
  set I := ∫ x in (-1 : ℝ)..1, ((1 + x) / 2) ^ t * ((1 - x) / 2) ^ a
  calc ((t : ℝ) + a + 1) / (4 * Real.pi) * (t + a).choose t * I = (I * ((t + a + 1) * (t + a).choose t)) / (4 * Real.pi) := by ring
    _ = _ := by rw [h]; field_simp; norm_num

theorem ae_polar : ∀ᵐ θ ∂polarM, θ ∈ Icc 0 Real.pi := by
  unfold polarM
  exact (withDensity_absolutelyContinuous _ _).ae_le (ae_restrict_mem measurableSet_Icc)

theorem y_norm {flux t : ℕ} (ht : t ≤ flux) : 2 * Real.pi * ∫ θ, yPart flux t θ * yPart flux t θ ∂polarM = 1 := by
  have : (fun θ => yPart flux t θ * yPart flux t θ) = fun θ => dens flux t (Real.cos θ) := by
    funext θ; rw [← yPart_sq]; ring
  rw [this, integral_polar (dens flux t) ((continuous_dens flux t).comp Real.continuous_cos).aestronglyMeasurable, dens_integral ht]
  have := Real.pi_pos
  field_simp

/-- The overlap of the orbital the code evaluates and the monopole harmonic. -/
noncomputable def shrink (flux t : ℕ) : ℝ := 2 * Real.pi * ∫ θ, amp flux t (clip (-1 + 1e-4) (1 - 1e-4) (Real.cos θ)) * yPart flux t θ ∂polarM

theorem clip_of_mem {x : ℝ} (h : x ∈ Icc (-1 + 1e-4 : ℝ) (1 - 1e-4)) : clip (-1 + 1e-4) (1 - 1e-4) x = x := by
  unfold clip
  rw [max_eq_right h.1, min_eq_right h.2]

theorem shrink_bound {flux t : ℕ} (ht : t ≤ flux) : |shrink flux t - 1| ≤ 1e-4 * (flux + 1) := by
  have hpi := Real.pi_pos
  set M : ℝ := (flux + 1) / (4 * Real.pi) with hM
  have hM0 : 0 < M := by positivity
  let g : ℝ → ℝ := fun x => (amp flux t (clip (-1 + 1e-4) (1 - 1e-4) x) - amp flux t x) * amp flux t x
  have hg : Continuous g := ((((continuous_amp flux t).comp continuous_clip).sub (continuous_amp flux t)).mul (continuous_amp flux t))
  have e1 : ∫ θ, amp flux t (clip (-1 + 1e-4) (1 - 1e-4) (Real.cos θ)) * yPart flux t θ ∂polarM =
      ∫ x in Icc (-1 : ℝ) 1, amp flux t (clip (-1 + 1e-4) (1 - 1e-4) x) * amp flux t x := by
    rw [← integral_polar (fun x => amp flux t (clip (-1 + 1e-4) (1 - 1e-4) x) * amp flux t x)]
    · refine integral_congr_ae (ae_polar.mono fun θ h => ?_)
      simp only [yPart_eq flux t h]
    · exact ((((continuous_amp flux t).comp continuous_clip).mul (continuous_amp flux t)).comp Real.continuous_cos).aestronglyMeasurable
  have e2 : shrink flux t - 1 = 2 * Real.pi * ∫ x in Icc (-1 : ℝ) 1, g x := by
    unfold shrink
    rw [e1]
    have : 2 * Real.pi * ∫ x in Icc (-1 : ℝ) 1, amp flux t x * amp flux t x = (1 : ℝ) := by
      rw [setIntegral_congr_fun measurableSet_Icc (g := dens flux t) fun x hx => by rw [← amp_sq flux t hx, sq], dens_integral ht]
      field_simp
    refine (congrArg (fun z => 2 * Real.pi * (∫ x in Icc (-1 : ℝ) 1, amp flux t (clip (-1 + 1e-4) (1 - 1e-4) x) * amp flux t x) - z) this.symm).trans ?_
    rw [← mul_sub, ← integral_sub]
    · congr 1
      refine integral_congr_ae (Filter.Eventually.of_forall fun x => ?_)
      simp only [g]; ring
    · exact (((continuous_amp flux t).comp continuous_clip).mul (continuous_amp flux t)).continuousOn.integrableOn_Icc
    · exact ((continuous_amp flux t).mul (continuous_amp flux t)).continuousOn.integrableOn_Icc
  have bound : ∀ x ∈ Icc (-1 : ℝ) 1, |amp flux t x| ≤ Real.sqrt M := by
    intro x hx
    rw [← Real.sqrt_sq_eq_abs, amp_sq flux t hx]
    exact Real.sqrt_le_sqrt (dens_le ht hx)
  have hcl : ∀ x, clip (-1 + 1e-4) (1 - 1e-4) x ∈ Icc (-1 : ℝ) 1 := fun x => by
    obtain ⟨h1, h2⟩ := one_sub_clip x
    exact ⟨by linarith, by linarith⟩
  have hs : ∀ x, (0 : ℝ) ≤ amp flux t (clip (-1 + 1e-4) (1 - 1e-4) x) * amp flux t x := by
    intro x
    unfold amp
    rw [show ∀ s a b : ℝ, s * a * (s * b) = s * s * (a * b) by intros; ring]
    exact mul_nonneg (mul_self_nonneg _) (mul_nonneg (Real.sqrt_nonneg _) (Real.sqrt_nonneg _))
  have gb : ∀ x ∈ Icc (-1 : ℝ) 1, |g x| ≤ M := by
    intro x hx
    have h1 := bound x hx
    have h2 := bound _ (hcl x)
    have h3 : amp flux t (clip (-1 + 1e-4) (1 - 1e-4) x) * amp flux t x ≤ M := by
      calc _ ≤ |amp flux t (clip (-1 + 1e-4) (1 - 1e-4) x)| * |amp flux t x| := by rw [← abs_mul]; exact le_abs_self _
        _ ≤ Real.sqrt M * Real.sqrt M := mul_le_mul h2 h1 (abs_nonneg _) (Real.sqrt_nonneg _)
        _ = M := Real.mul_self_sqrt hM0.le
    have h4 : amp flux t x * amp flux t x ≤ M := by
      rw [← sq, amp_sq flux t hx]; exact dens_le ht hx
    have h5 := hs x
    have h6 := mul_self_nonneg (amp flux t x)
    simp only [g]
    rw [sub_mul, abs_le]
    constructor <;> linarith
  have split : ∫ x in Icc (-1 : ℝ) 1, g x = (∫ x in (-1 : ℝ)..(-1 + 1e-4), g x) + ∫ x in (1 - 1e-4 : ℝ)..1, g x := by
    have ii : ∀ a b : ℝ, IntervalIntegrable g volume a b := fun a b => hg.intervalIntegrable a b
    rw [integral_Icc_eq_integral_Ioc, ← intervalIntegral.integral_of_le (by norm_num),
      ← intervalIntegral.integral_add_adjacent_intervals (ii (-1) (-1 + 1e-4)) (ii _ 1),
      ← intervalIntegral.integral_add_adjacent_intervals (ii (-1 + 1e-4) (1 - 1e-4)) (ii _ 1)]
    have z : ∫ x in (-1 + 1e-4 : ℝ)..(1 - 1e-4), g x = 0 := by
      rw [intervalIntegral.integral_congr (g := fun _ => (0 : ℝ))]
      · simp
      · intro x hx
        rw [uIcc_of_le (by norm_num)] at hx
        simp only [g, clip_of_mem hx, sub_self, zero_mul]
    rw [z, zero_add]
  have b1 : |∫ x in (-1 : ℝ)..(-1 + 1e-4), g x| ≤ M * 1e-4 := by
    have := intervalIntegral.norm_integral_le_of_norm_le_const (a := (-1 : ℝ)) (b := -1 + 1e-4) (C := M) (f := g) (fun x hx => by
      rw [uIoc_of_le (by norm_num)] at hx
      exact gb x ⟨hx.1.le, hx.2.trans (by norm_num)⟩)
    rw [Real.norm_eq_abs] at this
    refine this.trans (le_of_eq ?_)
    norm_num
  have b2 : |∫ x in (1 - 1e-4 : ℝ)..1, g x| ≤ M * 1e-4 := by
    have := intervalIntegral.norm_integral_le_of_norm_le_const (a := (1 - 1e-4 : ℝ)) (b := 1) (C := M) (f := g) (fun x hx => by
      rw [uIoc_of_le (by norm_num)] at hx
      exact gb x ⟨le_trans (by norm_num) hx.1.le, hx.2⟩)
    rw [Real.norm_eq_abs] at this
    refine this.trans (le_of_eq ?_)
    norm_num
  rw [e2, split, abs_mul, abs_of_pos (by positivity : (0 : ℝ) < 2 * Real.pi)]
  calc 2 * Real.pi * |(∫ x in (-1 : ℝ)..(-1 + 1e-4), g x) + ∫ x in (1 - 1e-4 : ℝ)..1, g x| ≤ 2 * Real.pi * (M * 1e-4 + M * 1e-4) := by
        refine mul_le_mul_of_nonneg_left ((abs_add_le _ _).trans (add_le_add b1 b2)) (by positivity)
    _ = 1e-4 * (flux + 1) := by rw [hM]; field_simp; norm_num

/-! ### Overlaps of the orbitals -/

theorem overlap_Y {flux t j : ℕ} (ht : t ≤ flux) (hj : j ≤ flux) : ∫ e, conj (Y flux j e) * Y flux t e ∂area = if j = t then 1 else 0 := by
  simp only [Y_eq]
  rw [overlap _ _ flux t j ht hj]
  split
  · next h => subst h; rw [y_norm ht]; simp
  · rfl

theorem overlap_orbital {flux t j : ℕ} (ht : t ≤ flux) (hj : j ≤ flux) :
    ∫ e, conj (orbital flux j e) * Y flux t e ∂area = if j = t then (shrink flux t : ℂ) else 0 := by
  simp only [Y_eq, orbital_eq hj]
  rw [overlap (fun θ => amp flux j (clip (-1 + 1e-4) (1 - 1e-4) (Real.cos θ))) _ flux t j ht hj]
  split
  · next h => subst h; rfl
  · rfl

theorem measurable_Y (flux t : ℕ) : Measurable (Y flux t) := by
  unfold Y
  exact Continuous.measurable (by fun_prop)

theorem measurable_orbital {flux t : ℕ} (ht : t ≤ flux) : Measurable (orbital flux t) := by
  have : orbital flux t = fun e => (amp flux t (clip (-1 + 1e-4) (1 - 1e-4) (Real.cos e.1)) : ℂ) * phase flux t e.2 := funext (orbital_eq ht)
  rw [this]
  refine Continuous.measurable ?_
  have h1 := ((continuous_amp flux t).comp continuous_clip).comp Real.continuous_cos
  refine Continuous.mul (Complex.continuous_ofReal.comp (h1.comp continuous_fst)) ?_
  unfold phase
  fun_prop

theorem norm_phase (flux t : ℕ) (φ : ℝ) : ‖phase flux t φ‖ = 1 := by
  unfold phase
  rw [show Complex.I * ((((t : ℝ) - ((flux - t : ℕ) : ℝ)) / 2 : ℝ) : ℂ) * φ = ((((t : ℝ) - ((flux - t : ℕ) : ℝ)) / 2 * φ : ℝ) : ℂ) * Complex.I by push_cast; ring]
  exact Complex.norm_exp_ofReal_mul_I _

theorem bounded_Y {flux t : ℕ} (ht : t ≤ flux) (e : ℝ × ℝ) : ‖Y flux t e‖ ≤ Real.sqrt ((flux + 1) / (4 * Real.pi)) := by
  rw [Y_eq, norm_mul, norm_phase, mul_one, Complex.norm_real, Real.norm_eq_abs, ← Real.sqrt_sq_eq_abs, yPart_sq]
  exact Real.sqrt_le_sqrt (dens_le ht ⟨Real.neg_one_le_cos _, Real.cos_le_one _⟩)

theorem bounded_orbital {flux t : ℕ} (ht : t ≤ flux) (e : ℝ × ℝ) : ‖orbital flux t e‖ ≤ Real.sqrt ((flux + 1) / (4 * Real.pi)) := by
  have hcl : clip (-1 + 1e-4) (1 - 1e-4) (Real.cos e.1) ∈ Icc (-1 : ℝ) 1 := by
    obtain ⟨h1, h2⟩ := one_sub_clip (Real.cos e.1)
    exact ⟨by linarith, by linarith⟩
  rw [orbital_eq ht, norm_mul, norm_phase, mul_one, Complex.norm_real, Real.norm_eq_abs, ← Real.sqrt_sq_eq_abs, amp_sq flux t hcl]
  exact Real.sqrt_le_sqrt (dens_le ht hcl)

end Jaqmc.HallStats.Spec
