import Verif.Model.Hydrogen
import Verif.Props.Kinetic
import Mathlib.MeasureTheory.Constructions.HaarToSphere
import Mathlib.MeasureTheory.Measure.Haar.InnerProductSpace
import Mathlib.Analysis.SpecialFunctions.Gamma.Basic
import Mathlib.Analysis.SpecialFunctions.Sqrt
/-!
C110: the hydrogen application.
-/
namespace Jaqmc.Hydrogen.Props
open Jaqmc.Hydrogen Jaqmc.Kinetic Jaqmc.Kinetic.Props MeasureTheory
open scoped Topology BigOperators

theorem norm3_pos {x : Fin 3 → ℝ} (hx : x ≠ 0) : 0 < norm3 x := by
  unfold norm3
  apply Real.sqrt_pos.mpr
  obtain ⟨k, hk⟩ := Function.ne_iff.mp hx
  exact Finset.sum_pos' (fun i _ => sq_nonneg _) ⟨k, Finset.mem_univ k, by positivity [show x k ≠ 0 from hk]⟩

theorem norm3_sq (x : Fin 3 → ℝ) : norm3 x ^ 2 = ∑ k, x k ^ 2 := Real.sq_sqrt (Finset.sum_nonneg fun _ _ => sq_nonneg _)

theorem sumsq_hasFDerivAt (x : Fin 3 → ℝ) :
    HasFDerivAt (fun y : Fin 3 → ℝ => ∑ k, y k ^ 2) (∑ k, (2 * x k) • ContinuousLinearMap.proj (R := ℝ) (φ := fun _ : Fin 3 => ℝ) k) x := by
  refine HasFDerivAt.fun_sum fun k _ => ?_
  have h := ((ContinuousLinearMap.proj (R := ℝ) (φ := fun _ : Fin 3 => ℝ) k).hasFDerivAt (x := x)).pow 2
  simpa using h

theorem norm3_hasFDerivAt {x : Fin 3 → ℝ} (hx : x ≠ 0) :
    HasFDerivAt norm3 ((1 / (2 * norm3 x)) • ∑ k, (2 * x k) • ContinuousLinearMap.proj (R := ℝ) (φ := fun _ : Fin 3 => ℝ) k) x := by
  have hp : ∑ k, x k ^ 2 ≠ 0 := by rw [← norm3_sq]; exact (pow_pos (norm3_pos hx) 2).ne'
  exact (sumsq_hasFDerivAt x).sqrt hp

theorem sum_proj_eye (x : Fin 3 → ℝ) (i : Fin 3) :
    (∑ k, (2 * x k) • ContinuousLinearMap.proj (R := ℝ) (φ := fun _ : Fin 3 => ℝ) k) (eye i) = 2 * x i := by
  simp [ContinuousLinearMap.sum_apply, eye, Pi.single_apply]

theorem D_norm3 {x : Fin 3 → ℝ} (hx : x ≠ 0) (i : Fin 3) : D (eye i) norm3 x = x i / norm3 x := by
  unfold D
  rw [(norm3_hasFDerivAt hx).fderiv, ContinuousLinearMap.smul_apply, sum_proj_eye, smul_eq_mul]
  have := (norm3_pos hx).ne'
  field_simp

theorem contDiff_norm3 {x : Fin 3 → ℝ} (hx : x ≠ 0) : ContDiffAt ℝ 2 norm3 x := by
  have hp : ∑ k, x k ^ 2 ≠ 0 := by rw [← norm3_sq]; exact (pow_pos (norm3_pos hx) 2).ne'
  unfold norm3
  exact ContDiffAt.sqrt (by fun_prop) hp

theorem D2_norm3 {x : Fin 3 → ℝ} (hx : x ≠ 0) (i : Fin 3) :
    D (eye i) (D (eye i) norm3) x = 1 / norm3 x - x i ^ 2 / norm3 x ^ 3 := by
  have he : D (eye i) norm3 =ᶠ[𝓝 x] fun y => y i * (norm3 y)⁻¹ := by
    filter_upwards [isOpen_ne.mem_nhds hx] with y hy
    rw [D_norm3 hy]
    exact div_eq_mul_inv _ _
  rw [D_congr (eye i) he]
  have h0 := (norm3_pos hx).ne'
  have h1 : HasFDerivAt (fun y : Fin 3 → ℝ => y i) (ContinuousLinearMap.proj (R := ℝ) (φ := fun _ : Fin 3 => ℝ) i) x :=
    (ContinuousLinearMap.proj (R := ℝ) (φ := fun _ : Fin 3 => ℝ) i).hasFDerivAt
  have h2 := (hasDerivAt_inv h0).comp_hasFDerivAt x (norm3_hasFDerivAt hx)
  have h3 := h1.mul h2
  unfold D
  rw [HasFDerivAt.fderiv (f := fun y => y i * (norm3 y)⁻¹) h3]
  simp only [ContinuousLinearMap.add_apply, ContinuousLinearMap.smul_apply, sum_proj_eye, smul_eq_mul]
  simp [eye]
  field_simp
  ring

theorem D_logpsi (α : ℝ) {x : Fin 3 → ℝ} (hx : x ≠ 0) (i : Fin 3) :
    D (eye i) (logpsi α) x = α * (x i / norm3 x) ∧ D (eye i) (D (eye i) (logpsi α)) x = α * (1 / norm3 x - x i ^ 2 / norm3 x ^ 3) := by
  have hl : logpsi α = fun y => α * norm3 y := by funext y; unfold logpsi; ring
  have h1 : ∀ y : Fin 3 → ℝ, y ≠ 0 → D (eye i) (logpsi α) y = α * D (eye i) norm3 y := by
    intro y hy
    rw [hl, D_const_mul α (eye i) (norm3_hasFDerivAt hy).differentiableAt]
  refine ⟨by rw [h1 x hx, D_norm3 hx], ?_⟩
  have he : D (eye i) (logpsi α) =ᶠ[𝓝 x] fun y => α * D (eye i) norm3 y := by
    filter_upwards [isOpen_ne.mem_nhds hx] with y hy
    exact h1 y hy
  rw [D_congr (eye i) he, D_const_mul α (eye i) (diff_D (contDiff_norm3 hx) (eye i)), D2_norm3 hx]

theorem kinetic_value (mode : Mode) (α : ℝ) {x : Fin 3 → ℝ} (hx : x ≠ 0) :
    standard mode (logpsi α) x = -α ^ 2 / 2 - α / norm3 x := by
  have hl : logpsi α = fun y => α * norm3 y := by funext y; unfold logpsi; ring
  have hc : ContDiffAt ℝ 2 (logpsi α) x := by rw [hl]; exact contDiffAt_const.mul (contDiff_norm3 hx)
  rw [standard_value mode _ x hc]
  simp only [(D_logpsi α hx _).1, (D_logpsi α hx _).2]
  have hs := norm3_sq x
  have h0 := (norm3_pos hx).ne'
  rw [Fin.sum_univ_three] at hs ⊢
  rw [Fin.sum_univ_three]
  field_simp
  have h0' : x 0 ^ 2 = norm3 x ^ 2 - x 1 ^ 2 - x 2 ^ 2 := by linarith
  rw [h0']
  ring

/-- C110 (local energy): `E(x) = -α²/2 - (1 + α)/r` at every point but the nucleus, in both Hessian modes. -/
theorem c110_local (mode : Mode) (α : ℝ) (x : Fin 3 → ℝ) (hx : x ≠ 0) :
    localEnergy mode α x = some (-α ^ 2 / 2 - (1 + α) / Real.sqrt (∑ k, x k ^ 2)) := by
  have hpre : Stats.isEnergyKey "energy:potential" = true ∧ Stats.isEnergyKey "energy:kinetic" = true := by decide
  obtain ⟨hk1, hk2⟩ := hpre
  unfold localEnergy
  have h1 : ∀ a b : ℝ, Stats.Dict.update (Stats.Dict.update [] [("energy:kinetic", a)]) [("energy:potential", b)] =
      [("energy:kinetic", a), ("energy:potential", b)] := by
    intro a b; simp [Stats.Dict.update, Stats.Dict.set]
  simp only [h1, List.map_cons, List.map_nil]
  unfold Stats.totalEnergy
  simp only [List.map_cons, List.map_nil, List.filter_cons, List.filter_nil, hk1, hk2, if_true]
  simp only [Stats.sumEnergies, List.lookup_cons]
  simp [Except.toOption, kinetic_value mode α hx, potential]
  have : Real.sqrt (∑ k, x k ^ 2) = norm3 x := rfl
  rw [this]
  ring

/-- C110 (ground state): the local energy is the same everywhere exactly for `α = -1`, and then it is `-1/2`. -/
theorem c110_constant (mode : Mode) (α : ℝ) :
    (∃ E, ∀ x : Fin 3 → ℝ, x ≠ 0 → localEnergy mode α x = some E) ↔ α = -1 := by
  constructor
  · rintro ⟨E, h⟩
    have hn : ∀ t : ℝ, 0 < t → (![t, 0, 0] : Fin 3 → ℝ) ≠ 0 ∧ Real.sqrt (∑ k, (![t, 0, 0] : Fin 3 → ℝ) k ^ 2) = t := by
      intro t ht
      refine ⟨fun h0 => ht.ne' (by simpa using congrFun h0 0), ?_⟩
      simp [Fin.sum_univ_three, Real.sqrt_sq ht.le]
    have h1 := h _ (hn 1 one_pos).1
    have h2 := h _ (hn 2 two_pos).1
    rw [c110_local _ _ _ (hn 1 one_pos).1, (hn 1 one_pos).2] at h1
    rw [c110_local _ _ _ (hn 2 two_pos).1, (hn 2 two_pos).2, ← h1] at h2
    have := Option.some.inj h2
    linarith
  · rintro rfl
    refine ⟨-1 / 2, fun x hx => ?_⟩
    rw [c110_local mode _ x hx]
    norm_num

/-! ### Expectations over `ψ² = exp(2 α r)` -/

theorem integral_radial (g : ℝ → ℝ) :
    ∫ x : Fin 3 → ℝ, g (norm3 x) = 3 * (volume.real (Metric.ball (0 : EuclideanSpace ℝ (Fin 3)) 1)) * ∫ r in Set.Ioi (0 : ℝ), r ^ 2 * g r := by
  have h1 : ∫ x : Fin 3 → ℝ, g (norm3 x) = ∫ x : EuclideanSpace ℝ (Fin 3), g ‖x‖ := by
    rw [← (EuclideanSpace.volume_preserving_symm_measurableEquiv_toLp (Fin 3)).integral_comp']
    refine integral_congr_ae (Filter.Eventually.of_forall fun x => ?_)
    simp only
    congr 1
    rw [EuclideanSpace.norm_eq]
    unfold norm3
    congr 1
    refine Finset.sum_congr rfl fun k _ => ?_
    rw [Real.norm_eq_abs, sq_abs]
    rfl
  rw [h1, integral_fun_norm_addHaar volume g]
  simp [mul_assoc]

theorem moment (β : ℝ) (hβ : 0 < β) (k : ℕ) :
    ∫ r in Set.Ioi (0 : ℝ), r ^ k * Real.exp (-(β * r)) = k.factorial / β ^ (k + 1) := by
  have h := Real.integral_rpow_mul_exp_neg_mul_Ioi (a := (k : ℝ) + 1) (r := β) (by positivity) hβ
  rw [Real.Gamma_nat_eq_factorial] at h
  simp only [add_sub_cancel_right, Real.rpow_natCast] at h
  rw [h, ← Nat.cast_succ, Real.rpow_natCast]
  simp [div_eq_mul_inv, mul_comm]

theorem moment_integrable (β : ℝ) (hβ : 0 < β) (k : ℕ) :
    IntegrableOn (fun r : ℝ => r ^ k * Real.exp (-(β * r))) (Set.Ioi 0) := by
  by_contra h
  have h1 := moment β hβ k
  rw [integral_undef h] at h1
  have : (0 : ℝ) < k.factorial / β ^ (k + 1) := by positivity
  linarith

/-- The mean of `g` over `|ψ|²`. -/
noncomputable def expect (α : ℝ) (g : (Fin 3 → ℝ) → ℝ) : ℝ :=
  (∫ x, g x * Real.exp (logpsi α x) ^ 2) / ∫ x, Real.exp (logpsi α x) ^ 2

theorem expect_radial (α : ℝ) (hα : α < 0) (g : (Fin 3 → ℝ) → ℝ) (a b c : ℝ)
    (hg : ∀ x, x ≠ 0 → g x = a + b / norm3 x + c * norm3 x) : expect α g = a + b * (-α) + c * (3 / (2 * -α)) := by
  have hβ : 0 < -(2 * α) := by linarith
  have hw : ∀ x, Real.exp (logpsi α x) ^ 2 = Real.exp (-(-(2 * α) * norm3 x)) := by
    intro x
    rw [← Real.exp_nat_mul]
    congr 1
    unfold logpsi
    push_cast
    ring
  unfold expect
  simp only [hw]
  have h1 : ∫ x, g x * Real.exp (-(-(2 * α) * norm3 x)) =
      ∫ x, (fun r => (a + b / r + c * r) * Real.exp (-(-(2 * α) * r))) (norm3 x) := by
    refine integral_congr_ae ?_
    have : ∀ᵐ x : Fin 3 → ℝ, x ≠ 0 := by
      rw [ae_iff]
      simp
    filter_upwards [this] with x hx
    rw [hg x hx]
  rw [h1, integral_radial (fun r => (a + b / r + c * r) * Real.exp (-(-(2 * α) * r))), integral_radial (fun r => Real.exp (-(-(2 * α) * r)))]
  have hb : 0 < 3 * (volume.real (Metric.ball (0 : EuclideanSpace ℝ (Fin 3)) 1)) := by
    have : 0 < volume.real (Metric.ball (0 : EuclideanSpace ℝ (Fin 3)) 1) := by
      unfold Measure.real
      exact ENNReal.toReal_pos (Metric.measure_ball_pos volume _ one_pos).ne' measure_ball_lt_top.ne
    positivity
  rw [mul_div_mul_left _ _ hb.ne', moment _ hβ 2]
  have h2 : ∫ r in Set.Ioi (0 : ℝ), r ^ 2 * ((fun r => (a + b / r + c * r) * Real.exp (-(-(2 * α) * r))) r) =
      ∫ r in Set.Ioi (0 : ℝ), (a * (r ^ 2 * Real.exp (-(-(2 * α) * r))) + b * (r ^ 1 * Real.exp (-(-(2 * α) * r)))) +
        c * (r ^ 3 * Real.exp (-(-(2 * α) * r))) := by
    refine setIntegral_congr_fun measurableSet_Ioi fun r hr => ?_
    have : r ≠ 0 := (Set.mem_Ioi.mp hr).ne'
    simp only
    field_simp
  rw [h2, integral_add, integral_add, integral_const_mul, integral_const_mul, integral_const_mul, moment _ hβ 2, moment _ hβ 1, moment _ hβ 3]
  · simp [Nat.factorial]
    have : α ≠ 0 := hα.ne
    field_simp
    ring
  · exact (moment_integrable _ hβ 2).const_mul a
  · exact (moment_integrable _ hβ 1).const_mul b
  · exact ((moment_integrable _ hβ 2).const_mul a).add ((moment_integrable _ hβ 1).const_mul b)
  · exact (moment_integrable _ hβ 3).const_mul c

theorem getD_local (mode : Mode) (α : ℝ) (x : Fin 3 → ℝ) (hx : x ≠ 0) :
    (localEnergy mode α x).getD 0 = -α ^ 2 / 2 + (-(1 + α)) / norm3 x + 0 * norm3 x := by
  rw [c110_local mode α x hx]
  simp only [Option.getD_some]
  have : Real.sqrt (∑ k, x k ^ 2) = norm3 x := rfl
  rw [this]
  ring

/-- C110 (energy and variational principle): over `|ψ|²` the energy of a bound state (`α < 0`) is `α²/2 + α`, at least the exact `-1/2`, which is
reached exactly at `α = -1`. -/
theorem c110_energy (mode : Mode) (α : ℝ) (hα : α < 0) :
    expect α (fun x => (localEnergy mode α x).getD 0) = α ^ 2 / 2 + α ∧
    -1 / 2 ≤ expect α (fun x => (localEnergy mode α x).getD 0) ∧
    (expect α (fun x => (localEnergy mode α x).getD 0) = -1 / 2 ↔ α = -1) := by
  have h : expect α (fun x => (localEnergy mode α x).getD 0) = α ^ 2 / 2 + α := by
    rw [expect_radial α hα _ (-α ^ 2 / 2) (-(1 + α)) 0 (getD_local mode α)]
    ring
  rw [h]
  refine ⟨rfl, by nlinarith [sq_nonneg (α + 1)], fun h' => ?_, fun h' => by rw [h']; norm_num⟩
  have : (α + 1) ^ 2 = 0 := by linarith
  have := pow_eq_zero_iff (two_ne_zero) |>.mp this
  linarith

/-- C110 (gradient): the gradient of training, twice the covariance of the local energy with `∂ log ψ/∂α = r` (C22), is in expectation the
derivative of the energy, `1 + α`: descent leads to `α = -1` from every bound state. -/
theorem c110_gradient (mode : Mode) (α : ℝ) (hα : α < 0) :
    (∀ x, HasDerivAt (fun a => logpsi a x) (norm3 x) α) ∧
    2 * (expect α (fun x => (localEnergy mode α x).getD 0 * norm3 x) - expect α (fun x => (localEnergy mode α x).getD 0) * expect α norm3) = 1 + α ∧
    HasDerivAt (fun a => expect a (fun x => (localEnergy mode a x).getD 0)) (1 + α) α := by
  refine ⟨fun x => ?_, ?_, ?_⟩
  · unfold logpsi
    simpa using (hasDerivAt_id α).const_mul (norm3 x)
  · rw [(c110_energy mode α hα).1, expect_radial α hα norm3 0 0 1 (fun x _ => by ring),
      expect_radial α hα (fun x => (localEnergy mode α x).getD 0 * norm3 x) (-(1 + α)) 0 (-α ^ 2 / 2)]
    · have : α ≠ 0 := hα.ne
      field_simp
      ring
    · intro x hx
      rw [getD_local mode α x hx]
      have := (norm3_pos hx).ne'
      field_simp
      ring
  · have h1 : HasDerivAt (fun a : ℝ => a ^ 2 / 2 + a) (1 + α) α := by
      have := ((hasDerivAt_id α).pow 2).div_const 2 |>.add (hasDerivAt_id α)
      refine this.congr_deriv ?_
      simp
      ring
    refine h1.congr_of_eventuallyEq ?_
    filter_upwards [isOpen_Iio.mem_nhds hα] with a ha
    exact (c110_energy mode a ha).1

/-- C110 (start): the initial walkers are at the drawn distance from the nucleus. -/
theorem c110_init (r θ φ : ℝ) (hr : 0 ≤ r) : norm3 (init r θ φ) = r := by
  unfold norm3 init
  rw [Fin.sum_univ_three]
  simp only [Matrix.cons_val_zero, Matrix.cons_val_one, Matrix.cons_val]
  have : (r * Real.sin θ * Real.cos φ) ^ 2 + (r * Real.sin θ * Real.sin φ) ^ 2 + (r * Real.cos θ) ^ 2 = r ^ 2 := by
    have h1 := Real.sin_sq_add_cos_sq θ
    have h2 := Real.sin_sq_add_cos_sq φ
    have e1 : Real.sin θ ^ 2 = 1 - Real.cos θ ^ 2 := by linarith
    have e2 : Real.sin φ ^ 2 = 1 - Real.cos φ ^ 2 := by linarith
    rw [mul_pow, mul_pow, mul_pow, mul_pow, mul_pow, e1, e2]
    ring
  rw [this, Real.sqrt_sq hr]

/-- The default start `α = -0.8` at distance 2: the local energy is `-0.42`; the mean energy is `-0.48`. -/
example : localEnergy .scan (-0.8) ![0, 2, 0] = some (-0.42) ∧ expect (-0.8) (fun x => (localEnergy .scan (-0.8) x).getD 0) = -0.48 := by
  constructor
  · rw [c110_local _ _ _ fun h => by simpa using congrFun h 1]
    have : Real.sqrt (∑ k, (![0, 2, 0] : Fin 3 → ℝ) k ^ 2) = 2 := by
      simp [Fin.sum_univ_three]
    rw [this]
    norm_num
  · rw [(c110_energy .scan (-0.8) (by norm_num)).1]
    norm_num

end Jaqmc.Hydrogen.Props
