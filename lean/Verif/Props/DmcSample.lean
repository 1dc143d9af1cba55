import Verif.Spec.DmcMove
import Verif.Lemmas.DmcSample
import Verif.Props.DmcMove
/-!
# C91: the DMC proposal is drawn from the density that enters the acceptance rate
-/
namespace Jaqmc.DmcMove.Props
open Jaqmc.DmcMove MeasureTheory Set
open scoped ENNReal

theorem norm_pt (a b c : ℝ) : ‖pt a b c‖ = Real.sqrt (a ^ 2 + b ^ 2 + c ^ 2) := by
  unfold pt
  rw [EuclideanSpace.norm_eq, Fin.sum_univ_three]
  simp

theorem norm_sph (r θ φ : ℝ) (hr : 0 ≤ r) :
    ‖pt (r * Real.sin θ * Real.cos φ) (r * Real.sin θ * Real.sin φ) (r * Real.cos θ)‖ = r := by
  rw [norm_pt, show (r * Real.sin θ * Real.cos φ) ^ 2 + (r * Real.sin θ * Real.sin φ) ^ 2 +
    (r * Real.cos θ) ^ 2 = r ^ 2 * (Real.sin θ ^ 2 * (Real.sin φ ^ 2 + Real.cos φ ^ 2) +
      Real.cos θ ^ 2) by ring, Real.sin_sq_add_cos_sq, mul_one, Real.sin_sq_add_cos_sq, mul_one,
    Real.sqrt_sq hr]

theorem continuous_norm_V : Measurable fun x : V => ‖x‖ := measurable_norm

theorem measurable_g2 (zeta : ℝ) : Measurable (g2 zeta) := by
  unfold g2; fun_prop

theorem measurable_g1 (tau : ℝ) : Measurable (g1 tau) := by
  unfold g1; fun_prop

theorem sample_pt (zeta g phi t : ℝ) : sampleGamma zeta g phi t =
    pt (g * 0.5 / zeta * Real.cos phi * Real.sin (Real.arccos (1 - 2 * t)))
      (g * 0.5 / zeta * Real.sin phi * Real.sin (Real.arccos (1 - 2 * t)))
      (g * 0.5 / zeta * Real.cos (Real.arccos (1 - 2 * t))) := rfl

/-- `θ` from a uniform `t`: `sin θ / 2` times the integral over the angle. -/
theorem theta_law (k : ℝ → ℝ≥0∞) :
    ∫⁻ t in Ioo (0 : ℝ) 1, k (Real.arccos (1 - 2 * t)) =
      ∫⁻ θ in Ioo 0 Real.pi, ENNReal.ofReal (Real.sin θ / 2) * k θ := by
  have im : (fun θ => (1 - Real.cos θ) / 2) '' Ioo 0 Real.pi = Ioo 0 1 := by
    ext t
    constructor
    · rintro ⟨θ, ⟨h0, h1⟩, rfl⟩
      have c1 : Real.cos θ < 1 := by
        have := Real.cos_lt_cos_of_nonneg_of_le_pi le_rfl h1.le h0
        rwa [Real.cos_zero] at this
      have c2 : -1 < Real.cos θ := by
        have := Real.cos_lt_cos_of_nonneg_of_le_pi h0.le le_rfl h1
        rwa [Real.cos_pi] at this
      constructor <;> simp only <;> linarith
    · rintro ⟨h0, h1⟩
      refine ⟨Real.arccos (1 - 2 * t), ⟨Real.arccos_pos.mpr (by linarith), ?_⟩, ?_⟩
      · refine lt_of_le_of_ne (Real.arccos_le_pi _) fun e => ?_
        rw [Real.arccos_eq_pi] at e
        linarith
      · simp only
        rw [Real.cos_arccos (by linarith) (by linarith)]
        ring
  have d : ∀ θ ∈ Ioo 0 Real.pi, HasDerivWithinAt (fun θ => (1 - Real.cos θ) / 2) (Real.sin θ / 2)
      (Ioo 0 Real.pi) θ := by
    intro θ _
    have := ((Real.hasDerivAt_cos θ).const_sub 1).div_const 2
    rw [neg_neg] at this
    exact this.hasDerivWithinAt
  have inj : InjOn (fun θ => (1 - Real.cos θ) / 2) (Ioo 0 Real.pi) := by
    intro a ha b hb e
    simp only at e
    exact Real.injOn_cos ⟨ha.1.le, ha.2.le⟩ ⟨hb.1.le, hb.2.le⟩ (by linarith)
  have := lintegral_image_eq_lintegral_abs_deriv_mul measurableSet_Ioo d inj
    (fun t => k (Real.arccos (1 - 2 * t)))
  rw [im] at this
  rw [this]
  refine setLIntegral_congr_fun measurableSet_Ioo fun θ hθ => ?_
  have s := Real.sin_pos_of_pos_of_lt_pi hθ.1 hθ.2
  rw [abs_of_pos (by linarith), show 1 - 2 * ((1 - Real.cos θ) / 2) = Real.cos θ by ring,
    Real.arccos_cos hθ.1.le hθ.2.le]

/-- The radius from a gamma draw. -/
theorem radius_law (zeta : ℝ) (hz : 0 < zeta) (k : ℝ → ℝ≥0∞) :
    ∫⁻ g in Ioi (0 : ℝ), ENNReal.ofReal (g ^ 2 * Real.exp (-g) / 2) * k (g * 0.5 / zeta) =
      ∫⁻ r in Ioi (0 : ℝ), ENNReal.ofReal (4 * zeta ^ 3 * r ^ 2 * Real.exp (-(2 * zeta * r))) * k r := by
  have im : (fun r => 2 * zeta * r) '' Ioi 0 = Ioi (0 : ℝ) := by
    ext t
    constructor
    · rintro ⟨r, hr, rfl⟩
      show (0 : ℝ) < 2 * zeta * r
      exact mul_pos (by linarith) hr
    · intro ht
      have ht : 0 < t := ht
      exact ⟨t / (2 * zeta), div_pos ht (by linarith), by field_simp⟩
  have d : ∀ r ∈ Ioi (0 : ℝ), HasDerivWithinAt (fun r => 2 * zeta * r) (2 * zeta) (Ioi 0) r := by
    intro r _
    have := (hasDerivAt_id r).const_mul (2 * zeta)
    rw [mul_one] at this
    exact this.hasDerivWithinAt
  have inj : InjOn (fun r => 2 * zeta * r) (Ioi (0 : ℝ)) := by
    intro a _ b _ e
    exact mul_left_cancel₀ (show 2 * zeta ≠ 0 by positivity) e
  have := lintegral_image_eq_lintegral_abs_deriv_mul measurableSet_Ioi d inj
    (fun g => ENNReal.ofReal (g ^ 2 * Real.exp (-g) / 2) * k (g * 0.5 / zeta))
  rw [im] at this
  rw [this]
  refine setLIntegral_congr_fun measurableSet_Ioi fun r hr => ?_
  rw [abs_of_pos (by linarith), ← mul_assoc, ← ENNReal.ofReal_mul (by linarith)]
  congr 2
  · ring
  · norm_num; field_simp

/-- The law of `sample_gamma`. -/
theorem gamma_sample (zeta : ℝ) (hz : 0 < zeta) (f : V → ℝ≥0∞) (hf : Measurable f) :
    ∫⁻ g, ∫⁻ phi, ∫⁻ t, f (sampleGamma zeta g phi t) ∂unifLaw ∂angleLaw ∂gammaLaw =
      ∫⁻ x, ENNReal.ofReal (g2 zeta x) * f x := by
  have mp : ∀ {β : Type} [MeasurableSpace β] {a b c : β → ℝ}, Measurable a → Measurable b →
      Measurable c → Measurable fun t => f (pt (a t) (b t) (c t)) := fun ha hb hc =>
    hf.comp (measurable_pt ha hb hc)
  let K : ℝ → ℝ≥0∞ := fun r => ∫⁻ φ in Ioo 0 (2 * Real.pi), ENNReal.ofReal (1 / (2 * Real.pi)) *
    ∫⁻ θ in Ioo 0 Real.pi, ENNReal.ofReal (Real.sin θ / 2) *
      f (pt (r * Real.sin θ * Real.cos φ) (r * Real.sin θ * Real.sin φ) (r * Real.cos θ))
  have L : ∀ g, ∫⁻ phi, ∫⁻ t, f (sampleGamma zeta g phi t) ∂unifLaw ∂angleLaw = K (g * 0.5 / zeta) := by
    intro g
    unfold angleLaw
    rw [lintegral_smul_measure, smul_eq_mul, ← lintegral_const_mul']
    · refine lintegral_congr fun φ => ?_
      congr 1
      have := theta_law fun θ => f (pt (g * 0.5 / zeta * Real.sin θ * Real.cos φ)
        (g * 0.5 / zeta * Real.sin θ * Real.sin φ) (g * 0.5 / zeta * Real.cos θ))
      rw [← this]
      unfold unifLaw
      refine lintegral_congr fun t => ?_
      rw [sample_pt]
      congr 2 <;> ring
    · exact ENNReal.ofReal_ne_top
  simp only [L]
  have Km : Measurable K := by
    refine Measurable.lintegral_prod_right' (f := fun q : ℝ × ℝ => ENNReal.ofReal (1 / (2 * Real.pi)) *
      ∫⁻ θ in Ioo 0 Real.pi, ENNReal.ofReal (Real.sin θ / 2) *
        f (pt (q.1 * Real.sin θ * Real.cos q.2) (q.1 * Real.sin θ * Real.sin q.2)
          (q.1 * Real.cos θ))) ?_
    refine Measurable.const_mul ?_ _
    refine Measurable.lintegral_prod_right' (f := fun q : (ℝ × ℝ) × ℝ =>
      ENNReal.ofReal (Real.sin q.2 / 2) * f (pt (q.1.1 * Real.sin q.2 * Real.cos q.1.2)
        (q.1.1 * Real.sin q.2 * Real.sin q.1.2) (q.1.1 * Real.cos q.2))) ?_
    refine Measurable.mul (by fun_prop) (mp ?_ ?_ ?_) <;> fun_prop
  unfold gammaLaw
  rw [lintegral_withDensity_eq_lintegral_mul _ (by fun_prop) (by
    exact Km.comp (by fun_prop))]
  have e := radius_law zeta hz K
  simp only [Pi.mul_apply]
  rw [e, lintegral_spherical _ (by
    exact Measurable.mul ((measurable_g2 zeta).ennreal_ofReal) hf)]
  refine setLIntegral_congr_fun measurableSet_Ioi fun r hr => ?_
  have hr : 0 < r := hr
  simp only [K]
  rw [← lintegral_const_mul' _ _ ENNReal.ofReal_ne_top]
  refine lintegral_congr fun φ => ?_
  rw [← lintegral_const_mul' _ _ ENNReal.ofReal_ne_top,
    ← lintegral_const_mul' _ _ ENNReal.ofReal_ne_top]
  refine setLIntegral_congr_fun measurableSet_Ioo fun θ hθ => ?_
  have s := Real.sin_pos_of_pos_of_lt_pi hθ.1 hθ.2
  have n : g2 zeta (pt (r * Real.sin θ * Real.cos φ) (r * Real.sin θ * Real.sin φ)
      (r * Real.cos θ)) = zeta ^ 3 / Real.pi * Real.exp (-(2 * zeta * r)) := by
    unfold g2
    rw [norm_sph r θ φ hr.le, Real.exp_sub, show 3 * Real.log zeta = Real.log (zeta ^ 3) by
      rw [Real.log_pow]; norm_num, Real.exp_log (by positivity), Real.exp_neg]
    field_simp
  rw [n]
  simp only [← mul_assoc]
  congr 1
  rw [← ENNReal.ofReal_mul (by positivity), ← ENNReal.ofReal_mul (by positivity),
    ← ENNReal.ofReal_mul (by positivity), ← ENNReal.ofReal_mul (by positivity)]
  congr 1
  field_simp
  ring

theorem g1_eq (tau : ℝ) (ht : 0 < tau) (xi : V) :
    g1 tau xi = (Real.sqrt (2 * Real.pi) ^ 3)⁻¹ * (Real.sqrt tau ^ 3)⁻¹ *
      Real.exp (-(‖xi‖ ^ 2 / (2 * tau))) := by
  unfold g1
  have h : ∀ a : ℝ, 0 < a → Real.sqrt a = Real.exp (Real.log a / 2) := fun a ha => by
    rw [← Real.log_sqrt ha.le, Real.exp_log (Real.sqrt_pos.mpr ha)]
  rw [← mul_inv, ← mul_pow, ← Real.sqrt_mul (by positivity), h _ (by positivity), ← Real.exp_nat_mul,
    ← Real.exp_neg, ← Real.exp_add]
  congr 1
  norm_num
  field_simp
  ring

/-- The law of the Gaussian step. -/
theorem normal_step (tau : ℝ) (ht : 0 < tau) (d : V) (f : V → ℝ≥0∞) (hf : Measurable f) :
    ∫⁻ xi, f (d + Real.sqrt tau • xi) ∂normalLaw = ∫⁻ x, ENNReal.ofReal (g1 tau (x - d)) * f x := by
  have sp : 0 < Real.sqrt tau := Real.sqrt_pos.mpr ht
  have s2 : Real.sqrt tau ^ 2 = tau := Real.sq_sqrt ht.le
  unfold normalLaw
  rw [lintegral_withDensity_eq_lintegral_mul _ (by fun_prop) (by fun_prop)]
  simp only [Pi.mul_apply]
  let F : V → ℝ≥0∞ := fun z => ENNReal.ofReal ((Real.sqrt (2 * Real.pi) ^ 3)⁻¹ *
    Real.exp (-(‖z‖ ^ 2 / (2 * tau)))) * f (d + z)
  have Fm : Measurable F := by
    refine Measurable.mul (by fun_prop) (hf.comp (by fun_prop))
  have e1 : ∀ xi : V, ENNReal.ofReal ((Real.sqrt (2 * Real.pi) ^ 3)⁻¹ * Real.exp (-(‖xi‖ ^ 2 / 2))) *
      f (d + Real.sqrt tau • xi) = F (Real.sqrt tau • xi) := by
    intro xi
    simp only [F]
    rw [norm_smul, Real.norm_eq_abs, abs_of_pos sp, mul_pow, s2,
      show tau * ‖xi‖ ^ 2 / (2 * tau) = ‖xi‖ ^ 2 / 2 by field_simp]
  simp only [e1]
  have e2 : ∫⁻ xi : V, F (Real.sqrt tau • xi) = ENNReal.ofReal ((Real.sqrt tau ^ 3)⁻¹) * ∫⁻ z, F z := by
    rw [← lintegral_map Fm (measurable_const_smul (Real.sqrt tau)), Measure.map_addHaar_smul _ sp.ne',
      lintegral_smul_measure, smul_eq_mul]
    congr 2
    rw [finrank_euclideanSpace_fin, abs_of_pos (by positivity)]
  rw [e2, ← lintegral_const_mul' _ _ ENNReal.ofReal_ne_top]
  rw [← lintegral_add_left_eq_self (fun x => ENNReal.ofReal (g1 tau (x - d)) * f x) d]
  refine lintegral_congr fun z => ?_
  simp only [F]
  rw [add_sub_cancel_left, g1_eq tau ht, ← mul_assoc, ← ENNReal.ofReal_mul (by positivity)]
  congr 2
  ring

instance : IsProbabilityMeasure unifLaw := ⟨by simp [unifLaw]⟩

instance : IsProbabilityMeasure angleLaw := ⟨by
  have : 0 < 2 * Real.pi := by positivity
  simp only [angleLaw, Measure.smul_apply, Measure.restrict_apply MeasurableSet.univ, univ_inter,
    Real.volume_Ioo, sub_zero, smul_eq_mul]
  rw [← ENNReal.ofReal_mul (by positivity), one_div, inv_mul_cancel₀ this.ne', ENNReal.ofReal_one]⟩

instance : IsProbabilityMeasure gammaLaw := ⟨by
  unfold gammaLaw
  rw [withDensity_apply _ MeasurableSet.univ, Measure.restrict_univ]
  have h := Real.Gamma_eq_integral (s := 3) (by norm_num)
  have hi := Real.GammaIntegral_convergent (s := 3) (by norm_num)
  have e : ∀ x ∈ Ioi (0 : ℝ), ENNReal.ofReal (x ^ 2 * Real.exp (-x) / 2) =
      ENNReal.ofReal (1 / 2) * ENNReal.ofReal (Real.exp (-x) * x ^ ((3 : ℝ) - 1)) := by
    intro x hx
    rw [← ENNReal.ofReal_mul (by norm_num), show (3 : ℝ) - 1 = ((2 : ℕ) : ℝ) by norm_num,
      Real.rpow_natCast]
    congr 1
    ring
  rw [setLIntegral_congr_fun measurableSet_Ioi e, lintegral_const_mul' _ _ ENNReal.ofReal_ne_top,
    ← ofReal_integral_eq_lintegral_ofReal hi, ← h]
  · rw [show (3 : ℝ) = ((2 : ℕ) : ℝ) + 1 by norm_num, Real.Gamma_nat_eq_factorial,
      ← ENNReal.ofReal_mul (by norm_num)]
    norm_num
  · refine (ae_restrict_iff' measurableSet_Ioi).mpr (Filter.Eventually.of_forall fun x hx => ?_)
    have hx : 0 < x := hx
    positivity⟩

instance : IsProbabilityMeasure normalLaw := ⟨by
  unfold normalLaw
  rw [withDensity_apply _ MeasurableSet.univ, Measure.restrict_univ]
  have h := GaussianFourier.integral_rexp_neg_mul_sq_norm (V := V) (b := 1 / 2) (by norm_num)
  have hp : (0 : ℝ) < (Real.pi / (1 / 2)) ^ ((Module.finrank ℝ V : ℝ) / 2) := by positivity
  have hi : Integrable fun v : V => Real.exp (-(1 / 2) * ‖v‖ ^ 2) := by
    by_contra c
    rw [integral_undef c] at h
    exact hp.ne h
  have e : ∀ x : V, ENNReal.ofReal ((Real.sqrt (2 * Real.pi) ^ 3)⁻¹ * Real.exp (-(‖x‖ ^ 2 / 2))) =
      ENNReal.ofReal ((Real.sqrt (2 * Real.pi) ^ 3)⁻¹) * ENNReal.ofReal (Real.exp (-(1 / 2) * ‖x‖ ^ 2)) := by
    intro x
    rw [← ENNReal.ofReal_mul (by positivity)]
    congr 3
    ring
  simp only [e]
  rw [lintegral_const_mul' _ _ ENNReal.ofReal_ne_top, ← ofReal_integral_eq_lintegral_ofReal hi
    (Filter.Eventually.of_forall fun x => (Real.exp_pos _).le), h, ← ENNReal.ofReal_mul (by positivity)]
  rw [finrank_euclideanSpace_fin, show Real.pi / (1 / 2) = 2 * Real.pi by ring,
    Real.sqrt_eq_rpow, ← Real.rpow_natCast, ← Real.rpow_mul (by positivity)]
  norm_num
  rw [inv_mul_cancel₀ (by positivity)]⟩

instance : IsProbabilityMeasure drawLaw := by unfold drawLaw; infer_instance

theorem measurable_sample (zeta : ℝ) :
    Measurable fun p : ℝ × ℝ × ℝ => sampleGamma zeta p.1 p.2.1 p.2.2 := by
  simp only [sample_pt]
  have : Measurable Real.arccos := Real.continuous_arccos.measurable
  refine measurable_pt ?_ ?_ ?_ <;> fun_prop

/-- The law of `do_diffusion`. -/
theorem diffuse_law (drifted nucleus : V) (q tau zeta : ℝ) (hq : 0 < q ∧ q < 1) (ht : 0 < tau)
    (hz : 0 < zeta) (f : V → ℝ≥0∞) (hf : Measurable f) :
    ∫⁻ d, f (diffuse drifted nucleus q tau zeta d.1 d.2.1 d.2.2.1 d.2.2.2.1 d.2.2.2.2) ∂drawLaw =
      ∫⁻ y, ENNReal.ofReal (calcG y nucleus drifted q zeta tau) * f y := by
  have ma : Measurable fun xi : V => f (drifted + Real.sqrt tau • xi) := by fun_prop
  have mb : Measurable fun p : ℝ × ℝ × ℝ => f (nucleus + sampleGamma zeta p.1 p.2.1 p.2.2) :=
    hf.comp ((measurable_sample zeta).const_add nucleus)
  have m : Measurable fun d : ℝ × V × ℝ × ℝ × ℝ =>
      f (diffuse drifted nucleus q tau zeta d.1 d.2.1 d.2.2.1 d.2.2.2.1 d.2.2.2.2) := by
    unfold diffuse
    simp only [apply_ite f]
    refine Measurable.ite (measurableSet_lt measurable_fst measurable_const) ?_ ?_
    · exact ma.comp (by fun_prop)
    · exact mb.comp (by fun_prop)
  unfold drawLaw
  rw [lintegral_prod _ m.aemeasurable]
  have inner : ∀ u : ℝ, ∫⁻ p, f (diffuse drifted nucleus q tau zeta u p.1 p.2.1 p.2.2.1 p.2.2.2)
      ∂(normalLaw.prod (gammaLaw.prod (angleLaw.prod unifLaw))) =
      if u < 1 - q then ∫⁻ y, ENNReal.ofReal (g1 tau (y - drifted)) * f y
      else ∫⁻ y, ENNReal.ofReal (g2 zeta (y - nucleus)) * f y := by
    intro u
    split
    · rename_i c
      simp only [diffuse, if_pos c]
      rw [lintegral_prod (fun p : V × ℝ × ℝ × ℝ => f (drifted + Real.sqrt tau • p.1))
        (ma.comp measurable_fst).aemeasurable]
      simp only [lintegral_const, measure_univ, mul_one]
      exact normal_step tau ht drifted f hf
    · rename_i c
      simp only [diffuse, if_neg c]
      rw [lintegral_prod (fun p : V × ℝ × ℝ × ℝ =>
        f (nucleus + sampleGamma zeta p.2.1 p.2.2.1 p.2.2.2)) (mb.comp measurable_snd).aemeasurable]
      simp only [lintegral_const, measure_univ, mul_one]
      rw [lintegral_prod _ mb.aemeasurable]
      have h1 : ∀ g, ∫⁻ p, f (nucleus + sampleGamma zeta g p.1 p.2) ∂(angleLaw.prod unifLaw) =
          ∫⁻ phi, ∫⁻ t, f (nucleus + sampleGamma zeta g phi t) ∂unifLaw ∂angleLaw := by
        intro g
        rw [lintegral_prod]
        exact (mb.comp (f := fun p : ℝ × ℝ => (g, p.1, p.2)) (by fun_prop)).aemeasurable
      simp only [h1]
      rw [gamma_sample zeta hz (fun x => f (nucleus + x)) (hf.comp (by fun_prop)),
        ← lintegral_add_left_eq_self (fun y => ENNReal.ofReal (g2 zeta (y - nucleus)) * f y) nucleus]
      simp only [add_sub_cancel_left]
  simp only [inner]
  unfold unifLaw
  have hs : Ioo (0 : ℝ) 1 = Ioo 0 (1 - q) ∪ Ico (1 - q) 1 :=
    (Ioo_union_Ico_eq_Ioo (by linarith [hq.2]) (by linarith [hq.1])).symm
  rw [hs, lintegral_union measurableSet_Ico (by
    rw [disjoint_left]; rintro x ⟨-, h⟩ ⟨h', -⟩; linarith)]
  rw [setLIntegral_congr_fun measurableSet_Ioo (g := fun _ =>
      ∫⁻ y, ENNReal.ofReal (g1 tau (y - drifted)) * f y) (fun u hu => if_pos hu.2),
    setLIntegral_congr_fun measurableSet_Ico (g := fun _ =>
      ∫⁻ y, ENNReal.ofReal (g2 zeta (y - nucleus)) * f y) (fun u hu => if_neg (not_lt.mpr hu.1)),
    setLIntegral_const, setLIntegral_const, Real.volume_Ioo, Real.volume_Ico, sub_zero,
    mul_comm, mul_comm (∫⁻ y, ENNReal.ofReal (g2 zeta (y - nucleus)) * f y)]
  rw [← lintegral_const_mul' _ _ ENNReal.ofReal_ne_top, ← lintegral_const_mul' _ _ ENNReal.ofReal_ne_top,
    ← lintegral_add_left]
  · refine lintegral_congr fun y => ?_
    rw [← mul_assoc, ← mul_assoc, ← add_mul, ← ENNReal.ofReal_mul (by linarith [hq.2]),
      ← ENNReal.ofReal_mul (by linarith [hq.1]), ← ENNReal.ofReal_add]
    · rfl
    · exact mul_nonneg (by linarith [hq.2]) (g1_pos _ _).le
    · exact mul_nonneg (by linarith [hq.1]) (g2_pos _ _).le
  · refine Measurable.const_mul (Measurable.mul ?_ hf) _
    exact ((measurable_g1 tau).comp (measurable_sub_const drifted)).ennreal_ofReal

variable {M : ℕ}

/-- C91: the position proposed for an electron is distributed with the density whose logarithm is
the `G_log` of the acceptance rate: for every non-negative observable the average over the draws is
the integral against `exp G_log`. -/
theorem c91_law (S : Sys M) (ht : 0 < S.tau) (x v : V) (f : V → ℝ≥0∞) (hf : Measurable f) :
    ∫⁻ d, f (propose S x v (toDraw d)) ∂drawLaw =
      ∫⁻ y, ENNReal.ofReal (Real.exp (gLog S x v y)) * f y := by
  have z : 0 < (prep S x v).zeta := by
    unfold prep
    refine Real.sqrt_pos.mpr (add_pos_of_nonneg_of_pos (sq_nonneg _) (by positivity))
  have := diffuse_law (prep S x v).drifted (prep S x v).nucleus (prep S x v).q S.tau
    (prep S x v).zeta (overshoot_range _ _ _ _) ht z f hf
  unfold gLog
  simp only [Real.exp_log (G_pos S x v _)]
  exact this

/-- C91: in particular the density is a probability density. -/
theorem c91_density (S : Sys M) (ht : 0 < S.tau) (x v : V) :
    ∫⁻ y, ENNReal.ofReal (Real.exp (gLog S x v y)) = 1 := by
  have := c91_law S ht x v (fun _ => 1) measurable_const
  simp only [mul_one, lintegral_const, measure_univ] at this
  exact this.symm

/-- A hydrogen atom at the origin with time step `1/100`: how often an electron at `(1, 0, 0)` with
velocity `(-1, 0, 0)` is proposed a position within distance `1` of the nucleus. -/
example :
    ∫⁻ d, (Metric.ball (0 : V) 1).indicator 1
        (propose (M := 0) ⟨fun _ => 0, fun _ => 1, 1 / 100⟩ !₂[1, 0, 0] !₂[-1, 0, 0] (toDraw d)) ∂drawLaw =
      ∫⁻ y in Metric.ball (0 : V) 1, ENNReal.ofReal (Real.exp
        (gLog (M := 0) ⟨fun _ => 0, fun _ => 1, 1 / 100⟩ !₂[1, 0, 0] !₂[-1, 0, 0] y)) := by
  rw [c91_law (M := 0) ⟨fun _ => 0, fun _ => 1, 1 / 100⟩ (by norm_num) !₂[1, 0, 0] !₂[-1, 0, 0]
    ((Metric.ball 0 1).indicator 1) (measurable_one.indicator measurableSet_ball),
    ← lintegral_indicator measurableSet_ball]
  refine lintegral_congr fun y => ?_
  by_cases h : y ∈ Metric.ball (0 : V) 1 <;> simp [Set.indicator, h]

end Jaqmc.DmcMove.Props
