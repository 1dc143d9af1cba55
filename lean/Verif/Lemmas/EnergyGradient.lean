import Verif.Spec.EnergyGradient
import Mathlib.MeasureTheory.Function.ConvergenceInMeasure
import Mathlib.MeasureTheory.Integral.Pi
import Mathlib.Analysis.InnerProductSpace.Calculus
import Mathlib.Analysis.Calculus.Deriv.Slope
import Mathlib.Analysis.Calculus.Deriv.Inv
import Mathlib.MeasureTheory.Integral.Bochner.ContinuousLinearMap
/-! The derivative of the variational energy, as averages over the walkers (C94). -/
namespace Jaqmc.LossGrad.Grad
open MeasureTheory Filter Topology Spec
open scoped BigOperators ComplexConjugate

variable {X : Type} [MeasurableSpace X] {μ : Measure X}

/-! ### The quadratic form -/

theorem real_smul (r : ℝ) (f : L2C μ) : r • f = (r : ℂ) • f := by
  have := algebraMap_smul ℂ r f
  rw [← this]; rfl

/-- `⟨ψ, Hψ⟩` is differentiable although `Hψ` is only continuous. -/
theorem form_deriv {H : L2C μ →ₗ.[ℂ] L2C μ} (hs : Symmetric H) {ψ : ℝ → H.domain} {θ : ℝ} {ψ' : L2C μ}
    (hd : HasDerivAt (fun t => (ψ t : L2C μ)) ψ' θ) (hc : ContinuousAt (fun t => H (ψ t)) θ) :
    HasDerivAt (fun t => (inner ℂ (ψ t : L2C μ) (H (ψ t))).re) (2 * (inner ℂ ψ' (H (ψ θ))).re) θ := by
  rw [hasDerivAt_iff_tendsto_slope] at hd ⊢
  have key : ∀ t, slope (fun t => (inner ℂ (ψ t : L2C μ) (H (ψ t))).re) θ t =
      (inner ℂ (slope (fun t => (ψ t : L2C μ)) θ t) (H (ψ θ))).re + (inner ℂ (H (ψ t)) (slope (fun t => (ψ t : L2C μ)) θ t)).re := by
    intro t
    rw [slope_def_module, slope_def_module, real_smul, inner_smul_left, inner_smul_right, Complex.conj_ofReal, Complex.re_ofReal_mul,
      Complex.re_ofReal_mul, ← mul_add, smul_eq_mul, inner_sub_left, inner_sub_right]
    congr 1
    rw [hs (ψ t) (ψ t), hs (ψ t) (ψ θ)]
    simp
  have e : 2 * (inner ℂ ψ' (H (ψ θ))).re = (inner ℂ ψ' (H (ψ θ))).re + (inner ℂ (H (ψ θ)) ψ').re := by
    rw [← inner_conj_symm ψ' (H (ψ θ)), Complex.conj_re]
    ring
  rw [e, show slope (fun t => (inner ℂ (ψ t : L2C μ) (H (ψ t))).re) θ = _ from funext key]
  have hc' : Tendsto (fun t => H (ψ t)) (𝓝[≠] θ) (𝓝 (H (ψ θ))) := hc.tendsto.mono_left nhdsWithin_le_nhds
  have t1 : Tendsto (fun t => (inner ℂ (slope (fun t => (ψ t : L2C μ)) θ t) (H (ψ θ)))) (𝓝[≠] θ) (𝓝 (inner ℂ ψ' (H (ψ θ)))) :=
    hd.inner tendsto_const_nhds
  have t2 : Tendsto (fun t => (inner ℂ (H (ψ t)) (slope (fun t => (ψ t : L2C μ)) θ t))) (𝓝[≠] θ) (𝓝 (inner ℂ (H (ψ θ)) ψ')) :=
    hc'.inner hd
  exact ((Complex.continuous_re.tendsto _).comp t1).add ((Complex.continuous_re.tendsto _).comp t2)

theorem norm_deriv {H : L2C μ →ₗ.[ℂ] L2C μ} {ψ : ℝ → H.domain} {θ : ℝ} {ψ' : L2C μ}
    (hd : HasDerivAt (fun t => (ψ t : L2C μ)) ψ' θ) :
    HasDerivAt (fun t => (inner ℂ (ψ t : L2C μ) (ψ t : L2C μ)).re) (2 * (inner ℂ ψ' (ψ θ : L2C μ)).re) θ := by
  have h := hd.inner ℂ hd
  have h2 := (Complex.reCLM.hasFDerivAt.comp_hasDerivAt θ h)
  have e : 2 * (inner ℂ ψ' (ψ θ : L2C μ)).re = Complex.reCLM (inner ℂ (ψ θ : L2C μ) ψ' + inner ℂ ψ' (ψ θ : L2C μ)) := by
    have hr : (inner ℂ (ψ θ : L2C μ) ψ').re = (inner ℂ ψ' (ψ θ : L2C μ)).re := by
      rw [← inner_conj_symm (ψ θ : L2C μ) ψ', Complex.conj_re]
    rw [Complex.reCLM_apply, Complex.add_re, hr]
    ring
  rw [e]
  exact h2

/-- The derivative of the variational energy. -/
theorem energy_deriv {H : L2C μ →ₗ.[ℂ] L2C μ} (hs : Symmetric H) {ψ : ℝ → H.domain} {θ : ℝ} {ψ' : L2C μ}
    (hd : HasDerivAt (fun t => (ψ t : L2C μ)) ψ' θ) (hc : ContinuousAt (fun t => H (ψ t)) θ) (hne : (ψ θ : L2C μ) ≠ 0) :
    HasDerivAt (fun t => energy H (ψ t)) (2 * ((inner ℂ ψ' (H (ψ θ))).re - energy H (ψ θ) * (inner ℂ ψ' (ψ θ : L2C μ)).re) /
      (inner ℂ (ψ θ : L2C μ) (ψ θ : L2C μ)).re) θ := by
  have hn : (inner ℂ (ψ θ : L2C μ) (ψ θ : L2C μ)).re ≠ 0 := by
    have hz : (inner ℂ (ψ θ : L2C μ) (ψ θ : L2C μ)).re = ‖(ψ θ : L2C μ)‖ ^ 2 := inner_self_eq_norm_sq (𝕜 := ℂ) _
    rw [hz]
    exact pow_ne_zero 2 (norm_ne_zero_iff.mpr hne)
  have h := (form_deriv hs hd hc).div (norm_deriv hd) hn
  have e : 2 * ((inner ℂ ψ' (H (ψ θ))).re - energy H (ψ θ) * (inner ℂ ψ' (ψ θ : L2C μ)).re) / (inner ℂ (ψ θ : L2C μ) (ψ θ : L2C μ)).re =
      (2 * (inner ℂ ψ' (H (ψ θ))).re * (inner ℂ (ψ θ : L2C μ) (ψ θ : L2C μ)).re -
        (inner ℂ (ψ θ : L2C μ) (H (ψ θ))).re * (2 * (inner ℂ ψ' (ψ θ : L2C μ)).re)) / (inner ℂ (ψ θ : L2C μ) (ψ θ : L2C μ)).re ^ 2 := by
    unfold energy
    field_simp
  rw [e]
  exact h

/-! ### Pointwise and mean derivatives agree -/

theorem pointwise_deriv {H : L2C μ →ₗ.[ℂ] L2C μ} {ψ : ℝ → H.domain} {Ψ : ℝ → X → ℂ} {θ : ℝ} {g : X → ℂ} (F : Family H ψ Ψ θ g)
    {ψ' : L2C μ} (hd : HasDerivAt (fun t => (ψ t : L2C μ)) ψ' θ) : ∀ᵐ x ∂μ, ψ' x = g x * (ψ θ : L2C μ) x := by
  rw [hasDerivAt_iff_tendsto_slope] at hd
  obtain ⟨ns, h1, h2⟩ := (tendstoInMeasure_of_tendsto_Lp hd).exists_seq_tendsto_ae'
  have hv : ∀ᵐ x ∂μ, ∀ i : ℕ, (ψ (ns i) : L2C μ) x = Ψ (ns i) x := ae_all_iff.mpr fun i => F.values (ns i)
  have hsl : ∀ᵐ x ∂μ, ∀ i : ℕ, (slope (fun t => (ψ t : L2C μ)) θ (ns i) : L2C μ) x =
      (ns i - θ)⁻¹ • ((ψ (ns i) : L2C μ) x - (ψ θ : L2C μ) x) := by
    refine ae_all_iff.mpr fun i => ?_
    rw [slope_def_module]
    filter_upwards [Lp.coeFn_smul (ns i - θ)⁻¹ ((ψ (ns i) : L2C μ) - (ψ θ : L2C μ)), Lp.coeFn_sub (ψ (ns i) : L2C μ) (ψ θ : L2C μ)] with x e1 e2
    rw [e1, Pi.smul_apply, e2, Pi.sub_apply]
  filter_upwards [h2, hv, hsl, F.values θ, F.logDeriv] with x a b c d e
  rw [d]
  rw [hasDerivAt_iff_tendsto_slope] at e
  refine tendsto_nhds_unique a ?_
  have : (fun i => (slope (fun t => (ψ t : L2C μ)) θ (ns i) : L2C μ) x) = slope (fun t => Ψ t x) θ ∘ ns := by
    funext i
    rw [c i, b i, d, Function.comp, slope_def_module]
  rw [this]
  exact e.comp h1

/-! ### Averages over the walkers -/

variable {ψ : L2C μ}

theorem sq_int (ψ : L2C μ) : Integrable (fun x => ‖ψ x‖ ^ 2) μ :=
  (memLp_two_iff_integrable_sq_norm (Lp.aestronglyMeasurable ψ)).mp (Lp.memLp ψ)

theorem Z_eq (ψ : L2C μ) : (inner ℂ ψ ψ).re = ∫ x, ‖ψ x‖ ^ 2 ∂μ := by
  rw [L2.inner_def]
  have h := integral_re (𝕜 := ℂ) (L2.integrable_inner (𝕜 := ℂ) ψ ψ)
  have h' : (∫ x, inner ℂ (ψ x) (ψ x) ∂μ).re = ∫ x, (inner ℂ (ψ x) (ψ x)).re ∂μ := h.symm
  rw [h']
  refine integral_congr_ae (Eventually.of_forall fun x => ?_)
  simp only
  rw [inner_self_eq_norm_sq_to_K]
  norm_cast

theorem Z_pos (h : ψ ≠ 0) : 0 < ∫ x, ‖ψ x‖ ^ 2 ∂μ := by
  have hz : (inner ℂ ψ ψ).re = ‖ψ‖ ^ 2 := inner_self_eq_norm_sq (𝕜 := ℂ) _
  rw [← Z_eq, hz]
  exact pow_pos (norm_pos_iff.mpr h) 2

theorem law_prob (h : ψ ≠ 0) : IsProbabilityMeasure (walkerLaw μ ψ) := by
  constructor
  unfold walkerLaw
  rw [withDensity_apply _ MeasurableSet.univ, Measure.restrict_univ,
    ← ofReal_integral_eq_lintegral_ofReal ((sq_int ψ).div_const _) (Eventually.of_forall fun x => by have := Z_pos h; positivity),
    integral_div, div_self (Z_pos h).ne', ENNReal.ofReal_one]

theorem law_meas (ψ : L2C μ) : AEMeasurable (fun x => ENNReal.ofReal (‖ψ x‖ ^ 2 / ∫ y, ‖ψ y‖ ^ 2 ∂μ)) μ :=
  ((sq_int ψ).div_const _).aestronglyMeasurable.aemeasurable.ennreal_ofReal

theorem law_integral (h : ψ ≠ 0) (f : X → ℂ) :
    ∫ x, f x ∂walkerLaw μ ψ = (∫ x, (‖ψ x‖ ^ 2 : ℝ) * f x ∂μ) / ((∫ x, ‖ψ x‖ ^ 2 ∂μ : ℝ) : ℂ) := by
  unfold walkerLaw
  rw [integral_withDensity_eq_integral_toReal_smul₀ (law_meas ψ) (Eventually.of_forall fun x => ENNReal.ofReal_lt_top), ← integral_div]
  refine integral_congr_ae (Eventually.of_forall fun x => ?_)
  simp only
  rw [ENNReal.toReal_ofReal (by have := Z_pos h; positivity), Complex.real_smul]
  push_cast
  ring

theorem law_integrable (h : ψ ≠ 0) (f : X → ℂ) :
    Integrable f (walkerLaw μ ψ) ↔ Integrable (fun x => ((‖ψ x‖ ^ 2 : ℝ) : ℂ) * f x) μ := by
  unfold walkerLaw
  rw [integrable_withDensity_iff_integrable_smul₀' (law_meas ψ) (Eventually.of_forall fun x => ENNReal.ofReal_lt_top)]
  have e : (fun x => (ENNReal.ofReal (‖ψ x‖ ^ 2 / ∫ y, ‖ψ y‖ ^ 2 ∂μ)).toReal • f x) =
      fun x => (((∫ x, ‖ψ x‖ ^ 2 ∂μ : ℝ) : ℂ)⁻¹) * (((‖ψ x‖ ^ 2 : ℝ) : ℂ) * f x) := by
    funext x
    rw [ENNReal.toReal_ofReal (by have := Z_pos h; positivity), Complex.real_smul]
    push_cast
    ring
  rw [e]
  have hz : (((∫ x, ‖ψ x‖ ^ 2 ∂μ : ℝ) : ℂ)⁻¹) ≠ 0 := inv_ne_zero (by exact_mod_cast (Z_pos h).ne')
  exact integrable_const_mul_iff (IsUnit.mk0 _ hz) _

/-- An inner product as an average over the walkers. -/
theorem inner_avg (h : ψ ≠ 0) (φ χ : L2C μ) (a b : X → ℂ) (ha : ∀ᵐ x ∂μ, φ x = a x * ψ x) (hb : ∀ᵐ x ∂μ, χ x = b x * ψ x) :
    Integrable (fun x => conj (a x) * b x) (walkerLaw μ ψ) ∧
    inner ℂ φ χ = (∫ x, conj (a x) * b x ∂walkerLaw μ ψ) * ((∫ x, ‖ψ x‖ ^ 2 ∂μ : ℝ) : ℂ) := by
  have e : (fun x => inner ℂ (φ x) (χ x)) =ᵐ[μ] fun x => ((‖ψ x‖ ^ 2 : ℝ) : ℂ) * (conj (a x) * b x) := by
    filter_upwards [ha, hb] with x h1 h2
    have hn : conj (ψ x) * ψ x = ((‖ψ x‖ ^ 2 : ℝ) : ℂ) := by rw [Complex.conj_mul']; norm_cast
    rw [← hn, h1, h2, RCLike.inner_apply]
    simp only [map_mul]
    ring
  constructor
  · rw [law_integrable h]
    exact (L2.integrable_inner (𝕜 := ℂ) φ χ).congr e
  · rw [law_integral h, L2.inner_def, integral_congr_ae e, div_mul_cancel₀]
    exact_mod_cast (Z_pos h).ne'

/-- Products without conjugation are integrable too. -/
theorem prod_integrable (h : ψ ≠ 0) (φ χ : L2C μ) (a b : X → ℂ) (ha : ∀ᵐ x ∂μ, φ x = a x * ψ x) (hb : ∀ᵐ x ∂μ, χ x = b x * ψ x) :
    Integrable (fun x => b x * a x) (walkerLaw μ ψ) := by
  rw [law_integrable h]
  have h1 := (L2.integrable_inner (𝕜 := ℂ) φ χ)
  have hint : Integrable (fun x => φ x * χ x) μ := (Lp.memLp φ).integrable_mul (Lp.memLp χ)
  refine (hint.norm.mono' ?_ ?_)
  · have hm : AEStronglyMeasurable (fun x => conj (ψ x) * conj (ψ x) * (φ x * χ x) * (((‖ψ x‖ ^ 2 : ℝ) : ℂ)⁻¹)) μ := by
      have m1 := Lp.aestronglyMeasurable ψ
      have m2 : AEStronglyMeasurable (fun x => conj (ψ x)) μ := Complex.continuous_conj.comp_aestronglyMeasurable m1
      have m3 : AEMeasurable (fun x => ((‖ψ x‖ ^ 2 : ℝ) : ℂ)⁻¹) μ := by
        have := (sq_int ψ).aestronglyMeasurable.aemeasurable
        exact (Complex.measurable_ofReal.comp_aemeasurable this).inv
      exact ((m2.mul m2).mul hint.aestronglyMeasurable).mul m3.aestronglyMeasurable
    refine hm.congr ?_
    filter_upwards [ha, hb] with x h1 h2
    rw [h1, h2]
    by_cases hz : ψ x = 0
    · simp [hz]
    · have hn : conj (ψ x) * ψ x = ((‖ψ x‖ ^ 2 : ℝ) : ℂ) := by rw [Complex.conj_mul']; norm_cast
      have hne : ((‖ψ x‖ ^ 2 : ℝ) : ℂ) ≠ 0 := by
        rw [← hn]; exact mul_ne_zero (by simpa using hz) hz
      rw [show conj (ψ x) * conj (ψ x) * (a x * ψ x * (b x * ψ x)) = (conj (ψ x) * ψ x) * (conj (ψ x) * ψ x) * (b x * a x) by ring, hn]
      field_simp
  · filter_upwards [ha, hb] with x h1 h2
    rw [h1, h2]
    simp
    have : |‖ψ x‖| = ‖ψ x‖ := abs_norm _
    nlinarith [sq_nonneg ‖ψ x‖, norm_nonneg (a x), norm_nonneg (b x)]

/-! ### Independent walkers -/

section
variable {ι : Type} [Fintype ι] [DecidableEq ι] (p : Measure X) [IsProbabilityMeasure p]

theorem eval_int {a : X → ℂ} (i : ι) (ha : Integrable a p) :
    Integrable (fun x : ι → X => a (x i)) (Measure.pi fun _ => p) ∧ ∫ x : ι → X, a (x i) ∂Measure.pi (fun _ => p) = ∫ y, a y ∂p := by
  have hp := measurePreserving_eval (fun _ : ι => p) i
  refine ⟨hp.integrable_comp_of_integrable ha, ?_⟩
  have hm : AEStronglyMeasurable a (Measure.map (Function.eval i) (Measure.pi fun _ : ι => p)) := by rw [hp.map_eq]; exact ha.aestronglyMeasurable
  conv_rhs => rw [← hp.map_eq, integral_map (measurable_pi_apply i).aemeasurable hm]

theorem pair_int {a b : X → ℂ} {i j : ι} (hij : i ≠ j) (ha : Integrable a p) (hb : Integrable b p) :
    Integrable (fun x : ι → X => a (x i) * b (x j)) (Measure.pi fun _ => p) ∧
    ∫ x : ι → X, a (x i) * b (x j) ∂Measure.pi (fun _ => p) = (∫ y, a y ∂p) * ∫ y, b y ∂p := by
  let f : ι → X → ℂ := fun k => if k = i then a else if k = j then b else fun _ => 1
  have e : (fun x : ι → X => ∏ k, f k (x k)) = fun x => a (x i) * b (x j) := by
    funext x
    rw [← Finset.prod_subset (Finset.subset_univ {i, j}) (fun k _ hk => by
      simp only [Finset.mem_insert, Finset.mem_singleton, not_or] at hk
      simp [f, hk.1, hk.2]), Finset.prod_pair hij]
    simp [f, hij.symm]
  have hi : ∀ k, Integrable (f k) p := by
    intro k
    simp only [f]
    split
    · exact ha
    · split
      · exact hb
      · exact integrable_const _
  constructor
  · rw [← e]; exact Integrable.fintype_prod hi
  · rw [← e, integral_fintype_prod_eq_prod, ← Finset.prod_subset (Finset.subset_univ {i, j}) (fun k _ hk => by
      simp only [Finset.mem_insert, Finset.mem_singleton, not_or] at hk
      simp [f, hk.1, hk.2]), Finset.prod_pair hij]
    simp [f, hij.symm]

/-- The mean of a product of two batch sums. -/
theorem sums_int {a b : X → ℂ} (ha : Integrable a p) (hb : Integrable b p) (hab : Integrable (fun y => a y * b y) p) :
    Integrable (fun x : ι → X => (∑ i, a (x i)) * ∑ j, b (x j)) (Measure.pi fun _ => p) ∧
    ∫ x : ι → X, (∑ i, a (x i)) * (∑ j, b (x j)) ∂Measure.pi (fun _ => p) =
      Fintype.card ι * (∫ y, a y * b y ∂p) + Fintype.card ι * (Fintype.card ι - 1) * ((∫ y, a y ∂p) * ∫ y, b y ∂p) := by
  have hi : ∀ i j : ι, Integrable (fun x : ι → X => a (x i) * b (x j)) (Measure.pi fun _ => p) := by
    intro i j
    rcases eq_or_ne i j with rfl | h
    · exact (eval_int p i hab).1
    · exact (pair_int p h ha hb).1
  have e : (fun x : ι → X => (∑ i, a (x i)) * ∑ j, b (x j)) = fun x => ∑ i, ∑ j, a (x i) * b (x j) := by
    funext x; rw [Finset.sum_mul_sum]
  rw [e]
  refine ⟨integrable_finsetSum _ fun i _ => integrable_finsetSum _ fun j _ => hi i j, ?_⟩
  rw [integral_finsetSum _ fun i _ => integrable_finsetSum _ fun j _ => hi i j]
  have hrow : ∀ i : ι, ∫ x : ι → X, ∑ j, a (x i) * b (x j) ∂Measure.pi (fun _ => p) =
      (∫ y, a y * b y ∂p) + (Fintype.card ι - 1) * ((∫ y, a y ∂p) * ∫ y, b y ∂p) := by
    intro i
    rw [integral_finsetSum _ fun j _ => hi i j, ← Finset.add_sum_erase _ _ (Finset.mem_univ i), (eval_int p i hab).2]
    congr 1
    rw [Finset.sum_congr rfl fun j hj => (pair_int p (Finset.ne_of_mem_erase hj).symm ha hb).2, Finset.sum_const,
      Finset.card_erase_of_mem (Finset.mem_univ i), nsmul_eq_mul, Finset.card_univ,
      Nat.cast_sub (Fintype.card_pos_iff.mpr ⟨i⟩), Nat.cast_one]
  rw [Finset.sum_congr rfl fun i _ => hrow i, Finset.sum_const, Finset.card_univ, nsmul_eq_mul]
  ring

end

end Jaqmc.LossGrad.Grad
