import Verif.Spec.OneRdm
import Verif.Model.HallStats
import Mathlib.MeasureTheory.Function.JacobianOneDim
import Mathlib.MeasureTheory.Constructions.Pi
import Mathlib.MeasureTheory.Integral.Prod
import Mathlib.MeasureTheory.Integral.Pi
import Mathlib.Analysis.SpecialFunctions.Trigonometric.Inverse
import Mathlib.Analysis.SpecialFunctions.Trigonometric.Deriv
import Mathlib.Analysis.SpecialFunctions.Integrals.Basic
/-! The area of the sphere in angles, uniform points, and replacing one electron (C96, C97). -/
namespace Jaqmc.HallStats.Spec
open MeasureTheory Set
open scoped BigOperators ComplexConjugate ENNReal

theorem cos_image : Real.cos '' Ioo 0 Real.pi = Ioo (-1) 1 := by
  ext x
  constructor
  · rintro ⟨t, ⟨h0, h1⟩, rfl⟩
    constructor
    · rw [← Real.cos_pi]; exact Real.cos_lt_cos_of_nonneg_of_le_pi h0.le le_rfl h1
    · rw [← Real.cos_zero]; exact Real.cos_lt_cos_of_nonneg_of_le_pi le_rfl h1.le h0
  · rintro ⟨h0, h1⟩
    refine ⟨Real.arccos x, ⟨Real.arccos_pos.2 h1, ?_⟩, Real.cos_arccos h0.le h1.le⟩
    exact lt_of_le_of_ne (Real.arccos_le_pi x) fun h => by
      have := Real.arccos_eq_pi.1 h
      linarith

theorem measurable_arccos : Measurable Real.arccos := Real.continuous_arccos.measurable

/-- The polar angle of a uniform point: the arccosine of a uniform number. -/
theorem polar_eq : polarM = Measure.map Real.arccos (volume.restrict (Icc (-1) 1)) := by
  refine Measure.ext_of_lintegral _ fun f hf => ?_
  rw [lintegral_map hf measurable_arccos]
  unfold polarM
  rw [lintegral_withDensity_eq_lintegral_mul _ (by fun_prop) hf, setLIntegral_congr Ioo_ae_eq_Icc.symm, setLIntegral_congr Ioo_ae_eq_Icc.symm]
  have h := lintegral_image_eq_lintegral_abs_deriv_mul (s := Ioo 0 Real.pi) (f := Real.cos) (f' := fun x => -Real.sin x) measurableSet_Ioo
    (fun x _ => (Real.hasDerivAt_cos x).hasDerivWithinAt) (Real.injOn_cos.mono Ioo_subset_Icc_self) (fun x => f (Real.arccos x))
  rw [cos_image] at h
  rw [h]
  refine setLIntegral_congr_fun measurableSet_Ioo fun x hx => ?_
  simp only [Pi.mul_apply]
  rw [Real.arccos_cos hx.1.le hx.2.le, abs_neg, abs_of_nonneg (Real.sin_nonneg_of_nonneg_of_le_pi hx.1.le hx.2.le)]

instance : IsFiniteMeasure polarM := by rw [polar_eq]; infer_instance
instance : IsFiniteMeasure area := by unfold area; infer_instance
instance (n : ℕ) : IsFiniteMeasure (areaN n) := by unfold areaN; infer_instance

/-- Integrals of functions of the cosine of the polar angle. -/
theorem integral_polar {E : Type*} [NormedAddCommGroup E] [NormedSpace ℝ E] (g : ℝ → E) (hg : AEStronglyMeasurable (fun θ => g (Real.cos θ)) polarM) :
    ∫ θ, g (Real.cos θ) ∂polarM = ∫ x in Icc (-1) 1, g x := by
  rw [polar_eq] at hg ⊢
  rw [integral_map measurable_arccos.aemeasurable hg]
  refine setIntegral_congr_fun measurableSet_Icc fun x hx => ?_
  simp only [Real.cos_arccos hx.1 hx.2]

theorem polar_univ : polarM univ = 2 := by
  rw [polar_eq, Measure.map_apply measurable_arccos MeasurableSet.univ]
  simp
  norm_num

theorem area_univ : area univ = ENNReal.ofReal (4 * Real.pi) := by
  unfold area
  rw [← univ_prod_univ, Measure.prod_prod, polar_univ, Measure.restrict_apply_univ, Real.volume_Icc,
    show (2 : ℝ≥0∞) = ENNReal.ofReal 2 by norm_num, ← ENNReal.ofReal_mul (by norm_num)]
  congr 1
  ring

theorem area_real : area.real univ = 4 * Real.pi := by
  rw [measureReal_def, area_univ, ENNReal.toReal_ofReal (by positivity)]

/-- The sampled point is uniform on the sphere. -/
theorem draws_map : Measure.map sampleSphere draws = ENNReal.ofReal (1 / (4 * Real.pi)) • area := by
  have h : sampleSphere = Prod.map Real.arccos id := rfl
  have := Real.pi_pos
  unfold draws
  rw [h, ← Measure.map_prod_map _ _ measurable_arccos measurable_id, Measure.map_id, Measure.map_smul, ← polar_eq, Measure.prod_smul_left,
    Measure.prod_smul_right, smul_smul]
  unfold area
  congr 1
  rw [← ENNReal.ofReal_mul (by norm_num)]
  congr 1
  field_simp
  norm_num

theorem measurable_sampleSphere : Measurable sampleSphere := measurable_arccos.prodMap measurable_id

instance : IsProbabilityMeasure draws := by
  constructor
  have h : draws univ = (Measure.map sampleSphere draws) univ := by
    rw [Measure.map_apply measurable_sampleSphere MeasurableSet.univ]; rfl
  rw [h, draws_map, Measure.smul_apply, area_univ, smul_eq_mul, ← ENNReal.ofReal_mul (by positivity)]
  rw [one_div_mul_cancel (by positivity)]
  simp

/-! ### Replacing one electron -/

theorem update_eq_insertNth {n : ℕ} (a : Fin (n + 1)) (R : Fin (n + 1) → ℝ × ℝ) (r : ℝ × ℝ) :
    Function.update R a r = (MeasurableEquiv.piFinSuccAbove (fun _ => ℝ × ℝ) a).symm (r, (MeasurableEquiv.piFinSuccAbove (fun _ => ℝ × ℝ) a R).2) := by
  have h : (MeasurableEquiv.piFinSuccAbove (fun _ => ℝ × ℝ) a).symm (r, (MeasurableEquiv.piFinSuccAbove (fun _ => ℝ × ℝ) a R).2) =
      a.insertNth (α := fun _ => ℝ × ℝ) r (a.removeNth R) := rfl
  rw [h, Fin.insertNth_removeNth]

theorem measurable_update' {n : ℕ} (a : Fin n) : Measurable fun p : (Fin n → ℝ × ℝ) × (ℝ × ℝ) => Function.update p.1 a p.2 := by
  refine measurable_pi_lambda _ fun k => ?_
  by_cases h : k = a
  · subst h; simpa using measurable_snd
  · simp only [Function.update_of_ne h]
    exact (measurable_pi_apply k).comp measurable_fst

/-- Replacing one electron by a point of the sphere samples the same volume. -/
theorem resample {n : ℕ} (a : Fin n) (F : (Fin n → ℝ × ℝ) → ℂ) (hF : Measurable F) (hb : ∃ C, ∀ R, ‖F R‖ ≤ C) :
    ∫ R, ∫ r, F (Function.update R a r) ∂area ∂areaN n = (4 * Real.pi : ℝ) * ∫ R, F R ∂areaN n := by
  obtain ⟨C, hC⟩ := hb
  cases n with
  | zero => exact a.elim0
  | succ n =>
    let e := MeasurableEquiv.piFinSuccAbove (fun _ => ℝ × ℝ) a
    have mp : MeasurePreserving e (areaN (n + 1)) (area.prod (areaN n)) := measurePreserving_piFinSuccAbove (fun _ => area) a
    have hi : ∀ {β : Type} [MeasurableSpace β] {μ : Measure β} [IsFiniteMeasure μ] (g : β → (Fin (n + 1) → ℝ × ℝ)), Measurable g → Integrable (fun b => F (g b)) μ := by
      intro β _ μ _ g hg
      exact Integrable.of_bound (hF.comp hg).aestronglyMeasurable C (Filter.Eventually.of_forall fun b => hC _)
    have h1 : ∫ R, F R ∂areaN (n + 1) = ∫ p, F (e.symm p) ∂(area.prod (areaN n)) := by
      rw [← mp.integral_comp' (g := fun p => F (e.symm p))]
      simp
    have h2 : ∫ R, ∫ r, F (Function.update R a r) ∂area ∂areaN (n + 1) = ∫ p, (∫ r, F (e.symm (r, p.2)) ∂area) ∂(area.prod (areaN n)) := by
      rw [← mp.integral_comp' (g := fun p => ∫ r, F (e.symm (r, p.2)) ∂area)]
      refine integral_congr_ae (Filter.Eventually.of_forall fun R => ?_)
      simp only [update_eq_insertNth]
      rfl
    rw [h1, h2, integral_prod_symm _ (hi _ e.symm.measurable)]
    have h3 : Integrable (fun p : (ℝ × ℝ) × (Fin n → ℝ × ℝ) => ∫ r, F (e.symm (r, p.2)) ∂area) (area.prod (areaN n)) := by
      have h4 : Integrable (fun y => ∫ r, F (e.symm (r, y)) ∂area) (areaN n) := (hi _ e.symm.measurable).integral_prod_right (f := fun p => F (e.symm p))
      exact h4.comp_snd area
    rw [integral_prod _ h3]
    simp only [integral_const, area_real]
    rfl

end Jaqmc.HallStats.Spec
