import Verif.Lemmas.DmcMove
import Mathlib.Analysis.SpecialFunctions.PolarCoord
import Mathlib.MeasureTheory.Function.JacobianOneDim
import Mathlib.MeasureTheory.Measure.Haar.InnerProductSpace
import Mathlib.Analysis.SpecialFunctions.Gaussian.FourierTransform
import Mathlib.MeasureTheory.Integral.IntervalIntegral.Periodic
import Mathlib.Analysis.SpecialFunctions.Gamma.Basic
/-! Spherical coordinates, and the law of the DMC proposal. -/
namespace Jaqmc.DmcMove
open MeasureTheory Set
open scoped ENNReal

/-- A point from its coordinates. -/
def pt (a b c : ℝ) : V := !₂[a, b, c]

theorem measurable_pt {β : Type*} [MeasurableSpace β] {a b c : β → ℝ} (ha : Measurable a)
    (hb : Measurable b) (hc : Measurable c) : Measurable fun t => pt (a t) (b t) (c t) := by
  unfold pt
  refine (PiLp.volume_preserving_toLp (Fin 3)).measurable.comp (measurable_pi_lambda _ fun i => ?_)
  fin_cases i
  · simpa using ha
  · simpa using hb
  · simpa using hc

theorem lintegral_space (f : V → ℝ≥0∞) (hf : Measurable f) :
    ∫⁻ x, f x = ∫⁻ z : ℝ, ∫⁻ p : ℝ × ℝ, f (pt p.1 p.2 z) := by
  rw [← (PiLp.volume_preserving_toLp (Fin 3)).lintegral_comp hf]
  have e1 := (volume_preserving_piFinSuccAbove (fun _ : Fin 3 => ℝ) (Fin.last 2)).symm
  rw [← e1.lintegral_comp_emb (MeasurableEquiv.measurableEmbedding _)]
  rw [Measure.volume_eq_prod, lintegral_prod]
  · refine lintegral_congr fun z => ?_
    have e2 := (volume_preserving_finTwoArrow ℝ).symm
    rw [← e2.lintegral_comp_emb (MeasurableEquiv.measurableEmbedding _)]
    refine lintegral_congr fun p => ?_
    congr 1
    unfold pt
    congr 1
    funext i
    fin_cases i <;> rfl
  · refine Measurable.aemeasurable ?_
    exact hf.comp ((PiLp.volume_preserving_toLp (Fin 3)).measurable.comp
      (MeasurableEquiv.measurable _))

theorem lintegral_polar (h : ℝ × ℝ → ℝ≥0∞) (hh : Measurable h) :
    ∫⁻ p, h p = ∫⁻ r in Ioi (0 : ℝ), ∫⁻ φ in Ioo (-Real.pi) Real.pi,
      ENNReal.ofReal r * h (r * Real.cos φ, r * Real.sin φ) := by
  rw [← lintegral_comp_polarCoord_symm, polarCoord_target, Measure.volume_eq_prod,
    ← Measure.prod_restrict, lintegral_prod]
  · rfl
  · refine Measurable.aemeasurable ?_
    simp only [polarCoord_symm_apply, smul_eq_mul]
    fun_prop

theorem lintegral_turn (k : ℝ → ℝ≥0∞) (hk : Function.Periodic k (2 * Real.pi)) :
    ∫⁻ φ in Ioo (-Real.pi) Real.pi, k φ = ∫⁻ φ in Ioo 0 (2 * Real.pi), k φ := by
  have hT : 0 < 2 * Real.pi := by positivity
  have := (isAddFundamentalDomain_Ioc hT (-Real.pi)).setLIntegral_eq
    (isAddFundamentalDomain_Ioc hT 0) k hk.map_vadd_zmultiples
  rw [show -Real.pi + 2 * Real.pi = Real.pi by ring, zero_add] at this
  rw [setLIntegral_congr Ioo_ae_eq_Ioc, setLIntegral_congr Ioo_ae_eq_Ioc, this]

/-- Spherical coordinates. -/
theorem lintegral_spherical (f : V → ℝ≥0∞) (hf : Measurable f) :
    ∫⁻ x, f x = ∫⁻ r in Ioi (0 : ℝ), ∫⁻ φ in Ioo 0 (2 * Real.pi), ∫⁻ θ in Ioo 0 Real.pi,
      ENNReal.ofReal r * (ENNReal.ofReal (r * Real.sin θ) *
        f (pt (r * Real.sin θ * Real.cos φ) (r * Real.sin θ * Real.sin φ) (r * Real.cos θ))) := by
  have mf : ∀ {β : Type} [MeasurableSpace β] {a b c : β → ℝ}, Measurable a → Measurable b →
      Measurable c → Measurable fun t => f (pt (a t) (b t) (c t)) := fun ha hb hc =>
    hf.comp (measurable_pt ha hb hc)
  -- cylindrical coordinates
  have A : ∫⁻ x, f x = ∫⁻ z : ℝ, ∫⁻ ρ in Ioi (0 : ℝ), ∫⁻ φ in Ioo 0 (2 * Real.pi),
      ENNReal.ofReal ρ * f (pt (ρ * Real.cos φ) (ρ * Real.sin φ) z) := by
    rw [lintegral_space f hf]
    refine lintegral_congr fun z => ?_
    rw [lintegral_polar _ (mf measurable_fst measurable_snd measurable_const)]
    refine lintegral_congr fun ρ => ?_
    exact lintegral_turn (fun φ => ENNReal.ofReal ρ * f (pt (ρ * Real.cos φ) (ρ * Real.sin φ) z))
      (fun φ => by simp only [Real.cos_add_two_pi, Real.sin_add_two_pi])
  -- the angle to the front
  have B : ∫⁻ x, f x = ∫⁻ φ in Ioo 0 (2 * Real.pi), ∫⁻ z : ℝ, ∫⁻ ρ in Ioi (0 : ℝ),
      ENNReal.ofReal ρ * f (pt (ρ * Real.cos φ) (ρ * Real.sin φ) z) := by
    rw [A]
    have : ∀ z : ℝ, ∫⁻ ρ in Ioi (0 : ℝ), ∫⁻ φ in Ioo 0 (2 * Real.pi),
        ENNReal.ofReal ρ * f (pt (ρ * Real.cos φ) (ρ * Real.sin φ) z) =
        ∫⁻ φ in Ioo 0 (2 * Real.pi), ∫⁻ ρ in Ioi (0 : ℝ),
        ENNReal.ofReal ρ * f (pt (ρ * Real.cos φ) (ρ * Real.sin φ) z) := by
      intro z
      refine lintegral_lintegral_swap (Measurable.aemeasurable ?_)
      refine Measurable.mul (by fun_prop) (mf ?_ ?_ ?_) <;> fun_prop
    simp only [this]
    refine lintegral_lintegral_swap (Measurable.aemeasurable ?_)
    refine Measurable.lintegral_prod_right' (f := fun q : (ℝ × ℝ) × ℝ =>
      ENNReal.ofReal q.2 * f (pt (q.2 * Real.cos q.1.2) (q.2 * Real.sin q.1.2) q.1.1)) ?_
    refine Measurable.mul (by fun_prop) (mf ?_ ?_ ?_) <;> fun_prop
  -- polar coordinates in the half plane
  have C : ∀ φ : ℝ, (∫⁻ z : ℝ, ∫⁻ ρ in Ioi (0 : ℝ),
      ENNReal.ofReal ρ * f (pt (ρ * Real.cos φ) (ρ * Real.sin φ) z)) =
      ∫⁻ r in Ioi (0 : ℝ), ∫⁻ θ in Ioo 0 Real.pi,
      ENNReal.ofReal r * (ENNReal.ofReal (r * Real.sin θ) *
        f (pt (r * Real.sin θ * Real.cos φ) (r * Real.sin θ * Real.sin φ) (r * Real.cos θ))) := by
    intro φ
    let h : ℝ × ℝ → ℝ≥0∞ := fun q => (Ioi (0 : ℝ)).indicator (fun ρ =>
      ENNReal.ofReal ρ * f (pt (ρ * Real.cos φ) (ρ * Real.sin φ) q.1)) q.2
    have hm : Measurable h := by
      have : h = (univ ×ˢ Ioi (0 : ℝ)).indicator fun q : ℝ × ℝ =>
          ENNReal.ofReal q.2 * f (pt (q.2 * Real.cos φ) (q.2 * Real.sin φ) q.1) := by
        funext q
        simp [h, indicator]
      rw [this]
      refine Measurable.indicator ?_ (MeasurableSet.univ.prod measurableSet_Ioi)
      refine Measurable.mul (by fun_prop) (mf ?_ ?_ ?_) <;> fun_prop
    have e1 : (∫⁻ z : ℝ, ∫⁻ ρ in Ioi (0 : ℝ),
        ENNReal.ofReal ρ * f (pt (ρ * Real.cos φ) (ρ * Real.sin φ) z)) = ∫⁻ q, h q := by
      rw [Measure.volume_eq_prod, lintegral_prod _ hm.aemeasurable]
      refine lintegral_congr fun z => ?_
      rw [← lintegral_indicator measurableSet_Ioi]
    rw [e1, lintegral_polar h hm]
    refine setLIntegral_congr_fun measurableSet_Ioi fun r hr => ?_
    have hr : 0 < r := hr
    have e2 : ∀ θ ∈ Ioo (-Real.pi) Real.pi, ENNReal.ofReal r * h (r * Real.cos θ, r * Real.sin θ) =
        (Ioo 0 Real.pi).indicator (fun θ => ENNReal.ofReal r * (ENNReal.ofReal (r * Real.sin θ) *
          f (pt (r * Real.sin θ * Real.cos φ) (r * Real.sin θ * Real.sin φ) (r * Real.cos θ)))) θ := by
      intro θ hθ
      by_cases c : 0 < θ
      · have sp : 0 < r * Real.sin θ := mul_pos hr (Real.sin_pos_of_pos_of_lt_pi c hθ.2)
        rw [indicator_of_mem (show θ ∈ Ioo 0 Real.pi from ⟨c, hθ.2⟩)]
        simp only [h]
        rw [indicator_of_mem (show r * Real.sin θ ∈ Ioi (0 : ℝ) from sp)]
      · have sn : ¬ 0 < r * Real.sin θ := by
          have := Real.sin_nonpos_of_nonpos_of_neg_pi_le (not_lt.mp c) hθ.1.le
          exact not_lt.mpr (mul_nonpos_of_nonneg_of_nonpos hr.le this)
        rw [indicator_of_notMem (fun m => c m.1)]
        simp only [h]
        rw [indicator_of_notMem (show r * Real.sin θ ∉ Ioi (0 : ℝ) from sn), mul_zero]
    change ∫⁻ θ in Ioo (-Real.pi) Real.pi, ENNReal.ofReal r * h (r * Real.cos θ, r * Real.sin θ) = _
    rw [setLIntegral_congr_fun measurableSet_Ioo e2, setLIntegral_indicator measurableSet_Ioo]
    rw [inter_eq_left.mpr]
    exact Ioo_subset_Ioo_left (by linarith [Real.pi_pos])
  rw [B]
  simp only [C]
  refine lintegral_lintegral_swap (Measurable.aemeasurable ?_)
  refine Measurable.lintegral_prod_right' (f := fun q : (ℝ × ℝ) × ℝ =>
    ENNReal.ofReal q.1.2 * (ENNReal.ofReal (q.1.2 * Real.sin q.2) *
        f (pt (q.1.2 * Real.sin q.2 * Real.cos q.1.1) (q.1.2 * Real.sin q.2 * Real.sin q.1.1)
          (q.1.2 * Real.cos q.2)))) ?_
  refine Measurable.mul (by fun_prop) (Measurable.mul (by fun_prop) (mf ?_ ?_ ?_)) <;> fun_prop

end Jaqmc.DmcMove
