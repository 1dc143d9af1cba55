import Verif.Lemmas.Mixing
import Verif.Lemmas.CellMove
import Verif.Model.SphereMove
import Mathlib.Probability.Distributions.Gaussian.Real
/-!
The wrapped move of the electrons of a solid goes everywhere in the cell (C137).
-/
namespace Jaqmc.Geometry.Cell
open MeasureTheory ProbabilityTheory Jaqmc.Geometry Jaqmc.Geometry.Spec Jaqmc.Geometry.Props Matrix Jaqmc.Average
open scoped ENNReal

variable {d : ℕ}

theorem gaussian_covers (R : ℝ) (g : ℝ → ℝ≥0∞) (hg : Measurable g) :
    ENNReal.ofReal (gaussianPDFReal 0 1 R) * ∫⁻ x in Set.Icc (-R) R, g x ≤ ∫⁻ x, g x ∂gaussianReal 0 1 := by
  rw [gaussianReal_of_var_ne_zero 0 one_ne_zero, lintegral_withDensity_eq_lintegral_mul _ (measurable_gaussianPDF 0 1) hg,
    ← lintegral_const_mul _ hg]
  refine le_trans ?_ (setLIntegral_le_lintegral (Set.Icc (-R) R) _)
  refine setLIntegral_mono ((measurable_gaussianPDF 0 1).mul hg) fun x hx => ?_
  show ENNReal.ofReal (gaussianPDFReal 0 1 R) * g x ≤ gaussianPDF 0 1 x * g x
  refine mul_le_mul_left (ENNReal.ofReal_le_ofReal ?_) _
  unfold gaussianPDFReal
  have : x ^ 2 ≤ R ^ 2 := sq_le_sq' hx.1 hx.2
  have hs : 0 < (Real.sqrt (2 * Real.pi * ((1 : NNReal) : ℝ)))⁻¹ := inv_pos.mpr (Real.sqrt_pos.mpr (by have := Real.pi_pos; simp; positivity))
  refine mul_le_mul_of_nonneg_left (Real.exp_le_exp.mpr ?_) hs.le
  simp only [sub_zero, NNReal.coe_one, mul_one]
  have : R ^ 2 / 2 ≥ x ^ 2 / 2 := by linarith
  rw [neg_div, neg_div]
  linarith

/-- How far the cell extends along any axis. -/
noncomputable def extent (L : Matrix (Fin d) (Fin d) ℝ) : ℝ := ∑ i, ∑ k, |L i k|

theorem cell_bound (L : Matrix (Fin d) (Fin d) ℝ) {p : Fin d → ℝ} (hp : InCell L p) (k : Fin d) : |p k| ≤ extent L := by
  obtain ⟨f, hf, h⟩ := hp
  rw [h]
  refine (Finset.abs_sum_le_sum_abs _ _).trans (Finset.sum_le_sum fun i _ => ?_)
  rw [abs_mul]
  have h1 : |f i| ≤ 1 := by rw [abs_of_nonneg (hf i).1]; exact (hf i).2.le
  calc |f i| * |L i k| ≤ 1 * |L i k| := mul_le_mul_of_nonneg_right h1 (abs_nonneg _)
    _ = |L i k| := one_mul _
    _ ≤ ∑ k, |L i k| := Finset.single_le_sum (f := fun k => |L i k|) (fun k _ => abs_nonneg _) (Finset.mem_univ k)

/-- The part of the proposal of one electron that is certain. -/
noncomputable def share (L : Matrix (Fin d) (Fin d) ℝ) (σ : ℝ) : ℝ≥0∞ :=
  ENNReal.ofReal (gaussianPDFReal 0 1 (2 * extent L / |σ|)) ^ d * ENNReal.ofReal |(σ ^ d)⁻¹|

theorem share_pos (L : Matrix (Fin d) (Fin d) ℝ) {σ : ℝ} (hσ : σ ≠ 0) : share L σ ≠ 0 := by
  unfold share
  refine mul_ne_zero (pow_ne_zero _ ?_) ?_
  · exact (ENNReal.ofReal_pos.mpr (gaussianPDFReal_pos 0 1 _ one_ne_zero)).ne'
  · exact (ENNReal.ofReal_pos.mpr (abs_pos.mpr (inv_ne_zero (pow_ne_zero _ hσ)))).ne'

theorem cell_covers (L : Matrix (Fin d) (Fin d) ℝ) (hL : IsUnit L.det) {σ : ℝ} (hσ : σ ≠ 0) (x : Fin d → ℝ) (g : (Fin d → ℝ) → ℝ≥0∞) (hg : Measurable g) :
    share L σ * ∫⁻ y, g y ∂cell L ≤ ∫⁻ z, g (pbcProposal L σ z x) ∂(Measure.pi fun _ : Fin d => gaussianReal 0 1) := by
  obtain ⟨hin, himg, hww, -⟩ := c30_wrap L hL x
  obtain ⟨k, hk⟩ := himg
  set x' := wrap L x with hx'
  set R := 2 * extent L / |σ| with hR
  have hmv : Measurable fun z : Fin d → ℝ => pbcProposal L σ z x := by
    unfold pbcProposal
    refine (wrap_measurable L).comp ?_
    fun_prop
  have hw : ∀ z, pbcProposal L σ z x = wrap L (x' + σ • z) := by
    intro z
    unfold pbcProposal
    rw [← wrap_translate L hL _ k]
    congr 1
    funext j
    simp only [Pi.add_apply, Pi.smul_apply, smul_eq_mul, hk]
    ring
  have hfix : ∀ y, InCell L y → wrap L y = y := by
    rintro y ⟨c, hc, hy⟩
    have h1 : y ᵥ* L⁻¹ = c := by
      have : y = c ᵥ* L := by funext k; rw [hy]; rfl
      rw [this, vecMul_vecMul, mul_nonsing_inv _ hL, vecMul_one]
    unfold wrap
    rw [h1]
    have : (fun i => pmod (c i) 1) = c := by
      funext i
      rw [pmod_one]
      exact Int.fract_eq_self.mpr (hc i)
    rw [this]
    funext k
    rw [hy]
    rfl
  have hbox : ∀ z : Fin d → ℝ, InCell L (x' + σ • z) → z ∈ Set.univ.pi fun _ => Set.Icc (-R) R := by
    intro z hz j _
    have b1 := cell_bound L hin j
    have b2 := cell_bound L hz j
    have : |σ * z j| ≤ 2 * extent L := by
      have : σ * z j = (x' + σ • z) j - x' j := by simp
      rw [this]
      exact (abs_sub _ _).trans (by linarith)
    rw [abs_mul, mul_comm, ← le_div_iff₀ (abs_pos.mpr hσ)] at this
    exact abs_le.mp this
  have hgc : Measurable fun z : Fin d → ℝ => g (pbcProposal L σ z x) := hg.comp hmv
  have step1 := pi_covers (n := d) (μ := volume.restrict (Set.Icc (-R) R)) (fun _ => gaussianReal 0 1) (fun _ => gaussian_covers R) _ hgc
  refine le_trans ?_ step1
  rw [← Measure.restrict_pi_pi]
  unfold share
  rw [mul_assoc]
  refine mul_le_mul_right ?_ _
  have hC := cell_measurable L hL
  have hind : Measurable fun y => {p | InCell L p}.indicator g y := hg.indicator hC
  have e1 : ENNReal.ofReal |(σ ^ d)⁻¹| * ∫⁻ y, g y ∂cell L = ∫⁻ z : Fin d → ℝ, {p | InCell L p}.indicator g (x' + σ • z) := by
    unfold cell
    rw [← lintegral_indicator hC, ← lintegral_add_left_eq_self _ x']
    have hm := Measure.map_addHaar_smul (volume : Measure (Fin d → ℝ)) hσ
    have hi2 : Measurable fun y => {p | InCell L p}.indicator g (x' + y) := hind.comp (measurable_const_add x')
    have := lintegral_map (μ := (volume : Measure (Fin d → ℝ))) hi2 (measurable_const_smul σ)
    rw [hm, lintegral_smul_measure, Module.finrank_fin_fun, smul_eq_mul] at this
    exact this
  rw [e1]
  calc ∫⁻ z : Fin d → ℝ, {p | InCell L p}.indicator g (x' + σ • z)
      = ∫⁻ z in Set.univ.pi fun _ => Set.Icc (-R) R, {p | InCell L p}.indicator g (x' + σ • z) := by
        rw [← lintegral_indicator (MeasurableSet.univ_pi fun _ => measurableSet_Icc)]
        refine lintegral_congr fun z => ?_
        by_cases hz : InCell L (x' + σ • z)
        · rw [Set.indicator_of_mem (hbox z hz)]
        · have : {p | InCell L p}.indicator g (x' + σ • z) = 0 := Set.indicator_of_notMem (s := {p | InCell L p}) hz _
          rw [this]
          by_cases h : z ∈ Set.univ.pi fun _ => Set.Icc (-R) R
          · rw [Set.indicator_of_mem h, this]
          · rw [Set.indicator_of_notMem h]
    _ ≤ ∫⁻ z in Set.univ.pi fun _ => Set.Icc (-R) R, g (pbcProposal L σ z x) := by
        refine lintegral_mono fun z => ?_
        show {p | InCell L p}.indicator g (x' + σ • z) ≤ g (pbcProposal L σ z x)
        by_cases hz : InCell L (x' + σ • z)
        · rw [Set.indicator_of_mem (by exact hz), hw, hfix _ hz]
        · have : {p | InCell L p}.indicator g (x' + σ • z) = 0 := Set.indicator_of_notMem (s := {p | InCell L p}) hz _
          rw [this]
          exact zero_le

theorem cells_cover (L : Matrix (Fin d) (Fin d) ℝ) (hL : IsUnit L.det) {σ : ℝ} (hσ : σ ≠ 0) {m : ℕ} (x : Fin m → Fin d → ℝ) (g : (Fin m → Fin d → ℝ) → ℝ≥0∞)
    (hg : Measurable g) :
    share L σ ^ m * ∫⁻ y, g y ∂(Measure.pi fun _ : Fin m => cell L) ≤
      ∫⁻ z, g (pbcMoveAll L σ z x) ∂(Measure.pi fun _ : Fin m => Measure.pi fun _ : Fin d => gaussianReal 0 1) := by
  have hmv : ∀ i, Measurable fun z : Fin d → ℝ => pbcProposal L σ z (x i) := by
    intro i
    unfold pbcProposal
    refine (wrap_measurable L).comp ?_
    fun_prop
  have hpr : ∀ i, IsProbabilityMeasure ((Measure.pi fun _ : Fin d => gaussianReal 0 1).map fun z => pbcProposal L σ z (x i)) := fun i =>
    Measure.isProbabilityMeasure_map (hmv i).aemeasurable
  have hfin : SigmaFinite (cell L) := by unfold cell; infer_instance
  have h := pi_covers (n := m) (μ := cell L) (c := share L σ) (fun i => (Measure.pi fun _ : Fin d => gaussianReal 0 1).map fun z => pbcProposal L σ z (x i)) (fun i g hg => by
    rw [lintegral_map hg (hmv i)]
    exact cell_covers L hL hσ (x i) g hg) g hg
  have mm : Measurable fun z : Fin m → Fin d → ℝ => fun i => pbcProposal L σ (z i) (x i) := measurable_pi_iff.mpr fun i => (hmv i).comp (measurable_pi_apply i)
  rw [← Measure.pi_map_pi (fun i => (hmv i).aemeasurable), lintegral_map hg mm] at h
  exact h

end Jaqmc.Geometry.Cell
