import Verif.Lemmas.CellCover
import Verif.Props.Geometry
import Verif.Model.Average
/-!
Where proposals can go: products, Gaussian steps, and steps wrapped into a cell.
-/
namespace Jaqmc.Average.Ergodic
open Jaqmc.Average Jaqmc.Geometry Jaqmc.Geometry.Spec
open MeasureTheory ProbabilityTheory
open scoped ENNReal NNReal

/-- Independent moves cover what each of them covers. -/
theorem pi_covers_by {X : Type} [MeasurableSpace X] {μ : Measure X} [SigmaFinite μ] {n : ℕ} (k : Fin n → X → ℝ≥0∞) (hk : ∀ i, Measurable (k i)) (κ : Fin n → Measure X)
    [∀ i, SigmaFinite (κ i)] (h : ∀ i, ∀ g : X → ℝ≥0∞, Measurable g → ∫⁻ x, k i x * g x ∂μ ≤ ∫⁻ x, g x ∂κ i) (g : (Fin n → X) → ℝ≥0∞) (hg : Measurable g) :
    ∫⁻ x, (∏ i, k i (x i)) * g x ∂(Measure.pi fun _ : Fin n => μ) ≤ ∫⁻ x, g x ∂(Measure.pi κ) := by
  induction n with
  | zero =>
    rw [Measure.pi_of_empty, Measure.pi_of_empty]
    simp
  | succ n ih =>
    have e1 := (measurePreserving_piFinSuccAbove κ 0).symm
    have e2 := (measurePreserving_piFinSuccAbove (fun _ : Fin (n + 1) => μ) 0).symm
    have hs := (MeasurableEquiv.piFinSuccAbove (fun _ : Fin (n + 1) => X) 0).symm.measurable
    have hg' : Measurable fun p : X × (Fin n → X) => g ((MeasurableEquiv.piFinSuccAbove (fun _ : Fin (n + 1) => X) 0).symm p) := hg.comp hs
    have hp : Measurable fun x : Fin n → X => ∏ i, k (Fin.succ i) (x i) := Finset.measurable_prod _ fun i _ => (hk _).comp (measurable_pi_apply i)
    have hp2 : Measurable fun x : Fin (n + 1) → X => ∏ i, k i (x i) := Finset.measurable_prod _ fun i _ => (hk _).comp (measurable_pi_apply i)
    have hpg : Measurable fun x : Fin (n + 1) → X => (∏ i, k i (x i)) * g x := hp2.mul hg
    have hpg' : Measurable fun p : X × (Fin n → X) => (∏ i, k (Fin.succ i) (p.2 i)) * g ((MeasurableEquiv.piFinSuccAbove (fun _ : Fin (n + 1) => X) 0).symm p) :=
      (hp.comp measurable_snd).mul hg'
    have hps : Measurable fun p : X × (Fin n → X) => (∏ i, k i ((MeasurableEquiv.piFinSuccAbove (fun _ : Fin (n + 1) => X) 0).symm p i)) *
        g ((MeasurableEquiv.piFinSuccAbove (fun _ : Fin (n + 1) => X) 0).symm p) := hpg.comp hs
    rw [← e1.lintegral_comp hg, ← e2.lintegral_comp hpg, lintegral_prod _ hg'.aemeasurable, lintegral_prod _ hps.aemeasurable]
    have m1 : Measurable fun x => ∫⁻ y, (∏ i, k (Fin.succ i) (y i)) * g ((MeasurableEquiv.piFinSuccAbove (fun _ : Fin (n + 1) => X) 0).symm (x, y)) ∂(Measure.pi fun _ : Fin n => μ) :=
      hpg'.lintegral_prod_right'
    refine le_trans (le_of_eq ?_) ((h 0 _ m1).trans ?_)
    · refine lintegral_congr fun x => ?_
      have m2 : Measurable fun y : Fin n → X => (∏ i, k (Fin.succ i) (y i)) * g ((MeasurableEquiv.piFinSuccAbove (fun _ : Fin (n + 1) => X) 0).symm (x, y)) :=
        hpg'.comp measurable_prodMk_left
      rw [← lintegral_const_mul _ m2]
      refine lintegral_congr fun y => ?_
      show (∏ i, k i ((MeasurableEquiv.piFinSuccAbove (fun _ : Fin (n + 1) => X) 0).symm (x, y) i)) * _ = _
      rw [Fin.prod_univ_succ, mul_assoc]
      rfl
    · refine lintegral_mono fun x => ?_
      exact ih (fun i => k (Fin.succ i)) (fun i => hk _) (fun i => κ (Fin.succAbove 0 i)) (fun i => h _)
        (fun y => g ((MeasurableEquiv.piFinSuccAbove (fun _ : Fin (n + 1) => X) 0).symm (x, y))) (hg'.comp measurable_prodMk_left)

/-- Independent moves avoid what each of them avoids. -/
theorem pi_ac {X : Type} [MeasurableSpace X] {μ : Measure X} [SigmaFinite μ] {n : ℕ} (κ : Fin n → Measure X) [∀ i, SigmaFinite (κ i)] (h : ∀ i, κ i ≪ μ) :
    Measure.pi κ ≪ Measure.pi fun _ : Fin n => μ := by
  induction n with
  | zero =>
    rw [Measure.pi_of_empty, Measure.pi_of_empty]
  | succ n ih =>
    have e1 := (measurePreserving_piFinSuccAbove κ 0).symm
    have e2 := (measurePreserving_piFinSuccAbove (fun _ : Fin (n + 1) => μ) 0).symm
    rw [← e1.map_eq, ← e2.map_eq]
    refine Measure.AbsolutelyContinuous.map ?_ e1.measurable
    exact (h 0).prod (ih (fun i => κ (Fin.succAbove 0 i)) fun i => h _)

/-- The variance of a step of width `σ`. -/
def var (σ : ℝ) : ℝ≥0 := Real.toNNReal (σ ^ 2)

theorem var_ne {σ : ℝ} (hσ : σ ≠ 0) : var σ ≠ 0 := by
  unfold var
  exact (Real.toNNReal_pos.mpr (by positivity)).ne'

theorem coordinate_law (σ a : ℝ) : (gaussianReal 0 1).map (fun z => a + z * σ) = gaussianReal a (var σ) := by
  have h1 := gaussianReal_map_mul_const (μ := 0) (v := 1) σ
  have h2 := gaussianReal_map_const_add (μ := σ * 0) (v := var σ) a
  have : (gaussianReal 0 1).map (fun z => a + z * σ) = ((gaussianReal 0 1).map (fun z => z * σ)).map (fun z => a + z) := by
    rw [Measure.map_map (by fun_prop) (by fun_prop)]
    rfl
  have hv : NNReal.mk (σ ^ 2) (sq_nonneg σ) * 1 = var σ := by
    rw [mul_one]
    exact (Real.toNNReal_of_nonneg (sq_nonneg σ)).symm
  rw [this, h1, hv, h2, mul_zero, zero_add]

/-- The density of a Gaussian step from `p.1` to `p.2`. -/
noncomputable def density {m : ℕ} (σ : ℝ) (p : (Fin m → ℝ) × (Fin m → ℝ)) : ℝ≥0∞ := ∏ i, gaussianPDF (p.1 i) (var σ) (p.2 i)

theorem density_measurable {m : ℕ} (σ : ℝ) : Measurable (density (m := m) σ) := by
  unfold density gaussianPDF gaussianPDFReal
  refine Finset.measurable_prod _ fun i _ => Measurable.ennreal_ofReal ?_
  fun_prop

theorem density_pos {m : ℕ} {σ : ℝ} (hσ : σ ≠ 0) (p : (Fin m → ℝ) × (Fin m → ℝ)) : density σ p ≠ 0 :=
  Finset.prod_ne_zero_iff.mpr fun i _ => (gaussianPDF_pos _ (var_ne hσ) _).ne'

theorem gaussian_law {m : ℕ} (σ : ℝ) (x : Fin m → ℝ) :
    (Measure.pi fun _ : Fin m => gaussianReal 0 1).map (fun z => gaussianMove σ z x) = Measure.pi fun i => gaussianReal (x i) (var σ) := by
  have hmv : ∀ i, Measurable fun z : ℝ => x i + z * σ := fun i => by fun_prop
  have hpr : ∀ i, IsProbabilityMeasure ((gaussianReal 0 1).map fun z => x i + z * σ) := fun i => Measure.isProbabilityMeasure_map (hmv i).aemeasurable
  have := Measure.pi_map_pi (μ := fun _ : Fin m => gaussianReal 0 1) (f := fun i z => x i + z * σ) (fun i => (hmv i).aemeasurable)
  simp_rw [coordinate_law] at this
  exact this

theorem gaussian_ac {m : ℕ} {σ : ℝ} (hσ : σ ≠ 0) (x : Fin m → ℝ) :
    (Measure.pi fun _ : Fin m => gaussianReal 0 1).map (fun z => gaussianMove σ z x) ≪ volume := by
  rw [gaussian_law]
  exact pi_ac (μ := volume) (fun i => gaussianReal (x i) (var σ)) fun i => gaussianReal_absolutelyContinuous _ (var_ne hσ)

theorem gaussian_density {m : ℕ} {σ : ℝ} (hσ : σ ≠ 0) (x : Fin m → ℝ) (f : (Fin m → ℝ) → ℝ≥0∞) (hf : Measurable f) :
    ∫⁻ y, density σ (x, y) * f y ≤ ∫⁻ z, f (gaussianMove σ z x) ∂(Measure.pi fun _ : Fin m => gaussianReal 0 1) := by
  have hmv : Measurable fun z : Fin m → ℝ => gaussianMove σ z x := by unfold gaussianMove; fun_prop
  rw [← lintegral_map hf hmv, gaussian_law]
  refine pi_covers_by (μ := volume) (fun i y => gaussianPDF (x i) (var σ) y) (fun i => measurable_gaussianPDF _ _) _ (fun i g hg => ?_) f hf
  rw [gaussianReal_of_var_ne_zero _ (var_ne hσ), lintegral_withDensity_eq_lintegral_mul _ (measurable_gaussianPDF _ _) hg]
  rfl

/-- A wrapped step of one electron avoids what has no volume in the cell. -/
theorem wrapped_ac {c : ℕ} (L : Matrix (Fin c) (Fin c) ℝ) (hL : IsUnit L.det) {σ : ℝ} (hσ : σ ≠ 0) (x : Fin c → ℝ) :
    (Measure.pi fun _ : Fin c => gaussianReal 0 1).map (fun z => pbcProposal L σ z x) ≪ Geometry.Cell.cell L := by
  have hmv : Measurable fun z : Fin c → ℝ => gaussianMove σ z x := by unfold gaussianMove; fun_prop
  have e : (fun z : Fin c → ℝ => pbcProposal L σ z x) = wrap L ∘ fun z => gaussianMove σ z x := rfl
  rw [e, ← Measure.map_map (Geometry.Cell.wrap_measurable L) hmv]
  refine Measure.AbsolutelyContinuous.trans ((gaussian_ac hσ x).map (Geometry.Cell.wrap_measurable L)) ?_
  refine Measure.AbsolutelyContinuous.mk fun s hs h0 => ?_
  rw [Measure.map_apply (Geometry.Cell.wrap_measurable L) hs]
  have hC := Geometry.Cell.cell_measurable L hL
  have h1 : (volume : Measure (Fin c → ℝ)) (s ∩ {p | InCell L p}) = 0 := by
    unfold Geometry.Cell.cell at h0
    rwa [Measure.restrict_apply hs] at h0
  have hsub : wrap L ⁻¹' s ⊆ ⋃ q : Fin c → ℤ, (fun p : Fin c → ℝ => p + translation L q) ⁻¹' (s ∩ {p | InCell L p}) := by
    intro p hp
    obtain ⟨hin, ⟨q, hq⟩, _⟩ := Geometry.Props.c30_wrap L hL p
    rw [Set.mem_iUnion]
    refine ⟨q, ?_⟩
    have : p + translation L q = wrap L p := by
      funext j
      exact (hq j).symm
    show p + translation L q ∈ s ∩ {p | InCell L p}
    rw [this]
    exact ⟨hp, hin⟩
  refine measure_mono_null hsub (measure_iUnion_null fun q => ?_)
  rw [(measurePreserving_add_right (volume : Measure (Fin c → ℝ)) (translation L q)).measure_preimage (hs.inter hC).nullMeasurableSet]
  exact h1

theorem cells_ac {m c : ℕ} (L : Matrix (Fin c) (Fin c) ℝ) (hL : IsUnit L.det) {σ : ℝ} (hσ : σ ≠ 0) (x : Fin m → Fin c → ℝ) :
    (Measure.pi fun _ : Fin m => Measure.pi fun _ : Fin c => gaussianReal 0 1).map (fun z => pbcMoveAll L σ z x) ≪ Measure.pi fun _ : Fin m => Geometry.Cell.cell L := by
  have hmv : ∀ i, Measurable fun z : Fin c → ℝ => pbcProposal L σ z (x i) := by
    intro i
    unfold pbcProposal
    refine (Geometry.Cell.wrap_measurable L).comp ?_
    fun_prop
  have hpr : ∀ i, IsProbabilityMeasure ((Measure.pi fun _ : Fin c => gaussianReal 0 1).map fun z => pbcProposal L σ z (x i)) := fun i =>
    Measure.isProbabilityMeasure_map (hmv i).aemeasurable
  have hfin : SigmaFinite (Geometry.Cell.cell L) := by unfold Geometry.Cell.cell; infer_instance
  have := Measure.pi_map_pi (μ := fun _ : Fin m => Measure.pi fun _ : Fin c => gaussianReal 0 1) (f := fun i z => pbcProposal L σ z (x i)) (fun i => (hmv i).aemeasurable)
  have e : (fun z : Fin m → Fin c → ℝ => pbcMoveAll L σ z x) = fun z i => pbcProposal L σ (z i) (x i) := rfl
  rw [e]
  rw [this]
  exact pi_ac _ fun i => wrapped_ac L hL hσ (x i)

end Jaqmc.Average.Ergodic
