import Verif.Props.Geometry
import Verif.Spec.Average
import Mathlib.Algebra.Module.ZLattice.Basic
import Mathlib.MeasureTheory.Constructions.Pi
import Mathlib.MeasureTheory.Measure.Lebesgue.EqHaar
import Mathlib.MeasureTheory.Function.Floor
import Mathlib.LinearAlgebra.Matrix.NonsingularInverse
/-!
The home cell of a lattice, integrals over it, and moves of several particles at once (C136).
-/
namespace Jaqmc.Geometry.Cell
open MeasureTheory Jaqmc.Geometry Jaqmc.Geometry.Spec Jaqmc.Geometry.Props Matrix Jaqmc.Average.Spec
open scoped ENNReal Pointwise

variable {d : ℕ}

/-- The volume of the home cell. -/
noncomputable def cell (L : Matrix (Fin d) (Fin d) ℝ) : Measure (Fin d → ℝ) := volume.restrict {p | InCell L p}

theorem pmod_one (x : ℝ) : pmod x 1 = Int.fract x := by
  unfold pmod
  rw [div_one, one_mul]
  rfl

theorem wrap_measurable (L : Matrix (Fin d) (Fin d) ℝ) : Measurable (wrap L) := by
  refine measurable_pi_iff.mpr fun k => ?_
  unfold wrap
  simp only [vecMul, dotProduct, pmod_one]
  refine Finset.measurable_sum _ fun i _ => Measurable.mul_const ?_ _
  exact (Measurable.fract (Finset.measurable_sum _ fun j _ => (measurable_pi_apply j).mul_const _))

/-- The lattice vectors as a basis. -/
noncomputable def latticeBasis (L : Matrix (Fin d) (Fin d) ℝ) (h : IsUnit L.det) : Module.Basis (Fin d) ℝ (Fin d → ℝ) :=
  Module.Basis.mk (v := L.row) (Matrix.linearIndependent_rows_of_isUnit ((isUnit_iff_isUnit_det L).mpr h)) (by
    intro x _
    have : x = ∑ i, (x ᵥ* L⁻¹) i • L i := by
      have h1 : (x ᵥ* L⁻¹) ᵥ* L = x := by rw [vecMul_vecMul, nonsing_inv_mul _ h, vecMul_one]
      conv_lhs => rw [← h1]
      rw [vecMul_eq_sum]
    rw [this]
    exact Submodule.sum_mem _ fun i _ => Submodule.smul_mem _ _ (Submodule.subset_span ⟨i, rfl⟩))

theorem latticeBasis_apply (L : Matrix (Fin d) (Fin d) ℝ) (h : IsUnit L.det) (i : Fin d) : latticeBasis L h i = L i := by
  unfold latticeBasis
  rw [Module.Basis.mk_apply]
  rfl

theorem inCell_iff (L : Matrix (Fin d) (Fin d) ℝ) (h : IsUnit L.det) : {p | InCell L p} = ZSpan.fundamentalDomain (latticeBasis L h) := by
  ext p
  rw [ZSpan.mem_fundamentalDomain]
  constructor
  · rintro ⟨f, hf, hp⟩ i
    have : p = ∑ i, f i • latticeBasis L h i := by
      funext k
      rw [hp]
      simp [latticeBasis_apply, Finset.sum_apply]
    rw [this, (latticeBasis L h).repr_sum_self]
    exact hf i
  · intro hp
    refine ⟨fun i => (latticeBasis L h).repr p i, fun i => hp i, fun k => ?_⟩
    have := congrFun ((latticeBasis L h).sum_repr p) k
    rw [← this]
    simp [latticeBasis_apply, Finset.sum_apply]

theorem cell_measurable (L : Matrix (Fin d) (Fin d) ℝ) (h : IsUnit L.det) : MeasurableSet {p | InCell L p} := by
  rw [inCell_iff L h]
  exact ZSpan.fundamentalDomain_measurableSet _

/-- A shift does not change the integral of a periodic function over the cell. -/
theorem cell_shift (L : Matrix (Fin d) (Fin d) ℝ) (h : IsUnit L.det) (G : (Fin d → ℝ) → ℝ≥0∞)
    (hG : ∀ x (m : Fin d → ℤ), G (fun k => x k + translation L m k) = G x) (v : Fin d → ℝ) :
    ∫⁻ x, G (x + v) ∂cell L = ∫⁻ x, G x ∂cell L := by
  unfold cell
  rw [inCell_iff L h]
  have hd := ZSpan.isAddFundamentalDomain' (latticeBasis L h) (volume : Measure (Fin d → ℝ))
  have hc : Countable (Submodule.span ℤ (Set.range (latticeBasis L h))).toAddSubgroup :=
    inferInstanceAs (Countable (Submodule.span ℤ (Set.range (latticeBasis L h))))
  have hd2 := hd.vadd_of_comm v
  have hinv : ∀ (g : (Submodule.span ℤ (Set.range (latticeBasis L h))).toAddSubgroup) (x : Fin d → ℝ), G (g +ᵥ x) = G x := by
    rintro ⟨g, hg⟩ x
    obtain ⟨m, rfl⟩ := (Submodule.mem_span_range_iff_exists_fun ℤ).mp hg
    rw [← hG x m]
    congr 1
    funext k
    show (∑ i, m i • latticeBasis L h i) k + x k = _
    rw [add_comm]
    congr 1
    simp [translation, latticeBasis_apply, Finset.sum_apply]
  rw [hd.setLIntegral_eq hd2 G hinv]
  have := (measurePreserving_add_right (volume : Measure (Fin d → ℝ)) v).setLIntegral_comp_preimage_emb (measurableEmbedding_addRight v) G
    (v +ᵥ ZSpan.fundamentalDomain (latticeBasis L h))
  rw [← this]
  congr 2
  ext x
  rw [Set.mem_preimage, Set.mem_vadd_set]
  constructor
  · intro hx
    exact ⟨x, hx, add_comm _ _⟩
  · rintro ⟨y, hy, hxy⟩
    have : x = y := add_right_cancel (b := v) (by rw [← hxy, vadd_eq_add, add_comm])
    rwa [this]

theorem move_pi_measurable {V N : Type} [MeasurableSpace V] [MeasurableSpace N] {move : N → V → V} (hm : Measurable fun p : V × N => move p.2 p.1) (n : ℕ) :
    Measurable fun p : (Fin n → V) × (Fin n → N) => fun i => move (p.2 i) (p.1 i) := by
  refine measurable_pi_iff.mpr fun i => ?_
  have h : Measurable fun p : (Fin n → V) × (Fin n → N) => (p.1 i, p.2 i) := ((measurable_pi_apply i).comp measurable_fst).prodMk ((measurable_pi_apply i).comp measurable_snd)
  exact hm.comp h

/-- Moves that are as likely one way as the other can be made by all particles at once. -/
theorem reversible_pi {V N : Type} [MeasurableSpace V] [MeasurableSpace N] {μ : Measure V} {ν : Measure N} [SigmaFinite μ] [IsProbabilityMeasure ν] {move : N → V → V}
    (hm : Measurable fun p : V × N => move p.2 p.1) (h : Reversible μ ν move) (n : ℕ) :
    Reversible (Measure.pi fun _ : Fin n => μ) (Measure.pi fun _ : Fin n => ν) fun z x i => move (z i) (x i) := by
  have hk : (μ.prod ν).map (fun p => (p.1, move p.2 p.1)) = (μ.prod ν).map (fun p => (move p.2 p.1, p.1)) := by
    refine Measure.ext_of_lintegral _ fun f hf => ?_
    rw [lintegral_map hf (measurable_fst.prodMk hm), lintegral_map hf (hm.prodMk measurable_fst)]
    have m1 : Measurable fun p : V × N => f (p.1, move p.2 p.1) := hf.comp (measurable_fst.prodMk hm)
    have m2 : Measurable fun p : V × N => f (move p.2 p.1, p.1) := hf.comp (hm.prodMk measurable_fst)
    rw [lintegral_prod _ m1.aemeasurable, lintegral_prod _ m2.aemeasurable]
    exact h f hf
  have gen : ∀ (g : V × N → V × V), Measurable g → SigmaFinite ((μ.prod ν).map g) → ∀ f : (Fin n → V) × (Fin n → V) → ℝ≥0∞, Measurable f →
      ∫⁻ x, ∫⁻ z, f (fun i => (g (x i, z i)).1, fun i => (g (x i, z i)).2) ∂(Measure.pi fun _ : Fin n => ν) ∂(Measure.pi fun _ : Fin n => μ) =
        ∫⁻ w, f (fun i => (w i).1, fun i => (w i).2) ∂(Measure.pi fun _ : Fin n => (μ.prod ν).map g) := by
    intro g hg hσ f hf
    have mp := measurePreserving_arrowProdEquivProdArrow V N (Fin n) (fun _ => μ) (fun _ => ν)
    have mf : Measurable fun w : Fin n → V × V => f (fun i => (w i).1, fun i => (w i).2) := by
      refine hf.comp (Measurable.prodMk ?_ ?_) <;> fun_prop
    have mg : Measurable fun w : Fin n → V × N => fun i => g (w i) := measurable_pi_iff.mpr fun i => hg.comp (measurable_pi_apply i)
    rw [← Measure.pi_map_pi (fun _ => hg.aemeasurable), lintegral_map mf mg]
    have m3 : Measurable fun p : (Fin n → V) × (Fin n → N) => f (fun i => (g (p.1 i, p.2 i)).1, fun i => (g (p.1 i, p.2 i)).2) := by
      refine hf.comp (Measurable.prodMk ?_ ?_)
      · refine measurable_pi_iff.mpr fun i => measurable_fst.comp (hg.comp ?_)
        exact ((measurable_pi_apply i).comp measurable_fst).prodMk ((measurable_pi_apply i).comp measurable_snd)
      · refine measurable_pi_iff.mpr fun i => measurable_snd.comp (hg.comp ?_)
        exact ((measurable_pi_apply i).comp measurable_fst).prodMk ((measurable_pi_apply i).comp measurable_snd)
    rw [← lintegral_prod _ m3.aemeasurable, ← mp.lintegral_comp m3]
    rfl
  have hσ : SigmaFinite ((μ.prod ν).map (fun p => (p.1, move p.2 p.1))) := by
    refine SigmaFinite.of_map _ (f := Prod.fst) measurable_fst.aemeasurable ?_
    rw [Measure.map_map measurable_fst (measurable_fst.prodMk hm)]
    have : (Prod.fst ∘ fun p : V × N => (p.1, move p.2 p.1)) = Prod.fst := rfl
    rw [this, Measure.map_fst_prod, measure_univ, one_smul]
    infer_instance
  intro f hf
  have g1 := gen (fun p => (p.1, move p.2 p.1)) (measurable_fst.prodMk hm) hσ f hf
  have g2 := gen (fun p => (move p.2 p.1, p.1)) (hm.prodMk measurable_fst) (hk ▸ hσ) f hf
  rw [g1, g2]
  simp only [hk]

end Jaqmc.Geometry.Cell
