import Verif.Spec.TrainLoss
import Verif.Model.TrainLoss
import Verif.Lemmas.Descent
import Verif.Lemmas.Variance
/-!
Lemmas for C144: the loss of a batch.
-/
namespace Jaqmc.Average.TrainLoss
open MeasureTheory ProbabilityTheory Jaqmc.Average Jaqmc.Average.Spec Jaqmc.Average.Props Jaqmc.Average.Descent Jaqmc.LossGrad Jaqmc.LossGrad.Spec

set_option linter.unusedSectionVars false

variable {V Θ : Type} [MeasurableSpace V] [MeasurableSpace Θ] {μ : Measure V} {n d : ℕ}

theorem clip_ok {method : String} (hm : method = "iqr" ∨ method = "mad" ∨ method = "none") (scale : ℝ) (shards : List (List (Option ℂ))) :
    ∃ c, clipComplex method scale shards = .ok c := by
  unfold clipComplex clipReal
  rcases hm with rfl | rfl | rfl
  · exact ⟨_, rfl⟩
  · exact ⟨_, rfl⟩
  · exact ⟨_, rfl⟩

/-- The loss is the plain mean of the local energies, whatever the clipping. -/
theorem loss_value {method : String} (hm : method = "iqr" ∨ method = "mad" ∨ method = "none") (hd : 0 < d) (hn : 0 < n) (scale : ℝ) (g e : V → ℂ) (x : Fin d → Sampler.Batch Unit n V) :
    ∃ G, stepGradient method scale g e x = .ok (some (lossOf e fun w : Fin d × Fin n => x w.1 () w.2), G) := by
  rw [stepGradient_eq]
  have h := LossGrad.Props.batch_value hd hn scale g e fun w : Fin d × Fin n => x w.1 () w.2
  unfold lossAndGrad reduceSteps reduce at h ⊢
  obtain ⟨c, hc⟩ := clip_ok hm scale ((LossGrad.Spec.walkers (LossGrad.Props.batch g e fun w : Fin d × Fin n => x w.1 () w.2)).map (List.map Walker.loss))
  obtain ⟨c', hc'⟩ := clip_ok (Or.inr (Or.inr rfl) : "none" = "iqr" ∨ "none" = "mad" ∨ "none" = "none") scale
    ((LossGrad.Spec.walkers (LossGrad.Props.batch g e fun w : Fin d × Fin n => x w.1 () w.2)).map (List.map Walker.loss))
  rw [hc] 
  rw [hc'] at h
  simp only [reduceSteps, finalize, List.map_cons, List.map_nil, Except.ok.injEq, Prod.mk.injEq] at h ⊢
  exact ⟨_, h.1, rfl⟩

variable {H : L2C μ →ₗ.[ℂ] L2C μ} {ψ : Θ → H.domain} {Ψ : Θ → V → ℂ} {e : Θ → V → ℂ} {E K : ℝ}

theorem loss_measurable (L : LocalEnergies H ψ Ψ e E) : Measurable fun q : Θ × (Fin d × Fin n → V) => lossOf (e q.1) q.2 := by
  unfold lossOf
  refine (Finset.measurable_sum _ fun i _ => ?_).div_const _
  exact L.measurable.comp (measurable_fst.prodMk ((measurable_pi_apply i).comp measurable_snd))

theorem loss_bound (L : LocalEnergies H ψ Ψ e E) (hd : 0 < d) (hn : 0 < n) (τ : Θ) (x : Fin d × Fin n → V) : ‖lossOf (e τ) x‖ ≤ E := by
  have b := mean_bound (fun i => e τ (x i)) fun i => L.bounded τ (x i)
  have hM0 : (0 : ℝ) < ((d * n : ℕ) : ℝ) := by positivity
  have hcard : (Fintype.card (Fin d × Fin n) : ℝ) = ((d * n : ℕ) : ℝ) := by simp
  rw [hcard] at b
  unfold lossOf
  rw [norm_div, Complex.norm_natCast, div_le_iff₀ hM0]
  linarith

theorem energy_mean (L : LocalEnergies H ψ Ψ e E) (hs : Symmetric H) (τ : Θ) : Integrable (e τ) (walkerLaw μ (Ψ τ)) ∧ ∫ x, e τ x ∂walkerLaw μ (Ψ τ) = (energy H (ψ τ) : ℂ) := by
  have := local_mean hs (ψ τ) (L.ne τ) (L.energies τ)
  rw [law_congr (L.values τ)] at this
  exact this

theorem energy_bound [SFinite μ] (L : LocalEnergies H ψ Ψ e E) (hs : Symmetric H) (B : Spread μ Ψ K) (τ : Θ) : |energy H (ψ τ)| ≤ E := by
  have := spread_prob B τ
  have h := norm_integral_le_of_norm_le_const (μ := walkerLaw μ (Ψ τ)) (Filter.Eventually.of_forall fun x => L.bounded τ x)
  rw [(energy_mean L hs τ).2, Complex.norm_real] at h
  simpa using h

theorem energy_measurable [SFinite μ] (L : LocalEnergies H ψ Ψ e E) (hs : Symmetric H) (B : Spread μ Ψ K) : Measurable fun τ => energy H (ψ τ) := by
  have h := sample_measurable (ι := Unit) (Q := fun τ => walkerLaw μ (Ψ τ)) (spread_prob B) (fun s hs => spread_law B hs) (φ := fun q => (e q.1 (q.2 ())).re)
    (Complex.measurable_re.comp (L.measurable.comp (measurable_fst.prodMk ((measurable_pi_apply ()).comp measurable_snd))))
  have e1 : (fun τ => energy H (ψ τ)) = fun τ => ∫ y, (e τ (y ())).re ∂(Measure.pi fun _ : Unit => walkerLaw μ (Ψ τ)) := by
    funext τ
    have := spread_prob B τ
    obtain ⟨i, h⟩ := energy_mean L hs τ
    have hp := measurePreserving_eval (fun _ : Unit => walkerLaw μ (Ψ τ)) ()
    have hm : AEStronglyMeasurable (fun x => (e τ x).re) (walkerLaw μ (Ψ τ)) := i.re.aestronglyMeasurable
    have h1 : ∫ y, (e τ (y ())).re ∂(Measure.pi fun _ : Unit => walkerLaw μ (Ψ τ)) = ∫ x, (e τ x).re ∂walkerLaw μ (Ψ τ) := by
      have := integral_map (μ := Measure.pi fun _ : Unit => walkerLaw μ (Ψ τ)) (φ := fun y : Unit → V => y ()) hp.measurable.aemeasurable (f := fun x => (e τ x).re) (by rw [hp.map_eq]; exact hm)
      rw [hp.map_eq] at this
      exact this.symm
    have h2 : ∫ x, (e τ x).re ∂walkerLaw μ (Ψ τ) = (∫ x, e τ x ∂walkerLaw μ (Ψ τ)).re := integral_re (𝕜 := ℂ) i
    rw [h1, h2, h, Complex.ofReal_re]
  rw [e1]
  exact h

/-! ### An independent sample -/

variable {ρ : Measure V} [IsProbabilityMeasure ρ] {ι : Type} [Fintype ι]

theorem sample_var [Nonempty ι] {f : V → ℝ} (hf : MemLp f 2 ρ) : Var[fun x : ι → V => (∑ i, f (x i)) / Fintype.card ι; Measure.pi fun _ => ρ] = Var[f; ρ] / Fintype.card ι := by
  obtain ⟨Q, hQ⟩ : ∃ Q : Measure (ι → V), Q = Measure.pi fun _ => ρ := ⟨_, rfl⟩
  have pQ : IsProbabilityMeasure Q := by rw [hQ]; infer_instance
  have hp : ∀ i : ι, MeasurePreserving (fun x : ι → V => x i) Q ρ := fun i => by rw [hQ]; exact measurePreserving_eval (fun _ : ι => ρ) i
  have hI : iIndepFun (fun (i : ι) (x : ι → V) => f (x i)) Q := by
    rw [hQ]
    exact iIndepFun_pi (X := fun _ => f) fun i => hf.aestronglyMeasurable.aemeasurable
  have h1 : ∀ i : ι, MemLp (fun x : ι → V => f (x i)) 2 Q := fun i => hf.comp_measurePreserving (hp i)
  have h2 : ∀ i : ι, Var[fun x : ι → V => f (x i); Q] = Var[f; ρ] := fun i => (hp i).variance_fun_comp hf.aestronglyMeasurable.aemeasurable
  have h3 : ∀ i j : ι, i ≠ j → IndepFun (fun x : ι → V => f (x i)) (fun x : ι → V => f (x j)) Q := fun i j hij => hI.indepFun hij
  rw [← hQ]
  exact Variance.mean_var h1 h2 h3

theorem sample_mean [Nonempty ι] {f : V → ℝ} (hf : Integrable f ρ) : ∫ x : ι → V, (∑ i, f (x i)) / Fintype.card ι ∂(Measure.pi fun _ => ρ) = ∫ y, f y ∂ρ := by
  obtain ⟨Q, hQ⟩ : ∃ Q : Measure (ι → V), Q = Measure.pi fun _ => ρ := ⟨_, rfl⟩
  have hp : ∀ i : ι, MeasurePreserving (fun x : ι → V => x i) Q ρ := fun i => by rw [hQ]; exact measurePreserving_eval (fun _ : ι => ρ) i
  have h1 : ∀ i : ι, Integrable (fun x : ι → V => f (x i)) Q := fun i => (hp i).integrable_comp_of_integrable hf
  have h2 : ∀ i : ι, ∫ x : ι → V, f (x i) ∂Q = ∫ y, f y ∂ρ := fun i => by
    have := integral_map (μ := Q) (hp i).measurable.aemeasurable (f := f) (by rw [(hp i).map_eq]; exact hf.aestronglyMeasurable)
    rw [← this, (hp i).map_eq]
  have hc : (Fintype.card ι : ℝ) ≠ 0 := by exact_mod_cast Fintype.card_ne_zero
  rw [← hQ, integral_div, integral_finsetSum _ fun i _ => h1 i, Finset.sum_congr rfl fun i _ => h2 i]
  simp only [Finset.sum_const, Finset.card_univ, nsmul_eq_mul]
  field_simp

/-- The mean of an independent sample is off by at most the bound over the square root of the number. -/
theorem sample_square [Nonempty ι] {f : V → ℂ} (hf : Measurable f) {E : ℝ} (hE : ∀ x, ‖f x‖ ≤ E) :
    ∫ x : ι → V, ‖(∑ i, f (x i)) / (Fintype.card ι : ℂ) - ∫ y, f y ∂ρ‖ ^ 2 ∂(Measure.pi fun _ => ρ) ≤ E ^ 2 / Fintype.card ι := by
  have hc : (0 : ℝ) < Fintype.card ι := by exact_mod_cast Fintype.card_pos
  have bre : ∀ x, |(f x).re| ≤ E := fun x => (Complex.abs_re_le_norm _).trans (hE x)
  have bim : ∀ x, |(f x).im| ≤ E := fun x => (Complex.abs_im_le_norm _).trans (hE x)
  have mre : Measurable fun x => (f x).re := Complex.measurable_re.comp hf
  have mim : Measurable fun x => (f x).im := Complex.measurable_im.comp hf
  have lre : MemLp (fun x => (f x).re) 2 ρ := MemLp.of_bound mre.aestronglyMeasurable E (Filter.Eventually.of_forall bre)
  have lim : MemLp (fun x => (f x).im) 2 ρ := MemLp.of_bound mim.aestronglyMeasurable E (Filter.Eventually.of_forall bim)
  have hi : Integrable f ρ := Integrable.of_bound hf.aestronglyMeasurable E (Filter.Eventually.of_forall hE)
  have ire : Integrable (fun x => (f x).re) ρ := bounded_int ρ mre bre
  have iim : Integrable (fun x => (f x).im) ρ := bounded_int ρ mim bim
  have r1 : (∫ y, f y ∂ρ).re = ∫ y, (f y).re ∂ρ := (integral_re (𝕜 := ℂ) hi).symm
  have r2 : (∫ y, f y ∂ρ).im = ∫ y, (f y).im ∂ρ := (integral_im (𝕜 := ℂ) hi).symm
  have v1 := sample_var (ι := ι) lre
  have v2 := sample_var (ι := ι) lim
  obtain ⟨Q, hQ⟩ : ∃ Q : Measure (ι → V), Q = Measure.pi fun _ => ρ := ⟨_, rfl⟩
  have pQ : IsProbabilityMeasure Q := by rw [hQ]; infer_instance
  have m1 := sample_mean (ι := ι) ire
  have m2 := sample_mean (ι := ι) iim
  rw [← hQ] at v1 v2 m1 m2 ⊢
  have mX : ∀ g : V → ℝ, Measurable g → Measurable fun x : ι → V => (∑ i, g (x i)) / (Fintype.card ι : ℝ) := fun g hg =>
    (Finset.measurable_sum _ fun i _ => hg.comp (measurable_pi_apply i)).div_const _
  have bX : ∀ g : V → ℝ, (∀ x, |g x| ≤ E) → ∀ x : ι → V, |(∑ i, g (x i)) / (Fintype.card ι : ℝ)| ≤ E := fun g hg x => by
    rw [abs_div, abs_of_pos hc, div_le_iff₀ hc]
    refine (Finset.abs_sum_le_sum_abs _ _).trans ((Finset.sum_le_sum fun i _ => hg _).trans ?_)
    simp [mul_comm]
  rw [variance_eq_integral (mX _ mre).aemeasurable, m1] at v1
  rw [variance_eq_integral (mX _ mim).aemeasurable, m2] at v2
  have e1 : ∀ x : ι → V, ‖(∑ i, f (x i)) / (Fintype.card ι : ℂ) - ∫ y, f y ∂ρ‖ ^ 2 =
      ((∑ i, (f (x i)).re) / Fintype.card ι - ∫ y, (f y).re ∂ρ) ^ 2 + ((∑ i, (f (x i)).im) / Fintype.card ι - ∫ y, (f y).im ∂ρ) ^ 2 := by
    intro x
    rw [← Complex.normSq_eq_norm_sq, Complex.normSq_apply, Complex.sub_re, Complex.sub_im, Complex.div_natCast_re, Complex.div_natCast_im, Complex.re_sum, Complex.im_sum, r1, r2]
    ring
  have q1 : ∀ g : V → ℝ, Measurable g → (∀ x, |g x| ≤ E) → ∀ c : ℝ, Integrable (fun x : ι → V => ((∑ i, g (x i)) / (Fintype.card ι : ℝ) - c) ^ 2) Q := fun g hg hb c =>
    bounded_int Q (((mX g hg).sub_const c).pow_const 2) (C := (E + |c|) ^ 2) fun x => by
      rw [abs_pow]
      exact pow_le_pow_left₀ (abs_nonneg _) ((abs_sub _ _).trans (add_le_add (bX g hb x) le_rfl)) 2
  simp only [e1]
  rw [integral_add (q1 _ mre bre _) (q1 _ mim bim _), v1, v2, ← add_div]
  refine div_le_div_of_nonneg_right ?_ hc.le
  have w1 : Var[fun x => (f x).re; ρ] ≤ ∫ x, (f x).re ^ 2 ∂ρ := variance_le_expectation_sq mre.aestronglyMeasurable
  have w2 : Var[fun x => (f x).im; ρ] ≤ ∫ x, (f x).im ^ 2 ∂ρ := variance_le_expectation_sq mim.aestronglyMeasurable
  have w3 : ∫ x, (f x).re ^ 2 ∂ρ + ∫ x, (f x).im ^ 2 ∂ρ = ∫ x, ‖f x‖ ^ 2 ∂ρ := by
    have i1 : Integrable (fun x => (f x).re ^ 2) ρ := lre.integrable_sq
    have i2 : Integrable (fun x => (f x).im ^ 2) ρ := lim.integrable_sq
    rw [← integral_add i1 i2]
    refine integral_congr_ae (Filter.Eventually.of_forall fun x => ?_)
    simp only
    rw [← Complex.normSq_eq_norm_sq, Complex.normSq_apply]
    ring
  have w4 : ∫ x, ‖f x‖ ^ 2 ∂ρ ≤ E ^ 2 := by
    have := integral_mono (μ := ρ) (f := fun x => ‖f x‖ ^ 2) (g := fun _ => E ^ 2) (bounded_int ρ (hf.norm.pow_const 2) (C := E ^ 2) fun x => by
      rw [abs_pow, abs_norm]
      exact pow_le_pow_left₀ (norm_nonneg _) (hE x) 2) (integrable_const _) fun x => pow_le_pow_left₀ (norm_nonneg _) (hE x) 2
    simpa using this
  linarith

end Jaqmc.Average.TrainLoss
