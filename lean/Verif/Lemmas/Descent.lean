import Verif.Model.Descent
import Verif.Spec.Descent
import Verif.Props.Training
/-!
Lemmas for C143: the gradient of a batch as a function of the parameters.
-/
namespace Jaqmc.Average.Descent
open MeasureTheory ProbabilityTheory Jaqmc.Average Jaqmc.Average.Spec Jaqmc.Average.Props Jaqmc.LossGrad.Spec
open scoped ComplexConjugate

set_option linter.unusedSectionVars false

variable {V : Type} [MeasurableSpace V] {μ : Measure V} {p : ℕ}

/-- What a sample from a law that depends on parameters gives on average depends measurably on them. -/
theorem sample_measurable {Θ ι : Type} [MeasurableSpace Θ] [Fintype ι] {Q : Θ → Measure V} (hQ : ∀ h, IsProbabilityMeasure (Q h)) (mQ : ∀ s, MeasurableSet s → Measurable fun h => Q h s)
    {φ : Θ × (ι → V) → ℝ} (hφ : Measurable φ) : Measurable fun h => ∫ y, φ (h, y) ∂(Measure.pi fun _ : ι => Q h) := by
  have mpi : Measurable fun h => Measure.pi fun _ : ι => Q h := by
    refine Measurable.measure_of_isPiSystem_of_isProbabilityMeasure (S := Set.pi Set.univ '' Set.pi Set.univ fun _ : ι => {s : Set V | MeasurableSet s}) generateFrom_pi.symm isPiSystem_pi ?_
    rintro _ ⟨s, hs, rfl⟩
    simp only [Measure.pi_pi]
    exact Finset.measurable_prod _ fun i _ => mQ (s i) (hs i (Set.mem_univ i))
  set K : Kernel Θ (ι → V) := ⟨fun h => Measure.pi fun _ : ι => Q h, mpi⟩ with hK
  have hKp : IsMarkovKernel K := ⟨fun h => by show IsProbabilityMeasure (Measure.pi fun _ : ι => Q h); infer_instance⟩
  exact (hφ.stronglyMeasurable.integral_kernel_prod_right' (κ := K)).measurable

variable {H : L2C μ →ₗ.[ℂ] L2C μ} {ψ : (Fin p → ℝ) → H.domain} {Ψ : (Fin p → ℝ) → V → ℂ} {g : (Fin p → ℝ) → Fin p → V → ℂ} {e : (Fin p → ℝ) → V → ℂ} {G E Λ : ℝ}
  {n d : ℕ}

theorem grad_measurable (L : Landscape H ψ Ψ g e G E Λ) (k : Fin p) : Measurable fun q : (Fin p → ℝ) × (Fin d × Fin n → V) => gradOf (g q.1 k) (e q.1) q.2 := by
  have h1 : ∀ i, Measurable fun q : (Fin p → ℝ) × (Fin d × Fin n → V) => g q.1 k (q.2 i) := fun i =>
    (L.measurable_log k).comp (measurable_fst.prodMk ((measurable_pi_apply i).comp measurable_snd))
  have h2 : ∀ i, Measurable fun q : (Fin p → ℝ) × (Fin d × Fin n → V) => e q.1 (q.2 i) := fun i =>
    L.measurable_energy.comp (measurable_fst.prodMk ((measurable_pi_apply i).comp measurable_snd))
  have s1 : Measurable fun q : (Fin p → ℝ) × (Fin d × Fin n → V) => ∑ i, conj (g q.1 k (q.2 i)) * e q.1 (q.2 i) :=
    Finset.measurable_sum _ fun i _ => (Complex.continuous_conj.measurable.comp (h1 i)).mul (h2 i)
  have s2 : Measurable fun q : (Fin p → ℝ) × (Fin d × Fin n → V) => ∑ i, e q.1 (q.2 i) := Finset.measurable_sum _ fun i _ => h2 i
  have s3 : Measurable fun q : (Fin p → ℝ) × (Fin d × Fin n → V) => ∑ i, g q.1 k (q.2 i) := Finset.measurable_sum _ fun i _ => h1 i
  unfold gradOf
  exact (Complex.measurable_re.comp ((s1.div_const _).sub ((s2.mul s3).div_const _))).const_mul 2

theorem mean_bound {ι : Type} [Fintype ι] (f : ι → ℂ) {C : ℝ} (hf : ∀ i, ‖f i‖ ≤ C) : ‖∑ i, f i‖ ≤ Fintype.card ι * C := by
  refine (norm_sum_le _ _).trans ((Finset.sum_le_sum fun i _ => hf i).trans ?_)
  simp

theorem grad_bound (L : Landscape H ψ Ψ g e G E Λ) (hd : 0 < d) (hn : 0 < n) (k : Fin p) (θ : Fin p → ℝ) (x : Fin d × Fin n → V) :
    |gradOf (g θ k) (e θ) x| ≤ 4 * G * E := by
  have x₀ := x (⟨0, hd⟩, ⟨0, hn⟩)
  have hG : 0 ≤ G := (norm_nonneg _).trans (L.bound_log θ k x₀)
  have hE : 0 ≤ E := (norm_nonneg _).trans (L.bound_energy θ x₀)
  set M : ℝ := ((d * n : ℕ) : ℝ) with hM
  have hM0 : 0 < M := by rw [hM]; positivity
  have hcard : (Fintype.card (Fin d × Fin n) : ℝ) = M := by simp [hM]
  have hMn : ‖((d * n : ℕ) : ℂ)‖ = M := by rw [Complex.norm_natCast]
  have b1 := mean_bound (fun i => conj (g θ k (x i)) * e θ (x i)) (C := G * E) fun i => by
    rw [norm_mul, RCLike.norm_conj]
    exact mul_le_mul (L.bound_log _ _ _) (L.bound_energy _ _) (norm_nonneg _) hG
  have b2 := mean_bound (fun i => e θ (x i)) fun i => L.bound_energy θ (x i)
  have b3 := mean_bound (fun i => g θ k (x i)) fun i => L.bound_log θ k (x i)
  rw [hcard] at b1 b2 b3
  have n1 : ‖(∑ i, conj (g θ k (x i)) * e θ (x i)) / ((d * n : ℕ) : ℂ)‖ ≤ G * E := by
    rw [norm_div, hMn, div_le_iff₀ hM0]
    linarith
  have n2 : ‖((∑ i, e θ (x i)) * ∑ i, g θ k (x i)) / (((d * n : ℕ) : ℂ) ^ 2)‖ ≤ G * E := by
    rw [norm_div, norm_pow, hMn, div_le_iff₀ (by positivity), norm_mul]
    calc _ ≤ (M * E) * (M * G) := mul_le_mul b2 b3 (norm_nonneg _) (by positivity)
      _ = G * E * M ^ 2 := by ring
  unfold gradOf
  rw [abs_mul, abs_two]
  have := (Complex.abs_re_le_norm _).trans ((norm_sub_le _ _).trans (add_le_add n1 n2))
  linarith

/-- The gradient of an independent sample averages to `1 - 1/N` times the slope. -/
theorem grad_mean (L : Landscape H ψ Ψ g e G E Λ) (hs : Symmetric H) (hd : 0 < d) (hn : 0 < n) (k : Fin p) (θ : Fin p → ℝ) :
    ∫ y, gradOf (g θ k) (e θ) y ∂(Measure.pi fun _ : Fin d × Fin n => walkerLaw μ (Ψ θ)) = (1 - 1 / ((d * n : ℕ) : ℝ)) * incline H ψ θ k := by
  have he : IsLocalEnergy H (ψ (Function.update θ k (θ k))) (e θ) := by rw [Function.update_eq_self]; exact L.energies θ
  obtain ⟨loss, grad, dE, h1, h2, -, -, -, h6⟩ := LossGrad.Props.c94_gradient hs (L.families θ k) he hd hn 1
  have hl : walkerLaw μ (ψ (Function.update θ k (θ k)) : L2C μ) = walkerLaw μ (Ψ θ) := by
    have := law_congr ((L.families θ k).values (θ k))
    simp only [Function.update_eq_self] at this ⊢
    exact this
  rw [hl] at h6
  have hg : grad = gradOf (g θ k) (e θ) := by
    funext x
    have h := h1 x
    rw [LossGrad.Props.batch_value hd hn] at h
    simp only [Except.ok.injEq, Prod.mk.injEq, Option.some.injEq] at h
    exact h.2.symm
  have h0 : ∫ x, (g θ k x).im * (e θ x).im ∂walkerLaw μ (Ψ θ) = 0 := by simp [L.real]
  rw [hg, h0, mul_zero, add_zero] at h6
  rw [h6]
  unfold incline
  rw [h2.deriv]

variable {K : ℝ}

theorem slope_measurable [SFinite μ] (L : Landscape H ψ Ψ g e G E Λ) (hs : Symmetric H) (B : Spread μ Ψ K) (k : Fin p) : Measurable fun θ => incline H ψ θ k := by
  have h := sample_measurable (ι := Fin 1 × Fin 2) (Q := fun θ => walkerLaw μ (Ψ θ)) (spread_prob B) (fun s hs => spread_law B hs) (grad_measurable (d := 1) (n := 2) L k)
  have e1 : (fun θ => incline H ψ θ k) = fun θ => 2 * ∫ y, gradOf (g θ k) (e θ) y ∂(Measure.pi fun _ : Fin 1 × Fin 2 => walkerLaw μ (Ψ θ)) := by
    funext θ
    rw [grad_mean L hs (by norm_num) (by norm_num)]
    norm_num
    ring
  rw [e1]
  exact h.const_mul 2

theorem slope_bound (L : Landscape H ψ Ψ g e G E Λ) (hs : Symmetric H) (B : Spread μ Ψ K) (k : Fin p) (θ : Fin p → ℝ) : |incline H ψ θ k| ≤ 8 * G * E := by
  have := spread_prob B θ
  have h1 := grad_mean L hs (d := 1) (n := 2) (by norm_num) (by norm_num) k θ
  have h2 : ‖∫ y, gradOf (g θ k) (e θ) y ∂(Measure.pi fun _ : Fin 1 × Fin 2 => walkerLaw μ (Ψ θ))‖ ≤ 4 * G * E := by
    have := norm_integral_le_of_norm_le_const (μ := Measure.pi fun _ : Fin 1 × Fin 2 => walkerLaw μ (Ψ θ)) (C := 4 * G * E) (f := gradOf (g θ k) (e θ)) (Filter.Eventually.of_forall fun y => grad_bound L (by norm_num) (by norm_num) k θ y)
    simpa using this
  rw [h1, Real.norm_eq_abs, abs_mul] at h2
  norm_num at h2
  linarith

/-! ### One update -/

open Jaqmc.Sampler in
theorem sgd_eq (hd : 0 < d) (hn : 0 < n) (scale : ℝ) (η : ℕ → ℝ) (t : ℕ) (θ : Fin p → ℝ) (x : Fin d → Batch Unit n V) (k : Fin p) :
    sgdUpdate "none" scale η g e t θ x k = θ k - η t * gradOf (g θ k) (e θ) fun w : Fin d × Fin n => x w.1 () w.2 := by
  unfold sgdUpdate
  rw [stepGradient_eq, LossGrad.Props.batch_value hd hn]
  rfl

/-- Adding up what the steps gain. -/
theorem add_up {f a : ℕ → ℝ} (h : ∀ t, f (t + 1) ≤ f t - a t) (T : ℕ) : ∑ t ∈ Finset.range T, a t ≤ f 0 - f T := by
  induction T with
  | zero => simp
  | succ T ih =>
    rw [Finset.sum_range_succ]
    linarith [h T]

/-- A quantity at most `C` in size, from one between zero and one. -/
theorem rescaled {Ω : Type} [MeasurableSpace Ω] {P : Measure Ω} [IsProbabilityMeasure P] {a b : Ω → ℝ} (ia : Integrable a P) (ib : Integrable b P) {C δ : ℝ} (hC : 0 ≤ C)
    (ha : ∀ ω, |a ω| ≤ C) (hb : ∀ ω, |b ω| ≤ C) (h : |∫ ω, (a ω + C) / (2 * C) ∂P - ∫ ω, (b ω + C) / (2 * C) ∂P| ≤ δ) : |∫ ω, a ω ∂P - ∫ ω, b ω ∂P| ≤ 2 * C * δ := by
  rcases hC.eq_or_lt with rfl | hC
  · have e1 : ∀ ω, a ω = 0 := fun ω => abs_nonpos_iff.mp (ha ω)
    have e2 : ∀ ω, b ω = 0 := fun ω => abs_nonpos_iff.mp (hb ω)
    simp [e1, e2]
  have e : ∀ f : Ω → ℝ, Integrable f P → ∫ ω, (f ω + C) / (2 * C) ∂P = (∫ ω, f ω ∂P + C) / (2 * C) := fun f hf => by
    rw [integral_div, integral_add hf (integrable_const _)]
    simp
  rw [e a ia, e b ib, ← sub_div, abs_div, abs_of_pos (by positivity : (0 : ℝ) < 2 * C), div_le_iff₀ (by positivity)] at h
  rw [show (∫ ω, a ω ∂P + C) - (∫ ω, b ω ∂P + C) = ∫ ω, a ω ∂P - ∫ ω, b ω ∂P by ring] at h
  linarith

theorem between {z C : ℝ} (h : |z| ≤ C) : 0 ≤ (z + C) / (2 * C) ∧ (z + C) / (2 * C) ≤ 1 := by
  have hC := (abs_nonneg z).trans h
  have := abs_le.mp h
  exact ⟨div_nonneg (by linarith [this.1]) (by linarith), div_le_one_of_le₀ (by linarith [this.2]) (by linarith)⟩

theorem bounded_int {Ω : Type} [MeasurableSpace Ω] (P : Measure Ω) [IsFiniteMeasure P] {f : Ω → ℝ} (hf : Measurable f) {C : ℝ} (h : ∀ ω, |f ω| ≤ C) : Integrable f P :=
  Integrable.of_bound hf.aestronglyMeasurable C (Filter.Eventually.of_forall h)

end Jaqmc.Average.Descent
