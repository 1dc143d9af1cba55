import Verif.Lemmas.Descent
/-!
C143: plain gradient descent on sampled gradients finds places where the energy is flat.
-/
namespace Jaqmc.Average.Props
open Jaqmc.Sampler Jaqmc.Sampler.Props Jaqmc.Average Jaqmc.Average.Spec Jaqmc.Average.Training Jaqmc.Average.Descent Jaqmc.LossGrad.Spec
open MeasureTheory ProbabilityTheory
open scoped ENNReal Classical

set_option linter.unusedSectionVars false

variable {V N Ω Key : Type} {n d p : ℕ} [MeasurableSpace V] [MeasurableSpace N] [MeasurableSpace Ω] {μ : Measure V} {ν : Measure N}
  {H : L2C μ →ₗ.[ℂ] L2C μ} {ψ : (Fin p → ℝ) → H.domain} {Ψ : (Fin p → ℝ) → V → ℂ} {g : (Fin p → ℝ) → Fin p → V → ℂ} {e : (Fin p → ℝ) → V → ℂ} {G E Λ K : ℝ}

theorem sgd_measurable (L : Landscape H ψ Ψ g e G E Λ) (hd : 0 < d) (hn : 0 < n) (scale : ℝ) (η : ℕ → ℝ) (t : ℕ) :
    Measurable fun q : (Fin p → ℝ) × (Fin d × Fin n → V) => sgdUpdate "none" scale η g e t q.1 fun a (_ : Unit) i => q.2 (a, i) := by
  refine measurable_pi_iff.mpr fun k => ?_
  simp only [sgd_eq hd hn]
  exact ((measurable_pi_apply k).comp measurable_fst).sub ((grad_measurable L k).const_mul _)

/-- The parameters and the walkers of a run are random variables. -/
theorem run_measurable {P : Measure Ω} {Θ : Type} [MeasurableSpace Θ] {Ψ : Θ → V → ℂ} (B : Spread μ Ψ K) {move : ℝ → N → V → V} (hmv : ∀ σ, Measurable fun q : V × N => move σ q.2 q.1)
    {cfg : Cfg} {r : RandomRng Ω Key N n} {update : ℕ → Θ → (Fin d → Batch Unit n V) → Θ} (hup : ∀ t, Measurable fun q : Θ × (Fin d × Fin n → V) => update t q.1 fun a _ i => q.2 (a, i))
    {keys : ℕ → Fin d → Key} {x₀ : Ω → Fin d → Batch Unit n V} (τ₀ : Θ) (s : State) {T : ℕ} (D : Draws P ν cfg.steps r keys x₀ T) (hu : ∀ k i ω, r.uniform k i ω ∈ Set.Ico (0 : ℝ) 1) (t : ℕ) :
    Measurable (fun ω => trained cfg r move Ψ update keys x₀ τ₀ s ω t) ∧
      Measurable fun ω (w : Fin d × Fin n) => trainWalkers cfg r move Ψ update keys x₀ τ₀ s ω t w.1 () w.2 := by
  have mrun := (past_measurable (cfg := cfg) (split3 := r.split3) (keys := keys) (s := s) B.measurable hmv hup τ₀ t).comp
      ((measurable_pi_iff.mpr fun w : Fin d × Fin n => D.measurable w.1 w.2).prodMk (measurable_pi_iff.mpr fun q : Key × Fin n => (D.each q.2).measurable q.1))
  have hrun := trainRun_past cfg r hu move Ψ update keys x₀ τ₀ s
  unfold trained trainWalkers
  simp only [hrun]
  exact ⟨measurable_fst.comp mrun, measurable_fst.comp (measurable_snd.comp mrun)⟩

attribute [local irreducible] gradOf incline

/-- The same for any sequences of parameters and batches, each batch near an independent sample from the wavefunction of the parameters before. -/
theorem descent_core [SFinite μ] (hs : Symmetric H) (L : Landscape H ψ Ψ g e G E Λ) (hΛ : 0 ≤ Λ) (B : Spread μ Ψ K) {E₀ : ℝ} (low : ∀ θ, E₀ ≤ energy H (ψ θ)) {P : Measure Ω}
    [IsProbabilityMeasure P] (hd : 0 < d) (hn : 0 < n) {η : ℕ → ℝ} (hη : ∀ t, 0 ≤ η t) {θ : ℕ → Ω → Fin p → ℝ} {X : ℕ → Ω → Fin d × Fin n → V} (mθ : ∀ t, Measurable (θ t))
    (mX : ∀ t, Measurable (X t)) (hstep : ∀ t ω k, θ (t + 1) ω k = θ t ω k - η t * gradOf (g (θ t ω) k) (e (θ t ω)) (X (t + 1) ω)) {θ₀ : Fin p → ℝ} (h0 : ∀ ω, θ 0 ω = θ₀) {T : ℕ} {δ : ℝ}
    (near : ∀ t < T, ∀ φ : (Fin p → ℝ) × (Fin d × Fin n → V) → ℝ, Measurable φ → (∀ q, 0 ≤ φ q) → (∀ q, φ q ≤ 1) →
      |∫ ω, φ (θ t ω, X (t + 1) ω) ∂P - ∫ ω, ∫ y, φ (θ t ω, y) ∂(Measure.pi fun _ : Fin d × Fin n => walkerLaw μ (Ψ (θ t ω))) ∂P| ≤ δ) :
    (1 - 1 / ((d * n : ℕ) : ℝ)) * ∑ t ∈ Finset.range T, η t * ∫ ω, steepness H ψ (θ t ω) ∂P ≤
      energy H (ψ θ₀) - E₀ + Λ / 2 * (p * (4 * G * E) ^ 2) * ∑ t ∈ Finset.range T, η t ^ 2 + p * (64 * (G * E) ^ 2) * δ * ∑ t ∈ Finset.range T, η t := by
  obtain ⟨A, hA⟩ : ∃ A : ℝ, A = (1 - 1 / ((d * n : ℕ) : ℝ)) := ⟨_, rfl⟩
  rw [← hA]
  have mI := fun k => slope_measurable L hs B k
  have bI := fun k => slope_bound L hs B k
  have bG := fun k => grad_bound (d := d) (n := n) L hd hn k
  have bM : ∀ k θ, |A * incline H ψ θ k| ≤ 4 * G * E := by
    intro k θ
    have := spread_prob B θ
    rw [hA, ← grad_mean L hs hd hn k θ]
    have := norm_integral_le_of_norm_le_const (μ := Measure.pi fun _ : Fin d × Fin n => walkerLaw μ (Ψ θ)) (C := 4 * G * E) (f := gradOf (g θ k) (e θ))
      (Filter.Eventually.of_forall fun y => bG k θ y)
    simpa using this
  have bprod : ∀ {u v : ℝ}, |u| ≤ 8 * G * E → |v| ≤ 4 * G * E → |u * v| ≤ 32 * (G * E) ^ 2 := by
    intro u v h1 h2
    rw [abs_mul]
    calc _ ≤ (8 * G * E) * (4 * G * E) := mul_le_mul h1 h2 (abs_nonneg _) ((abs_nonneg _).trans h1)
      _ = _ := by ring
  have mI := fun k => slope_measurable L hs B k
  obtain ⟨a, ha⟩ : ∃ a : ℕ → Fin p → Ω → ℝ, ∀ t k ω, a t k ω = incline H ψ (θ t ω) k * gradOf (g (θ t ω) k) (e (θ t ω)) (X (t + 1) ω) := ⟨_, fun _ _ _ => rfl⟩
  obtain ⟨b, hb⟩ : ∃ b : ℕ → Fin p → Ω → ℝ, ∀ t k ω, b t k ω = incline H ψ (θ t ω) k * (A * incline H ψ (θ t ω) k) := ⟨_, fun _ _ _ => rfl⟩
  have ba : ∀ t k ω, |a t k ω| ≤ 32 * (G * E) ^ 2 := fun t k ω => by
    rw [ha]; exact bprod (bI k _) (bG k _ _)
  have bb : ∀ t k ω, |b t k ω| ≤ 32 * (G * E) ^ 2 := fun t k ω => by
    rw [hb]; exact bprod (bI k _) (bM k _)
  have mi : ∀ t k, Measurable fun ω => incline H ψ (θ t ω) k := fun t k => (mI k).comp (mθ t)
  have ma : ∀ t k, Measurable (a t k) := fun t k => by
    have h1 : Measurable fun ω => gradOf (g (θ t ω) k) (e (θ t ω)) (X (t + 1) ω) := (grad_measurable L k).comp ((mθ t).prodMk (mX (t + 1)))
    rw [show a t k = fun ω => incline H ψ (θ t ω) k * gradOf (g (θ t ω) k) (e (θ t ω)) (X (t + 1) ω) from funext (ha t k)]
    exact (mi t k).mul h1
  have mb : ∀ t k, Measurable (b t k) := fun t k => by
    rw [show b t k = fun ω => incline H ψ (θ t ω) k * (A * incline H ψ (θ t ω) k) from funext (hb t k)]
    exact (mi t k).mul ((mi t k).const_mul A)
  have ia : ∀ t k, Integrable (a t k) P := fun t k => bounded_int P (ma t k) (ba t k)
  have ib : ∀ t k, Integrable (b t k) P := fun t k => bounded_int P (mb t k) (bb t k)
  -- each step follows the slope
  have follow : ∀ t < T, ∀ k, ∫ ω, b t k ω ∂P - 64 * (G * E) ^ 2 * δ ≤ ∫ ω, a t k ω ∂P := by
    intro t ht k
    obtain ⟨C, hC⟩ : ∃ C : ℝ, C = 32 * (G * E) ^ 2 := ⟨_, rfl⟩
    have hC0 : 0 ≤ C := by rw [hC]; positivity
    have bq : ∀ q : (Fin p → ℝ) × (Fin d × Fin n → V), |incline H ψ q.1 k * gradOf (g q.1 k) (e q.1) q.2| ≤ C := fun q => by
      rw [hC]; exact bprod (bI k _) (bG k _ _)
    have mq : Measurable fun q : (Fin p → ℝ) × (Fin d × Fin n → V) => incline H ψ q.1 k * gradOf (g q.1 k) (e q.1) q.2 := ((mI k).comp measurable_fst).mul (grad_measurable L k)
    have key := near t ht (fun q => (incline H ψ q.1 k * gradOf (g q.1 k) (e q.1) q.2 + C) / (2 * C)) ((mq.add_const C).div_const _)
      (fun q => (between (bq q)).1) (fun q => (between (bq q)).2)
    have inner : ∀ ϑ : Fin p → ℝ, ∫ y, (incline H ψ ϑ k * gradOf (g ϑ k) (e ϑ) y + C) / (2 * C) ∂(Measure.pi fun _ : Fin d × Fin n => walkerLaw μ (Ψ ϑ)) =
        (incline H ψ ϑ k * (A * incline H ψ ϑ k) + C) / (2 * C) := by
      intro ϑ
      have := spread_prob B ϑ
      have ig : Integrable (gradOf (g ϑ k) (e ϑ)) (Measure.pi fun _ : Fin d × Fin n => walkerLaw μ (Ψ ϑ)) :=
        bounded_int _ ((grad_measurable L k).comp measurable_prodMk_left) (bG k ϑ)
      rw [integral_div, integral_add (ig.const_mul _) (integrable_const _), integral_const_mul, grad_mean L hs hd hn k ϑ]
      simp [hA]
    simp only [inner, ← ha, ← hb] at key
    have key' := rescaled (ia t k) (ib t k) hC0 (fun ω => hC ▸ ba t k ω) (fun ω => hC ▸ bb t k ω) key
    have := (abs_le.mp key').1
    have e1 : 2 * C * δ = 64 * (G * E) ^ 2 * δ := by rw [hC]; ring
    rw [e1] at this
    linarith
  -- what a step gains
  have gain : ∀ ω t, energy H (ψ (θ (t + 1) ω)) ≤ energy H (ψ (θ t ω)) - (η t * ∑ k, a t k ω - Λ / 2 * (p * (4 * G * E) ^ 2) * η t ^ 2) := by
    intro ω t
    refine (L.smooth (θ t ω) (θ (t + 1) ω)).trans ?_
    have e1 : ∑ k, incline H ψ (θ t ω) k * (θ (t + 1) ω k - θ t ω k) = -(η t * ∑ k, a t k ω) := by
      rw [Finset.mul_sum, ← Finset.sum_neg_distrib]
      refine Finset.sum_congr rfl fun k _ => ?_
      rw [hstep, ha]
      ring
    have e2 : ∑ k, (θ (t + 1) ω k - θ t ω k) ^ 2 ≤ p * (4 * G * E) ^ 2 * η t ^ 2 := by
      have : ∀ k ∈ Finset.univ, (θ (t + 1) ω k - θ t ω k) ^ 2 ≤ (4 * G * E) ^ 2 * η t ^ 2 := by
        intro k _
        rw [hstep]
        have := pow_le_pow_left₀ (abs_nonneg _) (bG k (θ t ω) (X (t + 1) ω)) 2
        rw [sq_abs] at this
        have h2 := mul_le_mul_of_nonneg_right this (sq_nonneg (η t))
        calc _ = gradOf (g (θ t ω) k) (e (θ t ω)) (X (t + 1) ω) ^ 2 * η t ^ 2 := by ring
          _ ≤ _ := h2
      refine (Finset.sum_le_sum this).trans (le_of_eq ?_)
      simp
      ring
    rw [e1]
    have := mul_le_mul_of_nonneg_left e2 (by linarith : 0 ≤ Λ / 2)
    linarith
  have total : ∀ ω, ∑ t ∈ Finset.range T, (η t * ∑ k, a t k ω - Λ / 2 * (p * (4 * G * E) ^ 2) * η t ^ 2) ≤ energy H (ψ θ₀) - E₀ := by
    intro ω
    have := add_up (f := fun t => energy H (ψ (θ t ω))) (a := fun t => η t * ∑ k, a t k ω - Λ / 2 * (p * (4 * G * E) ^ 2) * η t ^ 2) (gain ω) T
    rw [h0] at this
    linarith [low (θ T ω)]
  have it : ∀ t, Integrable (fun ω => η t * ∑ k, a t k ω - Λ / 2 * (p * (4 * G * E) ^ 2) * η t ^ 2) P := fun t =>
    ((integrable_finsetSum _ fun k _ => ia t k).const_mul _).sub (integrable_const _)
  have mean : ∫ ω, ∑ t ∈ Finset.range T, (η t * ∑ k, a t k ω - Λ / 2 * (p * (4 * G * E) ^ 2) * η t ^ 2) ∂P ≤ energy H (ψ θ₀) - E₀ := by
    have := integral_mono (integrable_finsetSum _ fun t _ => it t) (integrable_const (μ := P) (energy H (ψ θ₀) - E₀)) total
    simpa using this
  have e3 : ∀ t, ∫ ω, (η t * ∑ k, a t k ω - Λ / 2 * (p * (4 * G * E) ^ 2) * η t ^ 2) ∂P = η t * ∑ k, ∫ ω, a t k ω ∂P - Λ / 2 * (p * (4 * G * E) ^ 2) * η t ^ 2 := by
    intro t
    rw [integral_sub ((integrable_finsetSum _ fun k _ => ia t k).const_mul _) (integrable_const _), integral_const_mul, integral_finsetSum _ fun k _ => ia t k]
    simp
  rw [integral_finsetSum _ fun t _ => it t, Finset.sum_congr rfl fun t _ => e3 t, Finset.sum_sub_distrib, ← Finset.mul_sum] at mean
  -- the steepness
  have e4 : ∀ t, A * ∫ ω, steepness H ψ (θ t ω) ∂P = ∑ k, ∫ ω, b t k ω ∂P := by
    intro t
    rw [← integral_const_mul, ← integral_finsetSum _ fun k _ => ib t k]
    refine integral_congr_ae (Filter.Eventually.of_forall fun ω => ?_)
    simp only [steepness, hb, Finset.mul_sum]
    exact Finset.sum_congr rfl fun k _ => by ring
  have e5 : ∀ t ∈ Finset.range T, η t * (A * ∫ ω, steepness H ψ (θ t ω) ∂P) - η t * (p * (64 * (G * E) ^ 2) * δ) ≤ η t * ∑ k, ∫ ω, a t k ω ∂P := by
    intro t ht
    rw [← mul_sub]
    refine mul_le_mul_of_nonneg_left ?_ (hη t)
    rw [e4]
    have := Finset.sum_le_sum fun k (_ : k ∈ (Finset.univ : Finset (Fin p))) => follow t (Finset.mem_range.mp ht) k
    rw [Finset.sum_sub_distrib, Finset.sum_const, Finset.card_univ, Fintype.card_fin, nsmul_eq_mul] at this
    refine le_trans (le_of_eq ?_) this
    ring
  have e6 := Finset.sum_le_sum e5
  rw [Finset.sum_sub_distrib, ← Finset.sum_mul] at e6
  have e7 : A * ∑ t ∈ Finset.range T, η t * ∫ ω, steepness H ψ (θ t ω) ∂P = ∑ t ∈ Finset.range T, η t * (A * ∫ ω, steepness H ψ (θ t ω) ∂P) := by
    rw [Finset.mul_sum]
    exact Finset.sum_congr rfl fun t _ => by ring
  rw [e7]
  linarith

/-- **C143.** What the steps of a run gain, whatever the learning rates: the mean squared gradient of the energy at the parameters the run passes, weighted with the learning rates, is
limited by what the energy can fall, by a term with the squares of the learning rates, and by a term from the walkers not having reached the wavefunction. -/
theorem c143_descent [SFinite μ] (hs : Symmetric H) (L : Landscape H ψ Ψ g e G E Λ) (hΛ : 0 ≤ Λ) (B : Spread μ Ψ K) {move : ℝ → N → V → V} (hmv : ∀ σ, Measurable fun q : V × N => move σ q.2 q.1)
    {W : Set ℝ} {ρ : ℝ} (hT : TracksTraining μ ν Ψ move W ρ) {E₀ : ℝ} (low : ∀ θ, E₀ ≤ energy H (ψ θ)) {P : Measure Ω} [IsProbabilityMeasure P] (hd : 0 < d) (hn : 0 < n) (scale : ℝ)
    {η : ℕ → ℝ} (hη : ∀ t, 0 ≤ η t) {cfg : Cfg} {r : RandomRng Ω Key N n} {keys : ℕ → Fin d → Key} {x₀ : Ω → Fin d → Batch Unit n V} (θ₀ : Fin p → ℝ) (s : State) {T : ℕ}
    (D : Draws P ν cfg.steps r keys x₀ T) (hW : ∀ t < T, ∀ ω, trainWidth cfg r move Ψ (sgdUpdate "none" scale η g e) keys x₀ θ₀ s ω t ∈ W) :
    (1 - 1 / ((d * n : ℕ) : ℝ)) * ∑ t ∈ Finset.range T, η t * ∫ ω, steepness H ψ (descended cfg r move Ψ "none" scale η g e keys x₀ θ₀ s ω t) ∂P ≤
      energy H (ψ θ₀) - E₀ + Λ / 2 * (p * (4 * G * E) ^ 2) * ∑ t ∈ Finset.range T, η t ^ 2 +
        p * (128 * (G * E) ^ 2) * ((d * n : ℕ) : ℝ) * ρ ^ cfg.steps * ∑ t ∈ Finset.range T, η t := by
  have hu : ∀ k i ω, r.uniform k i ω ∈ Set.Ico (0 : ℝ) 1 := fun k i ω => (D.each i).range k ω
  have hup := sgd_measurable (d := d) (n := n) L hd hn scale η
  have mrun := run_measurable (P := P) B hmv hup θ₀ s D hu
  have key := descent_core (δ := 2 * ((d * n : ℕ) : ℝ) * ρ ^ cfg.steps) hs L hΛ B low hd hn hη (P := P) (θ := fun t ω => descended cfg r move Ψ "none" scale η g e keys x₀ θ₀ s ω t)
    (X := fun t ω w => trainWalkers cfg r move Ψ (sgdUpdate "none" scale η g e) keys x₀ θ₀ s ω t w.1 () w.2) (fun t => (mrun t).1) (fun t => (mrun t).2)
    (fun t ω k => sgd_eq hd hn scale η t _ _ k) (fun ω => rfl) (T := T) (fun t ht φ mφ h0 h1 =>
      hT Ω Key _ P inferInstance n d cfg r (sgdUpdate "none" scale η g e) keys x₀ θ₀ s T D hup hW t ht (fun q => φ (q.1.1, q.2)) (mφ.comp (by fun_prop)) (fun q => h0 _) (fun q => h1 _))
  refine key.trans (le_of_eq ?_)
  ring

/-! ### Solids -/

open Jaqmc.Geometry Jaqmc.Geometry.Props.Sphere

theorem settle {D c₁ c₂ ε : ℝ} (hD : 0 ≤ D) (h1 : 0 ≤ c₁) (hε : 0 < ε) : ∃ (η : ℝ) (T : ℕ), 0 < η ∧ 0 < T ∧ ∀ S A q : ℝ, 0 ≤ S → 1 / 2 ≤ A → c₂ * q ≤ ε / 4 →
    A * (η * S) ≤ D + c₁ * (T * η ^ 2) + c₂ * q * (T * η) → S / T ≤ ε := by
  obtain ⟨η, hη⟩ : ∃ η : ℝ, η = ε / (8 * (c₁ + 1)) := ⟨_, rfl⟩
  have hη0 : 0 < η := by rw [hη]; positivity
  obtain ⟨T, hT⟩ := exists_nat_gt (8 * D / (η * ε))
  have hT0 : (0 : ℝ) < T := lt_of_le_of_lt (by positivity) hT
  refine ⟨η, T, hη0, by exact_mod_cast hT0, fun S A q hS hA hq h => ?_⟩
  rw [div_lt_iff₀ (by positivity)] at hT
  have e1 : η * c₁ ≤ ε / 8 := by
    rw [hη, div_mul_eq_mul_div, div_le_iff₀ (by positivity)]
    nlinarith
  have h2 : 1 / 2 * (η * S) ≤ A * (η * S) := mul_le_mul_of_nonneg_right hA (by positivity)
  have h3 : c₂ * q * (T * η) ≤ ε / 4 * (T * η) := mul_le_mul_of_nonneg_right hq (by positivity)
  have h4 : c₁ * (T * η ^ 2) ≤ ε / 8 * (T * η) := by
    have := mul_le_mul_of_nonneg_right e1 (by positivity : 0 ≤ T * η)
    calc _ = η * c₁ * (T * η) := by ring
      _ ≤ _ := this
  have h5 : D ≤ 1 / 8 * (T * (η * ε)) := by linarith
  rw [div_le_iff₀ hT0]
  have h6 : η * S ≤ η * (ε * T) := by nlinarith
  exact le_of_mul_le_mul_left h6 hη0

/-- **C143.** Solids, the width adapted all along: plain gradient descent with a small enough learning rate makes the energy as flat as one likes, on average over enough steps, from any
start with an energy at most `E₁`, for any number of walkers, two at least, if the sampler makes enough updates between the steps. -/
theorem c143_solid {m c : ℕ} (A : Matrix (Fin c) (Fin c) ℝ) (hA : IsUnit A.det) {H : L2C (cells m A) →ₗ.[ℂ] L2C (cells m A)} (hs : Symmetric H) {ψ : (Fin p → ℝ) → H.domain}
    {Ψ : (Fin p → ℝ) → (Fin m → Fin c → ℝ) → ℂ} {g : (Fin p → ℝ) → Fin p → (Fin m → Fin c → ℝ) → ℂ} {e : (Fin p → ℝ) → (Fin m → Fin c → ℝ) → ℂ} (L : Landscape H ψ Ψ g e G E Λ)
    (hΛ : 0 ≤ Λ) (B : Spread (cells m A) Ψ K) {E₀ : ℝ} (low : ∀ θ, E₀ ≤ energy H (ψ θ)) (E₁ : ℝ) {σ : ℝ} (hσ : σ ≠ 0) {ε : ℝ} (hε : 0 < ε) :
    ∃ (η : ℝ) (T : ℕ), 0 < η ∧ 0 < T ∧ ∀ d n : ℕ, 2 ≤ d * n → ∃ M : ℕ,
      ∀ (Ω Key : Type) (_ : MeasurableSpace Ω) (P : Measure Ω) (_ : IsProbabilityMeasure P) (scale : ℝ) (cfg : Cfg) (r : RandomRng Ω Key (Fin m → Fin c → ℝ) n)
        (keys : ℕ → Fin d → Key) (x₀ : Ω → Fin d → Batch Unit n (Fin m → Fin c → ℝ)) (θ₀ : Fin p → ℝ) (s : State), s.stddev = σ → energy H (ψ θ₀) ≤ E₁ →
        Draws P (Measure.pi fun _ : Fin m => Measure.pi fun _ : Fin c => gaussianReal 0 1) cfg.steps r keys x₀ T → M ≤ cfg.steps →
        (∑ t ∈ Finset.range T, ∫ ω, steepness H ψ (descended cfg r (pbcMoveAll A) Ψ "none" scale (fun _ => η) g e keys x₀ θ₀ s ω t) ∂P) / T ≤ ε := by
  have := cells_finite m A
  obtain ⟨η, T, hη, hT0, hset⟩ := settle (D := max (E₁ - E₀) 0) (c₁ := Λ / 2 * (p * (4 * G * E) ^ 2)) (c₂ := p * (128 * (G * E) ^ 2)) (le_max_right _ _) (by positivity) hε
  obtain ⟨ρ, h0, h1, h⟩ := c142_solid A hA B (reachable_finite σ T)
    (by rintro ⟨j, _, hj⟩
        rcases mul_eq_zero.mp hj.symm with h | h
        · exact hσ h
        · exact absurd h (zpow_ne_zero j (by norm_num)))
    ⟨σ, 0, by simp, by simp⟩
  refine ⟨η, T, hη, hT0, fun d n hdn => ?_⟩
  have hd : 0 < d := Nat.pos_of_ne_zero fun h => by subst h; omega
  have hn : 0 < n := Nat.pos_of_ne_zero fun h => by subst h; omega
  obtain ⟨C, hC⟩ : ∃ C : ℝ, C = p * (128 * (G * E) ^ 2) * ((d * n : ℕ) : ℝ) := ⟨_, rfl⟩
  have hC0 : 0 ≤ C := by rw [hC]; positivity
  obtain ⟨M, hM⟩ := exists_pow_lt_of_lt_one (show 0 < ε / 4 / (C + 1) by positivity) h1
  refine ⟨M, fun Ω Key _ P _ scale cfg r keys x₀ θ₀ s hsσ hE D hMs => ?_⟩
  have key := c143_descent hs L hΛ B (pbcMoveAll_measurable A) h low hd hn scale (η := fun _ => η) (fun _ => hη.le) θ₀ s D
    (fun t ht ω => reachable_mono σ ht.le (hsσ ▸ trainWidth_reachable cfg r (pbcMoveAll A) Ψ _ keys x₀ θ₀ s ω t))
  rw [← Finset.mul_sum] at key
  simp only [Finset.sum_const, Finset.card_range, nsmul_eq_mul] at key
  have hN : (2 : ℝ) ≤ ((d * n : ℕ) : ℝ) := by exact_mod_cast hdn
  refine hset _ (1 - 1 / ((d * n : ℕ) : ℝ)) (((d * n : ℕ) : ℝ) * ρ ^ cfg.steps) (Finset.sum_nonneg fun t _ => integral_nonneg fun ω => Finset.sum_nonneg fun k _ => sq_nonneg _) ?_ ?_ ?_
  · have : 1 / ((d * n : ℕ) : ℝ) ≤ 1 / 2 := one_div_le_one_div_of_le (by norm_num) hN
    linarith
  · rw [← mul_assoc, ← hC]
    have hp : ρ ^ cfg.steps ≤ ε / 4 / (C + 1) := (pow_le_pow_of_le_one h0 h1.le hMs).trans hM.le
    rw [le_div_iff₀ (by positivity)] at hp
    have := pow_nonneg h0 cfg.steps
    nlinarith
  · refine key.trans (add_le_add (add_le_add ?_ le_rfl) (le_of_eq (by ring)))
    exact le_max_of_le_left (by linarith)

/-! ### The hypotheses can be met -/

section hill
open Jaqmc.LossGrad.Props

/-- A function whose second derivative is at most one lies below its parabolas of curvature one. -/
theorem below_parabola {F F' F'' : ℝ → ℝ} (h1 : ∀ u, HasDerivAt F (F' u) u) (h2 : ∀ u, HasDerivAt F' (F'' u) u) (h3 : ∀ u, F'' u ≤ 1) (x y : ℝ) :
    F y ≤ F x + F' x * (y - x) + 1 / 2 * (y - x) ^ 2 := by
  have d1 : ∀ u, HasDerivAt (fun u => u ^ 2 / 2 - F u) (u - F' u) u := fun u => by
    have := ((hasDerivAt_pow 2 u).div_const 2).sub (h1 u)
    exact this.congr_deriv (by norm_num)
  have d2 : ∀ u, HasDerivAt (fun u => u - F' u) (1 - F'' u) u := fun u => (hasDerivAt_id u).sub (h2 u)
  have cv : ConvexOn ℝ Set.univ fun u => u ^ 2 / 2 - F u :=
    convexOn_of_hasDerivWithinAt2_nonneg convex_univ (fun u _ => (d1 u).continuousAt.continuousWithinAt) (fun u _ => (d1 u).hasDerivWithinAt) (fun u _ => (d2 u).hasDerivWithinAt)
      fun u _ => by linarith [h3 u]
  rcases lt_trichotomy x y with h | h | h
  · have := cv.le_slope_of_hasDerivAt (Set.mem_univ x) (Set.mem_univ y) h (d1 x)
    rw [slope_def_field, le_div_iff₀ (by linarith)] at this
    nlinarith
  · subst h; simp
  · have := cv.slope_le_of_hasDerivAt (Set.mem_univ y) (Set.mem_univ x) h (d1 x)
    rw [slope_def_field, div_le_iff₀ (by linarith)] at this
    nlinarith

variable {S : Set V} [IsFiniteMeasure μ]

/-- The function one on a set. -/
noncomputable def chi (μ : Measure V) [IsFiniteMeasure μ] (hS : MeasurableSet S) : L2C μ := indicatorConstLp 2 hS (measure_ne_top μ S) (1 : ℂ)

/-- `e^θ` on a set, one outside. -/
noncomputable def hill (μ : Measure V) [IsFiniteMeasure μ] (hS : MeasurableSet S) (θ : Fin 1 → ℝ) : (rankOne (chi μ hS)).domain :=
  ⟨((Real.exp (θ 0) : ℝ) : ℂ) • chi μ hS + chi μ hS.compl, trivial⟩

/-- The values of this wavefunction. -/
noncomputable def hillValue (S : Set V) (θ : Fin 1 → ℝ) (x : V) : ℂ := if x ∈ S then ((Real.exp (θ 0) : ℝ) : ℂ) else 1

theorem hill_values (hS : MeasurableSet S) (θ : Fin 1 → ℝ) : ∀ᵐ x ∂μ, (hill μ hS θ : L2C μ) x = hillValue S θ x := by
  have e1 : chi μ hS =ᵐ[μ] S.indicator fun _ => (1 : ℂ) := indicatorConstLp_coeFn
  have e2 : chi μ hS.compl =ᵐ[μ] Sᶜ.indicator fun _ => (1 : ℂ) := indicatorConstLp_coeFn
  have e3 := Lp.coeFn_add (((Real.exp (θ 0) : ℝ) : ℂ) • chi μ hS) (chi μ hS.compl)
  have e4 := Lp.coeFn_smul ((Real.exp (θ 0) : ℝ) : ℂ) (chi μ hS)
  filter_upwards [e1, e2, e3, e4] with x h1 h2 h3 h4
  show (((Real.exp (θ 0) : ℝ) : ℂ) • chi μ hS + chi μ hS.compl : L2C μ) x = _
  rw [h3, Pi.add_apply, h4, Pi.smul_apply, h1, h2]
  unfold hillValue
  by_cases hx : x ∈ S <;> simp [hx]

theorem chi_inner (hS : MeasurableSet S) (hS2 : μ.real S = 1 / 2) (hS3 : μ.real Sᶜ = 1 / 2) (θ : Fin 1 → ℝ) :
    inner ℂ (chi μ hS) (hill μ hS θ : L2C μ) = ((Real.exp (θ 0) / 2 : ℝ) : ℂ) ∧
      inner ℂ (hill μ hS θ : L2C μ) (hill μ hS θ : L2C μ) = (((Real.exp (2 * θ 0) + 1) / 2 : ℝ) : ℂ) := by
  have a1 : inner ℂ (chi μ hS) (chi μ hS) = (1 / 2 : ℂ) := by
    unfold chi
    rw [L2.inner_indicatorConstLp_indicatorConstLp, Set.inter_self, hS2]
    simp
  have a2 : inner ℂ (chi μ hS) (chi μ hS.compl) = (0 : ℂ) := by
    unfold chi
    rw [L2.inner_indicatorConstLp_indicatorConstLp, Set.inter_compl_self]
    simp
  have a3 : inner ℂ (chi μ hS.compl) (chi μ hS) = (0 : ℂ) := by
    unfold chi
    rw [L2.inner_indicatorConstLp_indicatorConstLp, Set.compl_inter_self]
    simp
  have a4 : inner ℂ (chi μ hS.compl) (chi μ hS.compl) = (1 / 2 : ℂ) := by
    unfold chi
    rw [L2.inner_indicatorConstLp_indicatorConstLp, Set.inter_self, hS3]
    simp
  have eh : (hill μ hS θ : L2C μ) = ((Real.exp (θ 0) : ℝ) : ℂ) • chi μ hS + chi μ hS.compl := rfl
  have h2 : Real.exp (2 * θ 0) = Real.exp (θ 0) ^ 2 := by rw [← Real.exp_nat_mul]; norm_num
  rw [eh]
  constructor
  · rw [inner_add_right, inner_smul_right, a1, a2]
    push_cast
    ring
  · rw [inner_add_right, inner_add_left, inner_add_left, inner_smul_right, inner_smul_left, inner_smul_right, inner_smul_left, a1, a2, a3, a4, h2, Complex.conj_ofReal]
    push_cast
    ring

theorem hill_energy (hS : MeasurableSet S) (hS2 : μ.real S = 1 / 2) (hS3 : μ.real Sᶜ = 1 / 2) (θ : Fin 1 → ℝ) :
    energy (rankOne (chi μ hS)) (hill μ hS θ) = Real.exp (2 * θ 0) / (2 * (Real.exp (2 * θ 0) + 1)) := by
  obtain ⟨h1, h2⟩ := chi_inner hS hS2 hS3 θ
  have h3 : inner ℂ (hill μ hS θ : L2C μ) (chi μ hS) = ((Real.exp (θ 0) / 2 : ℝ) : ℂ) := by rw [← inner_conj_symm, h1, Complex.conj_ofReal]
  have h4 : Real.exp (2 * θ 0) = Real.exp (θ 0) ^ 2 := by rw [← Real.exp_nat_mul]; norm_num
  unfold energy
  rw [h2, rankOne_apply, inner_smul_right, h1, h3, ← Complex.ofReal_mul, Complex.ofReal_re, Complex.ofReal_re, h4]
  have := Real.exp_pos (θ 0)
  field_simp

theorem logistic_deriv (u : ℝ) : HasDerivAt (fun u => Real.exp (2 * u) / (2 * (Real.exp (2 * u) + 1))) (Real.exp (2 * u) / (Real.exp (2 * u) + 1) ^ 2) u := by
  have h0 : HasDerivAt (fun u : ℝ => Real.exp (2 * u)) (Real.exp (2 * u) * 2) u := by
    have := (hasDerivAt_id u).const_mul 2
    simpa using this.exp
  have hp := Real.exp_pos (2 * u)
  have := h0.div ((h0.add_const 1).const_mul 2) (by positivity)
  exact this.congr_deriv (by field_simp; ring)

theorem logistic_deriv2 (u : ℝ) : HasDerivAt (fun u => Real.exp (2 * u) / (Real.exp (2 * u) + 1) ^ 2) (2 * Real.exp (2 * u) * (1 - Real.exp (2 * u)) / (Real.exp (2 * u) + 1) ^ 3) u := by
  have h0 : HasDerivAt (fun u : ℝ => Real.exp (2 * u)) (Real.exp (2 * u) * 2) u := by
    have := (hasDerivAt_id u).const_mul 2
    simpa using this.exp
  have hp := Real.exp_pos (2 * u)
  have := h0.div ((h0.add_const 1).pow 2) (by show (Real.exp (2 * u) + 1) ^ 2 ≠ 0; positivity)
  refine this.congr_deriv ?_
  simp only [Pi.pow_apply]
  field_simp
  ring

theorem logistic_below (x y : ℝ) : Real.exp (2 * y) / (2 * (Real.exp (2 * y) + 1)) ≤
    Real.exp (2 * x) / (2 * (Real.exp (2 * x) + 1)) + Real.exp (2 * x) / (Real.exp (2 * x) + 1) ^ 2 * (y - x) + 1 / 2 * (y - x) ^ 2 := by
  refine below_parabola logistic_deriv logistic_deriv2 (fun u => ?_) x y
  have hp := Real.exp_pos (2 * u)
  rw [div_le_one (by positivity)]
  nlinarith [sq_nonneg (Real.exp (2 * u)), pow_pos hp 3]

theorem hill_incline (hS : MeasurableSet S) (hS2 : μ.real S = 1 / 2) (hS3 : μ.real Sᶜ = 1 / 2) (θ : Fin 1 → ℝ) (k : Fin 1) :
    incline (rankOne (chi μ hS)) (hill μ hS) θ k = Real.exp (2 * θ 0) / (Real.exp (2 * θ 0) + 1) ^ 2 := by
  obtain rfl : k = 0 := Subsingleton.elim _ _
  unfold incline
  simp only [hill_energy hS hS2 hS3, Function.update_self]
  exact (logistic_deriv (θ 0)).deriv

/-- The energy of this wavefunction, for a rank-one operator, falls the more the smaller the parameter is. -/
theorem hill_landscape (hS : MeasurableSet S) (hS2 : μ.real S = 1 / 2) (hS3 : μ.real Sᶜ = 1 / 2) :
    Landscape (rankOne (chi μ hS)) (hill μ hS) (hillValue S) (fun _ _ x => if x ∈ S then 1 else 0) (fun _ x => if x ∈ S then 1 / 2 else 0) 1 (1 / 2) 1 := by
  have hd : ∀ (θ : Fin 1 → ℝ) (k : Fin 1) (u : ℝ), HasDerivAt (fun t : ℝ => ((hill μ hS (Function.update θ k t) : (rankOne (chi μ hS)).domain) : L2C μ)) (((Real.exp u : ℝ) : ℂ) • chi μ hS) u := by
    intro θ k u
    obtain rfl : k = 0 := Subsingleton.elim _ _
    have h1 : HasDerivAt (fun t : ℝ => ((Real.exp t : ℝ) : ℂ)) ((Real.exp u : ℝ) : ℂ) u := (Real.hasDerivAt_exp u).ofReal_comp
    have h2 := (h1.smul_const (chi μ hS)).add_const (chi μ hS.compl)
    have e : (fun t : ℝ => ((hill μ hS (Function.update θ 0 t) : (rankOne (chi μ hS)).domain) : L2C μ)) = fun t : ℝ => ((Real.exp t : ℝ) : ℂ) • chi μ hS + chi μ hS.compl := by
      funext t
      show ((Real.exp (Function.update θ 0 t 0) : ℝ) : ℂ) • chi μ hS + chi μ hS.compl = _
      rw [Function.update_self]
    rw [e]
    exact h2
  refine ⟨fun θ k => ⟨fun t => hill_values hS _, (hd θ k _).differentiableAt, ?_, ?_, ?_⟩, ?_, ?_, ?_, ?_, ?_, ?_, ?_⟩
  · have : (fun t : ℝ => rankOne (chi μ hS) (hill μ hS (Function.update θ k t))) = fun t : ℝ => inner ℂ (chi μ hS) ((hill μ hS (Function.update θ k t) : (rankOne (chi μ hS)).domain) : L2C μ) • chi μ hS := rfl
    rw [this]
    exact (ContinuousAt.inner (𝕜 := ℂ) continuousAt_const (hd θ k _).continuousAt).smul continuousAt_const
  · refine Filter.Eventually.of_forall fun x => ?_
    obtain rfl : k = 0 := Subsingleton.elim _ _
    unfold hillValue
    by_cases hx : x ∈ S
    · simp only [hx, if_true, Function.update_self, one_mul]
      exact (Real.hasDerivAt_exp _).ofReal_comp
    · simp only [hx, if_false, zero_mul]
      exact hasDerivAt_const _ _
  · intro h
    have := (chi_inner hS hS2 hS3 (Function.update θ k (θ k))).2
    rw [h, inner_zero_left] at this
    have h2 : (Real.exp (2 * Function.update θ k (θ k) 0) + 1) / 2 = 0 := by exact_mod_cast this.symm
    have := Real.exp_pos (2 * Function.update θ k (θ k) 0)
    linarith
  · intro θ
    unfold IsLocalEnergy
    rw [rankOne_apply, (chi_inner hS hS2 hS3 θ).1]
    have e1 : chi μ hS =ᵐ[μ] S.indicator fun _ => (1 : ℂ) := indicatorConstLp_coeFn
    filter_upwards [hill_values hS θ, e1, Lp.coeFn_smul ((Real.exp (θ 0) / 2 : ℝ) : ℂ) (chi μ hS)] with x h1 h2 h3
    rw [h3, Pi.smul_apply, h1, h2]
    unfold hillValue
    by_cases hx : x ∈ S
    · simp [hx]
      ring
    · simp [hx]
  · intro θ k x
    split <;> simp
  · intro k
    exact Measurable.ite (measurable_snd hS) measurable_const measurable_const
  · exact Measurable.ite (measurable_snd hS) measurable_const measurable_const
  · intro θ k x
    split <;> simp
  · intro θ x
    split <;> norm_num
  · intro θ θ'
    simp only [hill_energy hS hS2 hS3, hill_incline hS hS2 hS3, Finset.univ_unique, Fin.default_eq_zero, Finset.sum_singleton]
    exact logistic_below (θ 0) (θ' 0)

theorem hill_spread (hS : MeasurableSet S) (hS2 : μ.real S = 1 / 2) (hS3 : μ.real Sᶜ = 1 / 2) : Spread μ (hillValue S) 2 := by
  have hz : ∀ θ : Fin 1 → ℝ, ∫ y, ‖hillValue S θ y‖ ^ 2 ∂μ = (Real.exp (2 * θ 0) + 1) / 2 := by
    intro θ
    have h4 : Real.exp (2 * θ 0) = Real.exp (θ 0) ^ 2 := by rw [← Real.exp_nat_mul]; norm_num
    have e : ∀ y, ‖hillValue S θ y‖ ^ 2 = S.indicator (fun _ => Real.exp (2 * θ 0)) y + Sᶜ.indicator (fun _ => (1 : ℝ)) y := fun y => by
      unfold hillValue
      by_cases hy : y ∈ S
      · simp only [hy, if_true, Set.indicator_of_mem, Complex.norm_real, Real.norm_eq_abs, sq_abs, h4, Set.mem_compl_iff, not_true_eq_false, not_false_eq_true, Set.indicator_of_notMem, add_zero]
      · simp [hy]
    simp only [e]
    rw [integral_add ((integrable_const _).indicator hS) ((integrable_const _).indicator hS.compl), integral_indicator_const _ hS, integral_indicator_const _ hS.compl, hS2, hS3]
    simp
    ring
  refine ⟨?_, fun θ => ?_, fun θ x => ?_⟩
  · refine Measurable.ite (measurable_snd hS) ?_ measurable_const
    fun_prop
  · rw [hz]; positivity
  · rw [hz]
    have h4 : Real.exp (2 * θ 0) = Real.exp (θ 0) ^ 2 := by rw [← Real.exp_nat_mul]; norm_num
    have := Real.exp_pos (2 * θ 0)
    unfold hillValue
    split
    · rw [Complex.norm_real, Real.norm_eq_abs, sq_abs, ← h4]
      linarith
    · simp
      linarith

end hill

/-- A particle on the unit circle: half of it. -/
theorem half_circle : (cells 1 (1 : Matrix (Fin 1) (Fin 1) ℝ)).real {x | x 0 0 < 1 / 2} = 1 / 2 ∧ (cells 1 (1 : Matrix (Fin 1) (Fin 1) ℝ)).real {x | x 0 0 < 1 / 2}ᶜ = 1 / 2 := by
  have hcell : {q : Fin 1 → ℝ | Geometry.Spec.InCell (1 : Matrix (Fin 1) (Fin 1) ℝ) q} = Set.univ.pi fun _ => Set.Ico (0 : ℝ) 1 := by
    ext q
    simp only [Set.mem_ofPred_eq, Set.mem_univ_pi, Set.mem_Ico]
    constructor
    · rintro ⟨r, hr, hq⟩ k
      have : q k = r k := by
        obtain rfl : k = 0 := Subsingleton.elim _ _
        rw [hq]; simp [Matrix.one_apply]
      rw [this]
      exact hr k
    · intro h
      exact ⟨q, h, fun k => by obtain rfl : k = 0 := Subsingleton.elim _ _; simp [Matrix.one_apply]⟩
  have main : ∀ I : Set ℝ, MeasurableSet I → (cells 1 (1 : Matrix (Fin 1) (Fin 1) ℝ)) {x | x 0 0 ∈ I} = volume (I ∩ Set.Ico 0 1) := by
    intro I hI
    have e1 : {x : Fin 1 → Fin 1 → ℝ | x 0 0 ∈ I} = Set.univ.pi fun _ => {y : Fin 1 → ℝ | y 0 ∈ I} := by
      ext x; simp
    have e2 : {y : Fin 1 → ℝ | y 0 ∈ I} ∩ (Set.univ.pi fun _ => Set.Ico (0 : ℝ) 1) = Set.univ.pi fun _ => I ∩ Set.Ico 0 1 := by
      ext y; simp
    unfold cells
    rw [hcell, e1, Measure.pi_pi]
    simp only [Finset.univ_unique, Finset.prod_singleton]
    have hm : MeasurableSet {y : Fin 1 → ℝ | y 0 ∈ I} := measurable_pi_apply 0 hI
    rw [Measure.restrict_apply hm, e2, volume_pi_pi]
    simp
  have a1 := main (Set.Iio (1 / 2)) measurableSet_Iio
  have a2 := main (Set.Ici (1 / 2)) measurableSet_Ici
  have i1 : Set.Iio (1 / 2 : ℝ) ∩ Set.Ico 0 1 = Set.Ico 0 (1 / 2) := by ext u; simp only [Set.mem_inter_iff, Set.mem_Iio, Set.mem_Ico]; grind
  have i2 : Set.Ici (1 / 2 : ℝ) ∩ Set.Ico 0 1 = Set.Ico (1 / 2) 1 := by ext u; simp only [Set.mem_inter_iff, Set.mem_Ici, Set.mem_Ico]; grind
  rw [i1, Real.volume_Ico] at a1
  rw [i2, Real.volume_Ico] at a2
  have ec : {x : Fin 1 → Fin 1 → ℝ | x 0 0 < 1 / 2}ᶜ = {x | x 0 0 ∈ Set.Ici (1 / 2)} := by ext x; simp
  refine ⟨?_, ?_⟩
  · show ((cells 1 (1 : Matrix (Fin 1) (Fin 1) ℝ)) {x | x 0 0 ∈ Set.Iio (1 / 2)}).toReal = _
    rw [a1]
    norm_num
  · rw [ec]
    show ((cells 1 (1 : Matrix (Fin 1) (Fin 1) ℝ)) {x | x 0 0 ∈ Set.Ici (1 / 2)}).toReal = _
    rw [a2]
    norm_num

/-- The parameter in a run for a particle on the unit circle and the wavefunction `e^θ` on one half and one on the other: two devices with three walkers each, all walkers placed at one
point, learning rate `η`, start at zero, default adaptation of the width. -/
noncomputable def hillRun (steps : ℕ) (r : RandomRng Ω Key (Fin 1 → Fin 1 → ℝ) 3) (keys : ℕ → Fin 2 → Key) (η : ℝ) (ω : Ω) (t : ℕ) : ℝ :=
  descended ⟨steps, 1 / 10, 100, 1 / 2, 55 / 100⟩ r (pbcMoveAll (1 : Matrix (Fin 1) (Fin 1) ℝ)) (hillValue {x | x 0 0 < 1 / 2}) "none" 5 (fun _ => η)
    (fun _ (_ : Fin 1) x => if x ∈ {x : Fin 1 → Fin 1 → ℝ | x 0 0 < 1 / 2} then 1 else 0) (fun _ x => if x ∈ {x : Fin 1 → Fin 1 → ℝ | x 0 0 < 1 / 2} then 1 / 2 else 0) keys
    (fun _ _ _ _ => 0) (fun _ => 0) ⟨1 / 10, [], 0⟩ ω t 0

/-- The energy has the derivative `e^(2θ) / (e^(2θ) + 1)²`, one fourth at the start.  With some learning rate, number of steps and number of updates its square is at most `1/100` on
average over the run. -/
example : ∃ (η : ℝ) (T : ℕ), 0 < η ∧ 0 < T ∧ ∃ (M : ℕ) (Ω Key : Type) (_ : MeasurableSpace Ω) (P : Measure Ω) (_ : IsProbabilityMeasure P)
    (r : RandomRng Ω Key (Fin 1 → Fin 1 → ℝ) 3) (keys : ℕ → Fin 2 → Key),
    (∑ t ∈ Finset.range T, ∫ ω, (Real.exp (2 * hillRun M r keys η ω t) / (Real.exp (2 * hillRun M r keys η ω t) + 1) ^ 2) ^ 2 ∂P) / T ≤ (1 / 100 : ℝ) := by
  have := cells_finite 1 (1 : Matrix (Fin 1) (Fin 1) ℝ)
  obtain ⟨s1, s2⟩ := half_circle
  have hS : MeasurableSet {x : Fin 1 → Fin 1 → ℝ | x 0 0 < 1 / 2} := measurableSet_lt (by fun_prop) measurable_const
  obtain ⟨η, T, h1, h2, h⟩ := c143_solid (1 : Matrix (Fin 1) (Fin 1) ℝ) (by simp) (LossGrad.Props.rankOne_symmetric _) (hill_landscape hS s1 s2) zero_le_one (hill_spread hS s1 s2) (E₀ := 0)
    (fun θ => by rw [hill_energy hS s1 s2]; positivity) 1 (σ := 1 / 10) (by norm_num) (ε := 1 / 100) (by norm_num)
  obtain ⟨M, h⟩ := h 2 3 (by norm_num)
  obtain ⟨Ω, Key, i1, P, i2, r, keys, D⟩ := c142_exists (Measure.pi fun _ : Fin 1 => Measure.pi fun _ : Fin 1 => gaussianReal 0 1) M 2 3 T fun _ _ => (0 : Fin 1 → Fin 1 → ℝ)
  refine ⟨η, T, h1, h2, M, Ω, Key, i1, P, i2, r, keys, ?_⟩
  have key := h Ω Key i1 P i2 5 ⟨M, 1 / 10, 100, 1 / 2, 55 / 100⟩ r keys (fun _ _ _ _ => 0) (fun _ => 0) ⟨1 / 10, [], 0⟩ rfl (by
    rw [hill_energy hS s1 s2]
    norm_num) D le_rfl
  simp only [steepness, hill_incline hS s1 s2, Finset.univ_unique, Fin.default_eq_zero, Finset.sum_singleton] at key
  unfold hillRun
  exact key

end Jaqmc.Average.Props
