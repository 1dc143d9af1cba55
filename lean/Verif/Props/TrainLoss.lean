import Verif.Lemmas.TrainLoss
import Verif.Props.Descent
/-!
C144: the loss a training step reports estimates the energy of the wavefunction it is reported for.
-/
namespace Jaqmc.Average.Props
open Jaqmc.Sampler Jaqmc.Sampler.Props Jaqmc.Average Jaqmc.Average.Spec Jaqmc.Average.Training Jaqmc.Average.Descent Jaqmc.Average.TrainLoss Jaqmc.LossGrad.Spec
open MeasureTheory ProbabilityTheory

set_option linter.unusedSectionVars false

variable {V N Ω Key Θ : Type} {n d : ℕ} [MeasurableSpace V] [MeasurableSpace N] [MeasurableSpace Ω] [MeasurableSpace Θ] {μ : Measure V} {ν : Measure N}
  {H : L2C μ →ₗ.[ℂ] L2C μ} {ψ : Θ → H.domain} {Ψ : Θ → V → ℂ} {e : Θ → V → ℂ} {E K : ℝ}

/-- The mean of the local energies over an independent sample. -/
theorem independent_loss [SFinite μ] (hs : Symmetric H) (L : LocalEnergies H ψ Ψ e E) (B : Spread μ Ψ K) (hd : 0 < d) (hn : 0 < n) (τ : Θ) :
    ∫ y, (lossOf (e τ) y).re ∂(Measure.pi fun _ : Fin d × Fin n => walkerLaw μ (Ψ τ)) = energy H (ψ τ) ∧
      ∫ y, (lossOf (e τ) y).im ∂(Measure.pi fun _ : Fin d × Fin n => walkerLaw μ (Ψ τ)) = 0 ∧
      ∫ y, ‖lossOf (e τ) y - (energy H (ψ τ) : ℂ)‖ ^ 2 ∂(Measure.pi fun _ : Fin d × Fin n => walkerLaw μ (Ψ τ)) ≤ E ^ 2 / ((d * n : ℕ) : ℝ) := by
  have := spread_prob B τ
  have : Nonempty (Fin d × Fin n) := ⟨⟨0, hd⟩, ⟨0, hn⟩⟩
  obtain ⟨i, h⟩ := energy_mean L hs τ
  have hc : Fintype.card (Fin d × Fin n) = d * n := by simp
  have s1 := sample_mean (ι := Fin d × Fin n) i.re
  have s2 := sample_mean (ι := Fin d × Fin n) i.im
  have s3 := sample_square (ι := Fin d × Fin n) (ρ := walkerLaw μ (Ψ τ)) (f := e τ) (L.measurable.comp measurable_prodMk_left) (L.bounded τ)
  have r1 : (∫ x, e τ x ∂walkerLaw μ (Ψ τ)).re = ∫ x, (e τ x).re ∂walkerLaw μ (Ψ τ) := (integral_re (𝕜 := ℂ) i).symm
  have r2 : (∫ x, e τ x ∂walkerLaw μ (Ψ τ)).im = ∫ x, (e τ x).im ∂walkerLaw μ (Ψ τ) := (integral_im (𝕜 := ℂ) i).symm
  rw [h] at r1 r2 s3
  rw [hc] at s3
  simp only [RCLike.re_to_complex, hc] at s1
  simp only [RCLike.im_to_complex, hc] at s2
  rw [← r1, Complex.ofReal_re] at s1
  rw [← r2, Complex.ofReal_im] at s2
  refine ⟨?_, ?_, s3⟩
  · rw [← s1]
    refine integral_congr_ae (Filter.Eventually.of_forall fun y => ?_)
    simp only [lossOf, Complex.div_natCast_re, Complex.re_sum]
  · rw [← s2]
    refine integral_congr_ae (Filter.Eventually.of_forall fun y => ?_)
    simp only [lossOf, Complex.div_natCast_im, Complex.im_sum]

attribute [local irreducible] lossOf energy

/-- For any random parameters and a batch near an independent sample from the wavefunction of these parameters. -/
theorem loss_core [SFinite μ] (hs : Symmetric H) (L : LocalEnergies H ψ Ψ e E) (B : Spread μ Ψ K) {P : Measure Ω} [IsProbabilityMeasure P] (hd : 0 < d) (hn : 0 < n) {θ : Ω → Θ}
    {X : Ω → Fin d × Fin n → V} (mθ : Measurable θ) (mX : Measurable X) {δ : ℝ}
    (near : ∀ φ : Θ × (Fin d × Fin n → V) → ℝ, Measurable φ → (∀ q, 0 ≤ φ q) → (∀ q, φ q ≤ 1) →
      |∫ ω, φ (θ ω, X ω) ∂P - ∫ ω, ∫ y, φ (θ ω, y) ∂(Measure.pi fun _ : Fin d × Fin n => walkerLaw μ (Ψ (θ ω))) ∂P| ≤ δ) :
    |∫ ω, (lossOf (e (θ ω)) (X ω)).re ∂P - ∫ ω, energy H (ψ (θ ω)) ∂P| ≤ 2 * E * δ ∧ |∫ ω, (lossOf (e (θ ω)) (X ω)).im ∂P| ≤ 2 * E * δ ∧
      ∫ ω, ‖lossOf (e (θ ω)) (X ω) - (energy H (ψ (θ ω)) : ℂ)‖ ^ 2 ∂P ≤ E ^ 2 / ((d * n : ℕ) : ℝ) + 4 * E ^ 2 * δ := by
  obtain ⟨ω₀⟩ : Nonempty Ω := nonempty_of_isProbabilityMeasure P
  have hE : 0 ≤ E := (abs_nonneg _).trans (energy_bound L hs B (θ ω₀))
  have mE : Measurable fun ω => energy H (ψ (θ ω)) := (energy_measurable L hs B).comp mθ
  have iE : Integrable (fun ω => energy H (ψ (θ ω))) P := bounded_int P mE fun ω => energy_bound L hs B (θ ω)
  have mL := loss_measurable (d := d) (n := n) L
  have mLω : Measurable fun ω => lossOf (e (θ ω)) (X ω) := mL.comp (mθ.prodMk mX)
  have bre : ∀ τ (y : Fin d × Fin n → V), |(lossOf (e τ) y).re| ≤ E := fun τ y => (Complex.abs_re_le_norm _).trans (loss_bound L hd hn τ y)
  have bim : ∀ τ (y : Fin d × Fin n → V), |(lossOf (e τ) y).im| ≤ E := fun τ y => (Complex.abs_im_le_norm _).trans (loss_bound L hd hn τ y)
  have mpi : ∀ τ : Θ, IsProbabilityMeasure (Measure.pi fun _ : Fin d × Fin n => walkerLaw μ (Ψ τ)) := fun τ => by
    have := spread_prob B τ
    infer_instance
  refine ⟨?_, ?_, ?_⟩
  · have key := near (fun q => ((lossOf (e q.1) q.2).re + E) / (2 * E)) (((Complex.measurable_re.comp mL).add_const E).div_const _) (fun q => (between (bre _ _)).1) fun q => (between (bre _ _)).2
    have inner : ∀ τ, ∫ y, ((lossOf (e τ) y).re + E) / (2 * E) ∂(Measure.pi fun _ : Fin d × Fin n => walkerLaw μ (Ψ τ)) = (energy H (ψ τ) + E) / (2 * E) := by
      intro τ
      have := mpi τ
      have i1 : Integrable (fun y => (lossOf (e τ) y).re) (Measure.pi fun _ : Fin d × Fin n => walkerLaw μ (Ψ τ)) :=
        bounded_int _ (Complex.measurable_re.comp (mL.comp measurable_prodMk_left)) (bre τ)
      rw [integral_div, integral_add i1 (integrable_const _), (independent_loss hs L B hd hn τ).1]
      simp
    simp only [inner] at key
    exact rescaled (bounded_int P (Complex.measurable_re.comp mLω) fun ω => bre _ _) iE hE (fun ω => bre _ _) (fun ω => energy_bound L hs B (θ ω)) key
  · have key := near (fun q => ((lossOf (e q.1) q.2).im + E) / (2 * E)) (((Complex.measurable_im.comp mL).add_const E).div_const _) (fun q => (between (bim _ _)).1) fun q => (between (bim _ _)).2
    have inner : ∀ τ, ∫ y, ((lossOf (e τ) y).im + E) / (2 * E) ∂(Measure.pi fun _ : Fin d × Fin n => walkerLaw μ (Ψ τ)) = (0 + E) / (2 * E) := by
      intro τ
      have := mpi τ
      have i1 : Integrable (fun y => (lossOf (e τ) y).im) (Measure.pi fun _ : Fin d × Fin n => walkerLaw μ (Ψ τ)) :=
        bounded_int _ (Complex.measurable_im.comp (mL.comp measurable_prodMk_left)) (bim τ)
      rw [integral_div, integral_add i1 (integrable_const _), (independent_loss hs L B hd hn τ).2.1]
      simp
    simp only [inner] at key
    have := rescaled (bounded_int P (Complex.measurable_im.comp mLω) fun ω => bim _ _) (integrable_const (0 : ℝ)) hE (fun ω => bim _ _) (fun ω => by simpa using hE) key
    simpa using this
  · obtain ⟨φ, hφ⟩ : ∃ φ : Θ × (Fin d × Fin n → V) → ℝ, ∀ q, φ q = ‖lossOf (e q.1) q.2 - (energy H (ψ q.1) : ℂ)‖ ^ 2 := ⟨_, fun _ => rfl⟩
    have mφ : Measurable φ := by
      rw [show φ = fun q => ‖lossOf (e q.1) q.2 - (energy H (ψ q.1) : ℂ)‖ ^ 2 from funext hφ]
      exact ((mL.sub (Complex.measurable_ofReal.comp ((energy_measurable L hs B).comp measurable_fst))).norm).pow_const 2
    have p0 : ∀ q, 0 ≤ φ q := fun q => by rw [hφ]; positivity
    have p1 : ∀ q, φ q ≤ 4 * E ^ 2 := fun q => by
      rw [hφ]
      have h1 : ‖lossOf (e q.1) q.2 - (energy H (ψ q.1) : ℂ)‖ ≤ E + E := (norm_sub_le _ _).trans (add_le_add (loss_bound L hd hn q.1 q.2) (by
        rw [Complex.norm_real]; exact energy_bound L hs B q.1))
      calc _ ≤ (E + E) ^ 2 := pow_le_pow_left₀ (norm_nonneg _) h1 2
        _ = _ := by ring
    have inner : ∀ τ, ∫ y, φ (τ, y) ∂(Measure.pi fun _ : Fin d × Fin n => walkerLaw μ (Ψ τ)) ≤ E ^ 2 / ((d * n : ℕ) : ℝ) := fun τ => by
      simp only [hφ]
      exact (independent_loss hs L B hd hn τ).2.2
    simp only [← hφ (θ _, X _)]
    rcases hE.eq_or_lt with h0 | h0
    · have z : ∀ q, φ q = 0 := fun q => le_antisymm ((p1 q).trans (by simp [← h0])) (p0 q)
      simp [z, ← h0]
    have hC : 0 < 4 * E ^ 2 := by positivity
    have key := near (fun q => φ q / (4 * E ^ 2)) (mφ.div_const _) (fun q => div_nonneg (p0 q) hC.le) (fun q => div_le_one_of_le₀ (p1 q) hC.le)
    simp only [integral_div] at key
    have h1 := (abs_le.mp key).2
    have h2 : ∫ ω, ∫ y, φ (θ ω, y) ∂(Measure.pi fun _ : Fin d × Fin n => walkerLaw μ (Ψ (θ ω))) ∂P ≤ E ^ 2 / ((d * n : ℕ) : ℝ) := by
      have : ∀ᵐ ω ∂P, ∫ y, φ (θ ω, y) ∂(Measure.pi fun _ : Fin d × Fin n => walkerLaw μ (Ψ (θ ω))) ≤ E ^ 2 / ((d * n : ℕ) : ℝ) := Filter.Eventually.of_forall fun ω => inner (θ ω)
      have := integral_mono_of_nonneg (Filter.Eventually.of_forall fun ω => integral_nonneg fun y => p0 _) (integrable_const (μ := P) _) this
      simpa using this
    rw [← sub_div, div_le_iff₀ hC] at h1
    linarith

/-- **C144.** The loss every step of a training run reports, whatever the optimizer does with it and however the local energies are clipped, is the energy of the wavefunction the
step begins with, up to an error with two sources: the finite number of walkers, and the walkers not having reached the wavefunction. -/
theorem c144_loss [SFinite μ] (hs : Symmetric H) (L : LocalEnergies H ψ Ψ e E) (B : Spread μ Ψ K) {move : ℝ → N → V → V} (hmv : ∀ σ, Measurable fun q : V × N => move σ q.2 q.1)
    {W : Set ℝ} {ρ : ℝ} (hT : TracksTraining μ ν Ψ move W ρ) {P : Measure Ω} [IsProbabilityMeasure P] (hd : 0 < d) (hn : 0 < n) {method : String}
    (hm : method = "iqr" ∨ method = "mad" ∨ method = "none") (scale : ℝ) (lg : Θ → V → ℂ) {cfg : Cfg} {r : RandomRng Ω Key N n} {update : ℕ → Θ → (Fin d → Batch Unit n V) → Θ}
    (hup : ∀ t, Measurable fun q : Θ × (Fin d × Fin n → V) => update t q.1 fun a _ i => q.2 (a, i)) {keys : ℕ → Fin d → Key} {x₀ : Ω → Fin d → Batch Unit n V} (τ₀ : Θ) (s : State) {T : ℕ}
    (D : Draws P ν cfg.steps r keys x₀ T) (hW : ∀ t < T, ∀ ω, trainWidth cfg r move Ψ update keys x₀ τ₀ s ω t ∈ W) :
    ∃ loss : ℕ → Ω → ℂ, (∀ t ω, trainLoss cfg r move Ψ update method scale lg e keys x₀ τ₀ s ω t = some (loss t ω)) ∧ ∀ t < T,
      |∫ ω, (loss t ω).re ∂P - ∫ ω, energy H (ψ (trained cfg r move Ψ update keys x₀ τ₀ s ω t)) ∂P| ≤ 4 * E * ((d * n : ℕ) : ℝ) * ρ ^ cfg.steps ∧
      |∫ ω, (loss t ω).im ∂P| ≤ 4 * E * ((d * n : ℕ) : ℝ) * ρ ^ cfg.steps ∧
      ∫ ω, ‖loss t ω - (energy H (ψ (trained cfg r move Ψ update keys x₀ τ₀ s ω t)) : ℂ)‖ ^ 2 ∂P ≤ E ^ 2 / ((d * n : ℕ) : ℝ) + 8 * E ^ 2 * ((d * n : ℕ) : ℝ) * ρ ^ cfg.steps := by
  refine ⟨fun t ω => lossOf (e (trained cfg r move Ψ update keys x₀ τ₀ s ω t)) fun w : Fin d × Fin n => trainWalkers cfg r move Ψ update keys x₀ τ₀ s ω (t + 1) w.1 () w.2,
    fun t ω => ?_, fun t ht => ?_⟩
  · obtain ⟨G, hG⟩ := loss_value hm hd hn scale (lg (trained cfg r move Ψ update keys x₀ τ₀ s ω t)) (e (trained cfg r move Ψ update keys x₀ τ₀ s ω t))
      (trainWalkers cfg r move Ψ update keys x₀ τ₀ s ω (t + 1))
    unfold trainLoss
    rw [hG]
  · have hu : ∀ k i ω, r.uniform k i ω ∈ Set.Ico (0 : ℝ) 1 := fun k i ω => (D.each i).range k ω
    have mrun := run_measurable (P := P) B hmv hup τ₀ s D hu
    have key := loss_core (δ := 2 * ((d * n : ℕ) : ℝ) * ρ ^ cfg.steps) hs L B hd hn (P := P) (θ := fun ω => trained cfg r move Ψ update keys x₀ τ₀ s ω t)
      (X := fun ω w => trainWalkers cfg r move Ψ update keys x₀ τ₀ s ω (t + 1) w.1 () w.2) (mrun t).1 (mrun (t + 1)).2 (fun φ mφ h0 h1 =>
        hT Ω Key _ P inferInstance n d cfg r update keys x₀ τ₀ s T D hup hW t ht (fun q => φ (q.1.1, q.2)) (mφ.comp (by fun_prop)) (fun q => h0 _) (fun q => h1 _))
    refine ⟨key.1.trans (le_of_eq (by ring)), key.2.1.trans (le_of_eq (by ring)), key.2.2.trans (le_of_eq (by ring))⟩

/-! ### Solids -/

open Jaqmc.Geometry Jaqmc.Geometry.Props.Sphere

/-- **C144.** Solids, the width adapted all along: with enough walkers, and enough updates of them in each step, the loss of each of the `T` steps is as near as one likes to the energy of the
wavefunction the step begins with, whatever the optimizer. -/
theorem c144_solid [Nonempty Θ] {m c : ℕ} (A : Matrix (Fin c) (Fin c) ℝ) (hA : IsUnit A.det) {H : L2C (cells m A) →ₗ.[ℂ] L2C (cells m A)} (hs : Symmetric H) {ψ : Θ → H.domain}
    {Ψ : Θ → (Fin m → Fin c → ℝ) → ℂ} {e : Θ → (Fin m → Fin c → ℝ) → ℂ} (L : LocalEnergies H ψ Ψ e E) (B : Spread (cells m A) Ψ K) {σ : ℝ} (hσ : σ ≠ 0) (T : ℕ) {ε : ℝ} (hε : 0 < ε) :
    ∃ M₀ : ℕ, ∀ d n : ℕ, M₀ ≤ d * n → ∃ M : ℕ, ∀ (Ω Key : Type) (_ : MeasurableSpace Ω) (P : Measure Ω) (_ : IsProbabilityMeasure P) (method : String)
        (_ : method = "iqr" ∨ method = "mad" ∨ method = "none") (scale : ℝ) (lg : Θ → (Fin m → Fin c → ℝ) → ℂ) (cfg : Cfg) (r : RandomRng Ω Key (Fin m → Fin c → ℝ) n)
        (update : ℕ → Θ → (Fin d → Batch Unit n (Fin m → Fin c → ℝ)) → Θ) (keys : ℕ → Fin d → Key) (x₀ : Ω → Fin d → Batch Unit n (Fin m → Fin c → ℝ)) (τ₀ : Θ) (s : State),
        s.stddev = σ → (∀ t, Measurable fun q : Θ × (Fin d × Fin n → Fin m → Fin c → ℝ) => update t q.1 fun a _ i => q.2 (a, i)) →
        Draws P (Measure.pi fun _ : Fin m => Measure.pi fun _ : Fin c => gaussianReal 0 1) cfg.steps r keys x₀ T → M ≤ cfg.steps →
        ∃ loss : ℕ → Ω → ℂ, (∀ t ω, trainLoss cfg r (pbcMoveAll A) Ψ update method scale lg e keys x₀ τ₀ s ω t = some (loss t ω)) ∧ ∀ t < T,
          ∫ ω, ‖loss t ω - (energy H (ψ (trained cfg r (pbcMoveAll A) Ψ update keys x₀ τ₀ s ω t)) : ℂ)‖ ^ 2 ∂P ≤ ε := by
  have := cells_finite m A
  obtain ⟨ρ, h0, h1, h⟩ := c142_solid A hA B (reachable_finite σ T)
    (by rintro ⟨j, _, hj⟩
        rcases mul_eq_zero.mp hj.symm with h | h
        · exact hσ h
        · exact absurd h (zpow_ne_zero j (by norm_num)))
    ⟨σ, 0, by simp, by simp⟩
  obtain ⟨M₀, hM₀⟩ := exists_nat_gt (2 * E ^ 2 / ε)
  refine ⟨M₀ + 1, fun d n hdn => ?_⟩
  have hd : 0 < d := Nat.pos_of_ne_zero fun h => by subst h; omega
  have hn : 0 < n := Nat.pos_of_ne_zero fun h => by subst h; omega
  obtain ⟨C, hC⟩ : ∃ C : ℝ, C = 8 * E ^ 2 * ((d * n : ℕ) : ℝ) := ⟨_, rfl⟩
  have hC0 : 0 ≤ C := by rw [hC]; positivity
  obtain ⟨M, hM⟩ := exists_pow_lt_of_lt_one (show 0 < ε / 2 / (C + 1) by positivity) h1
  refine ⟨M, fun Ω Key _ P _ method hm scale lg cfg r update keys x₀ τ₀ s hsσ hup D hMs => ?_⟩
  obtain ⟨loss, hl, key⟩ := c144_loss hs L B (pbcMoveAll_measurable A) h hd hn hm scale lg hup τ₀ s D
    (fun t ht ω => reachable_mono σ ht.le (hsσ ▸ trainWidth_reachable cfg r (pbcMoveAll A) Ψ update keys x₀ τ₀ s ω t))
  refine ⟨loss, hl, fun t ht => (key t ht).2.2.trans ?_⟩
  have hN : (M₀ : ℝ) ≤ ((d * n : ℕ) : ℝ) := by exact_mod_cast (Nat.le_succ _).trans hdn
  have hN0 : (0 : ℝ) < ((d * n : ℕ) : ℝ) := by exact_mod_cast Nat.mul_pos hd hn
  have e1 : E ^ 2 / ((d * n : ℕ) : ℝ) ≤ ε / 2 := by
    rw [div_le_iff₀ hN0]
    rw [div_lt_iff₀ hε] at hM₀
    nlinarith
  have hp : ρ ^ cfg.steps ≤ ε / 2 / (C + 1) := (pow_le_pow_of_le_one h0 h1.le hMs).trans hM.le
  rw [le_div_iff₀ (by positivity)] at hp
  have := pow_nonneg h0 cfg.steps
  rw [← hC]
  nlinarith

/-! ### The hypotheses can be met -/

/-- A particle on the unit circle, the wavefunction `e^θ` on one half and one on the other, plain gradient descent with any learning rate, local energies clipped in the default way for the
report: with enough walkers and updates each of the first hundred losses is, in mean square, within `1/100` of the energy `e^(2θ) / (2 (e^(2θ) + 1))`. -/
example (η : ℝ) : ∃ (n M : ℕ) (Ω Key : Type) (_ : MeasurableSpace Ω) (P : Measure Ω) (_ : IsProbabilityMeasure P) (r : RandomRng Ω Key (Fin 1 → Fin 1 → ℝ) n) (keys : ℕ → Fin 2 → Key)
    (θ : ℕ → Ω → ℝ) (loss : ℕ → Ω → ℂ),
    (∀ t ω, θ t ω = descended ⟨M, 1 / 10, 100, 1 / 2, 55 / 100⟩ r (pbcMoveAll (1 : Matrix (Fin 1) (Fin 1) ℝ)) (hillValue {x | x 0 0 < 1 / 2}) "none" 5 (fun _ => η)
      (fun _ (_ : Fin 1) x => if x ∈ {x : Fin 1 → Fin 1 → ℝ | x 0 0 < 1 / 2} then 1 else 0) (fun _ x => if x ∈ {x : Fin 1 → Fin 1 → ℝ | x 0 0 < 1 / 2} then 1 / 2 else 0) keys
      (fun _ _ _ _ => 0) (fun _ => 0) ⟨1 / 10, [], 0⟩ ω t 0) ∧
    (∀ t ω, trainLoss ⟨M, 1 / 10, 100, 1 / 2, 55 / 100⟩ r (pbcMoveAll (1 : Matrix (Fin 1) (Fin 1) ℝ)) (hillValue {x | x 0 0 < 1 / 2})
      (sgdUpdate "none" 5 (fun _ => η) (fun _ (_ : Fin 1) x => if x ∈ {x : Fin 1 → Fin 1 → ℝ | x 0 0 < 1 / 2} then 1 else 0)
        fun _ x => if x ∈ {x : Fin 1 → Fin 1 → ℝ | x 0 0 < 1 / 2} then 1 / 2 else 0) "mad" 5
      (fun _ x => if x ∈ {x : Fin 1 → Fin 1 → ℝ | x 0 0 < 1 / 2} then 1 else 0) (fun _ x => if x ∈ {x : Fin 1 → Fin 1 → ℝ | x 0 0 < 1 / 2} then 1 / 2 else 0) keys
      (fun _ _ _ _ => 0) (fun _ => 0) ⟨1 / 10, [], 0⟩ ω t = some (loss t ω)) ∧
    ∀ t < 100, ∫ ω, ‖loss t ω - (Real.exp (2 * θ t ω) / (2 * (Real.exp (2 * θ t ω) + 1)) : ℝ)‖ ^ 2 ∂P ≤ 1 / 100 := by
  have := cells_finite 1 (1 : Matrix (Fin 1) (Fin 1) ℝ)
  obtain ⟨s1, s2⟩ := half_circle
  have hS : MeasurableSet {x : Fin 1 → Fin 1 → ℝ | x 0 0 < 1 / 2} := measurableSet_lt (by fun_prop) measurable_const
  have LS := hill_landscape hS s1 s2
  have L : LocalEnergies (LossGrad.Props.rankOne (chi (cells 1 (1 : Matrix (Fin 1) (Fin 1) ℝ)) hS)) (hill (cells 1 (1 : Matrix (Fin 1) (Fin 1) ℝ)) hS) (hillValue {x | x 0 0 < 1 / 2}) (fun _ x => if x ∈ {x : Fin 1 → Fin 1 → ℝ | x 0 0 < 1 / 2} then 1 / 2 else 0) (1 / 2) := by
    refine ⟨fun θ => hill_values hS θ, fun θ h => ?_, LS.energies, LS.measurable_energy, LS.bound_energy⟩
    have h2 := (chi_inner hS s1 s2 θ).2
    rw [h, inner_zero_left] at h2
    have h3 : (Real.exp (2 * θ 0) + 1) / 2 = 0 := by exact_mod_cast h2.symm
    have := Real.exp_pos (2 * θ 0)
    linarith
  obtain ⟨n, h⟩ := c144_solid (1 : Matrix (Fin 1) (Fin 1) ℝ) (by simp) (LossGrad.Props.rankOne_symmetric _) L (hill_spread hS s1 s2) (σ := 1 / 10) (by norm_num) 100 (ε := 1 / 100) (by norm_num)
  obtain ⟨M, h⟩ := h 2 (n + 1) (by omega)
  obtain ⟨Ω, Key, i1, P, i2, r, keys, D⟩ := c142_exists (Measure.pi fun _ : Fin 1 => Measure.pi fun _ : Fin 1 => gaussianReal 0 1) M 2 (n + 1) 100 fun _ _ => (0 : Fin 1 → Fin 1 → ℝ)
  obtain ⟨loss, hl, key⟩ := h Ω Key i1 P i2 "mad" (Or.inr (Or.inl rfl)) 5 (fun _ x => if x ∈ {x : Fin 1 → Fin 1 → ℝ | x 0 0 < 1 / 2} then 1 else 0) ⟨M, 1 / 10, 100, 1 / 2, 55 / 100⟩ r
    _ keys (fun _ _ _ _ => 0) (fun _ => 0) ⟨1 / 10, [], 0⟩ rfl (sgd_measurable LS (by norm_num) (by omega) 5 fun _ => η) D le_rfl
  refine ⟨n + 1, M, Ω, Key, i1, P, i2, r, keys, _, loss, fun t ω => rfl, hl, fun t ht => ?_⟩
  have := key t ht
  simp only [hill_energy hS s1 s2] at this
  exact this

end Jaqmc.Average.Props
