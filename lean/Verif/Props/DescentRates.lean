import Verif.Props.Descent
import Verif.Props.Schedule
import Mathlib.Analysis.PSeries
/-!
C145: plain gradient descent with the schedules of `src/jaqmc/optimizer/schedule.py`, the default for `optax.sgd`, optimizer/optax.py:46-54.
-/
namespace Jaqmc.Average.Props
open Jaqmc.Sampler Jaqmc.Sampler.Props Jaqmc.Average Jaqmc.Average.Spec Jaqmc.Average.Training Jaqmc.Average.Descent Jaqmc.LossGrad.Spec Jaqmc.Schedule
open MeasureTheory ProbabilityTheory Filter
open scoped ENNReal Classical

set_option linter.unusedSectionVars false

/-- Learning rates that go to zero, but not so fast that their sum stays bounded: their squares matter less and less. -/
theorem rates_enough {η : ℕ → ℝ} (h0 : ∀ t, 0 ≤ η t) (hz : Tendsto η atTop (nhds 0)) (hs : Tendsto (fun T => ∑ t ∈ Finset.range T, η t) atTop atTop) (D : ℝ) {c₁ : ℝ} (hc : 0 ≤ c₁)
    {ε : ℝ} (hε : 0 < ε) : ∃ T₀ : ℕ, ∀ T, T₀ ≤ T → 0 < ∑ t ∈ Finset.range T, η t ∧ D + c₁ * ∑ t ∈ Finset.range T, η t ^ 2 ≤ ε * ∑ t ∈ Finset.range T, η t := by
  obtain ⟨δ, hδ⟩ : ∃ δ : ℝ, δ = ε / (2 * (c₁ + 1)) := ⟨_, rfl⟩
  have hδ0 : 0 < δ := by rw [hδ]; positivity
  have hcδ : c₁ * δ ≤ ε / 2 := by
    rw [hδ, mul_div_assoc', div_le_iff₀ (by positivity)]
    nlinarith
  obtain ⟨t₀, ht₀⟩ := eventually_atTop.mp (hz.eventually (gt_mem_nhds hδ0))
  have sq : ∀ T, ∑ t ∈ Finset.range T, η t ^ 2 ≤ ∑ t ∈ Finset.range t₀, η t ^ 2 + δ * ∑ t ∈ Finset.range T, η t := by
    intro T
    rcases le_total T t₀ with h | h
    · have h1 := Finset.sum_le_sum_of_subset_of_nonneg (Finset.range_mono h) fun t _ _ => sq_nonneg (η t)
      have h2 : 0 ≤ δ * ∑ t ∈ Finset.range T, η t := mul_nonneg hδ0.le (Finset.sum_nonneg fun t _ => h0 t)
      linarith
    · induction T, h using Nat.le_induction with
      | base =>
        have h2 : 0 ≤ δ * ∑ t ∈ Finset.range t₀, η t := mul_nonneg hδ0.le (Finset.sum_nonneg fun t _ => h0 t)
        linarith
      | succ T h ih =>
        rw [Finset.sum_range_succ, Finset.sum_range_succ _ T]
        have := mul_le_mul_of_nonneg_right (ht₀ T h).le (h0 T)
        nlinarith
  obtain ⟨T₀, hT₀⟩ := eventually_atTop.mp (hs.eventually_ge_atTop (max 1 ((D + c₁ * ∑ t ∈ Finset.range t₀, η t ^ 2) / (ε / 2))))
  refine ⟨T₀, fun T hT => ?_⟩
  have h1 := hT₀ T hT
  have h2 : 1 ≤ ∑ t ∈ Finset.range T, η t := (le_max_left _ _).trans h1
  have h3 := (le_max_right _ _).trans h1
  rw [div_le_iff₀ (by positivity)] at h3
  have h4 := mul_le_mul_of_nonneg_left (sq T) hc
  refine ⟨by linarith, ?_⟩
  nlinarith

variable {V N Ω Key : Type} {n d p : ℕ} [MeasurableSpace V] [MeasurableSpace N] [MeasurableSpace Ω] {μ : Measure V} {ν : Measure N} {G E Λ K : ℝ}

open Jaqmc.Geometry Jaqmc.Geometry.Props.Sphere

/-- **C145.** Solids, the width adapted all along, plain gradient descent with any learning rates that go to zero and have an unbounded sum, however large they are in the beginning. -/
theorem c145_rates {m c : ℕ} (A : Matrix (Fin c) (Fin c) ℝ) (hA : IsUnit A.det) {H : L2C (cells m A) →ₗ.[ℂ] L2C (cells m A)} (hs : Symmetric H) {ψ : (Fin p → ℝ) → H.domain}
    {Ψ : (Fin p → ℝ) → (Fin m → Fin c → ℝ) → ℂ} {g : (Fin p → ℝ) → Fin p → (Fin m → Fin c → ℝ) → ℂ} {e : (Fin p → ℝ) → (Fin m → Fin c → ℝ) → ℂ} (L : Landscape H ψ Ψ g e G E Λ)
    (hΛ : 0 ≤ Λ) (B : Spread (cells m A) Ψ K) {E₀ : ℝ} (low : ∀ θ, E₀ ≤ energy H (ψ θ)) (E₁ : ℝ) {σ : ℝ} (hσ : σ ≠ 0) {η : ℕ → ℝ} (h0 : ∀ t, 0 ≤ η t) (hz : Tendsto η atTop (nhds 0))
    (hsum : Tendsto (fun T => ∑ t ∈ Finset.range T, η t) atTop atTop) {ε : ℝ} (hε : 0 < ε) :
    ∃ T₀ : ℕ, ∀ T, T₀ ≤ T → 0 < ∑ t ∈ Finset.range T, η t ∧ ∀ d n : ℕ, 2 ≤ d * n → ∃ M : ℕ,
      ∀ (Ω Key : Type) (_ : MeasurableSpace Ω) (P : Measure Ω) (_ : IsProbabilityMeasure P) (scale : ℝ) (cfg : Cfg) (r : RandomRng Ω Key (Fin m → Fin c → ℝ) n)
        (keys : ℕ → Fin d → Key) (x₀ : Ω → Fin d → Batch Unit n (Fin m → Fin c → ℝ)) (θ₀ : Fin p → ℝ) (s : State), s.stddev = σ → energy H (ψ θ₀) ≤ E₁ →
        Draws P (Measure.pi fun _ : Fin m => Measure.pi fun _ : Fin c => gaussianReal 0 1) cfg.steps r keys x₀ T → M ≤ cfg.steps →
        (∑ t ∈ Finset.range T, η t * ∫ ω, steepness H ψ (descended cfg r (pbcMoveAll A) Ψ "none" scale η g e keys x₀ θ₀ s ω t) ∂P) / (∑ t ∈ Finset.range T, η t) ≤ ε := by
  have := cells_finite m A
  obtain ⟨T₀, hT₀⟩ := rates_enough h0 hz hsum (max (E₁ - E₀) 0) (c₁ := Λ / 2 * (p * (4 * G * E) ^ 2)) (by positivity) (ε := ε / 4) (by positivity)
  refine ⟨T₀, fun T hT => ⟨(hT₀ T hT).1, fun d n hdn => ?_⟩⟩
  obtain ⟨hpS, hset⟩ := hT₀ T hT
  obtain ⟨ρ, hρ0, hρ1, h⟩ := c142_solid A hA B (reachable_finite σ T)
    (by rintro ⟨j, _, hj⟩
        rcases mul_eq_zero.mp hj.symm with h | h
        · exact hσ h
        · exact absurd h (zpow_ne_zero j (by norm_num)))
    ⟨σ, 0, by simp, by simp⟩
  have hd : 0 < d := Nat.pos_of_ne_zero fun h => by subst h; omega
  have hn : 0 < n := Nat.pos_of_ne_zero fun h => by subst h; omega
  obtain ⟨C, hC⟩ : ∃ C : ℝ, C = p * (128 * (G * E) ^ 2) * ((d * n : ℕ) : ℝ) := ⟨_, rfl⟩
  have hC0 : 0 ≤ C := by rw [hC]; positivity
  obtain ⟨M, hM⟩ := exists_pow_lt_of_lt_one (show 0 < ε / 4 / (C + 1) by positivity) hρ1
  refine ⟨M, fun Ω Key _ P _ scale cfg r keys x₀ θ₀ s hsσ hE D hMs => ?_⟩
  have key := c143_descent hs L hΛ B (pbcMoveAll_measurable A) h low hd hn scale h0 θ₀ s D
    (fun t ht ω => reachable_mono σ ht.le (hsσ ▸ trainWidth_reachable cfg r (pbcMoveAll A) Ψ _ keys x₀ θ₀ s ω t))
  rw [← hC] at key
  have hN : (2 : ℝ) ≤ ((d * n : ℕ) : ℝ) := by exact_mod_cast hdn
  have hA2 : (1 : ℝ) / 2 ≤ 1 - 1 / ((d * n : ℕ) : ℝ) := by
    have : 1 / ((d * n : ℕ) : ℝ) ≤ 1 / 2 := one_div_le_one_div_of_le (by norm_num) hN
    linarith
  obtain ⟨S, hS⟩ : ∃ S : ℝ, S = ∑ t ∈ Finset.range T, η t * ∫ ω, steepness H ψ (descended cfg r (pbcMoveAll A) Ψ "none" scale η g e keys x₀ θ₀ s ω t) ∂P := ⟨_, rfl⟩
  have hS0 : 0 ≤ S := by
    rw [hS]
    exact Finset.sum_nonneg fun t _ => mul_nonneg (h0 t) (integral_nonneg fun ω => Finset.sum_nonneg fun k _ => sq_nonneg _)
  rw [← hS] at key ⊢
  obtain ⟨R, hR⟩ : ∃ R : ℝ, R = ∑ t ∈ Finset.range T, η t := ⟨_, rfl⟩
  rw [← hR] at key hset hpS ⊢
  have hp : ρ ^ cfg.steps ≤ ε / 4 / (C + 1) := (pow_le_pow_of_le_one hρ0 hρ1.le hMs).trans hM.le
  rw [le_div_iff₀ (by positivity)] at hp
  have hp0 := pow_nonneg hρ0 cfg.steps
  have h1 : C * ρ ^ cfg.steps * R ≤ ε / 4 * R := mul_le_mul_of_nonneg_right (by nlinarith) hpS.le
  have h2 := mul_le_mul_of_nonneg_right hA2 hS0
  have h3 := le_max_left (E₁ - E₀) 0
  rw [div_le_iff₀ hpS]
  linarith

/-! ### The schedules -/

theorem standard_floor {rate delay decay : ℝ} (hr : 0 < rate) (hd : 0 < delay) (h1 : decay ≤ 1) (t : ℕ) : rate * min 1 delay * (1 / ((t : ℝ) + 1)) ≤ standard rate delay decay t := by
  have hq : 0 < 1 + (t : ℝ) / delay := by positivity
  have hm : 0 < min 1 delay := lt_min one_pos hd
  have hb : 1 / (1 + (t : ℝ) / delay) ≤ 1 := by
    rw [div_le_one hq]
    have : 0 ≤ (t : ℝ) / delay := by positivity
    linarith
  have h2 : (1 / (1 + (t : ℝ) / delay)) ≤ (1 / (1 + (t : ℝ) / delay)) ^ decay := by
    have := Real.rpow_le_rpow_of_exponent_ge (by positivity) hb h1
    rwa [Real.rpow_one] at this
  have h3 : min 1 delay * (1 / ((t : ℝ) + 1)) ≤ 1 / (1 + (t : ℝ) / delay) := by
    rw [mul_one_div, div_le_div_iff₀ (by positivity) hq]
    have e1 : min 1 delay * ((t : ℝ) / delay) ≤ t := by
      rw [mul_div_assoc', div_le_iff₀ hd, mul_comm]
      exact mul_le_mul_of_nonneg_left (min_le_right _ _) (Nat.cast_nonneg _)
    have e2 := min_le_left (1 : ℝ) delay
    nlinarith
  unfold standard
  rw [mul_assoc]
  exact mul_le_mul_of_nonneg_left (h3.trans h2) hr.le

/-- The standard schedule with an exponent at most one keeps going. -/
theorem standard_unbounded {rate delay decay : ℝ} (hr : 0 < rate) (hd : 0 < delay) (h1 : decay ≤ 1) :
    Tendsto (fun T => ∑ t ∈ Finset.range T, standard rate delay decay t) atTop atTop := by
  have hm : 0 < min 1 delay := lt_min one_pos hd
  have := Real.tendsto_sum_range_one_div_nat_succ_atTop.const_mul_atTop (mul_pos hr hm)
  refine tendsto_atTop_mono (fun T => ?_) this
  rw [Finset.mul_sum]
  exact Finset.sum_le_sum fun t _ => standard_floor hr hd h1 t

theorem standard_vanishes {rate delay decay : ℝ} (hr : 0 < rate) (hd : 0 < delay) (h0 : 0 < decay) : Tendsto (standard rate delay decay) atTop (nhds 0) := by
  obtain ⟨_, hpos, _, _, hz, _⟩ := Schedule.Props.c41_standard rate delay decay hr hd h0.le
  rw [Metric.tendsto_atTop]
  intro ε hε
  obtain ⟨T, hT⟩ := hz h0 ε hε
  refine ⟨T, fun t ht => ?_⟩
  rw [Real.dist_eq, sub_zero, abs_of_pos (hpos t)]
  exact hT t ht

theorem standard_summable {rate delay decay : ℝ} (hr : 0 < rate) (hd : 0 < delay) (h1 : 1 < decay) : Summable (standard rate delay decay) := by
  obtain ⟨_, hpos, _⟩ := Schedule.Props.c41_standard rate delay decay hr hd (by linarith)
  have hM : 0 < max 1 delay := lt_max_of_lt_left one_pos
  have hs : Summable fun t : ℕ => rate * max 1 delay ^ decay * (1 / ((t : ℝ) + 1) ^ decay) := by
    have := (summable_nat_add_iff 1).mpr (Real.summable_one_div_nat_rpow.mpr h1)
    refine (this.mul_left (rate * max 1 delay ^ decay)).congr fun t => ?_
    push_cast
    ring
  refine hs.of_nonneg_of_le (fun t => (hpos t).le) fun t => ?_
  have hq : 0 < 1 + (t : ℝ) / delay := by positivity
  have h3 : 1 / (1 + (t : ℝ) / delay) ≤ max 1 delay * (1 / ((t : ℝ) + 1)) := by
    rw [mul_one_div, div_le_div_iff₀ hq (by positivity)]
    have e1 : (t : ℝ) ≤ max 1 delay * ((t : ℝ) / delay) := by
      rw [mul_div_assoc', le_div_iff₀ hd, mul_comm (max 1 delay)]
      exact mul_le_mul_of_nonneg_left (le_max_right _ _) (Nat.cast_nonneg _)
    have e2 := le_max_left (1 : ℝ) delay
    nlinarith
  have h4 := Real.rpow_le_rpow (by positivity) h3 (by linarith : 0 ≤ decay)
  have h5 : (1 / ((t : ℝ) + 1)) ^ decay = 1 / ((t : ℝ) + 1) ^ decay := by rw [Real.div_rpow zero_le_one (by positivity), Real.one_rpow]
  rw [Real.mul_rpow hM.le (by positivity), h5] at h4
  unfold standard
  rw [mul_assoc]
  exact mul_le_mul_of_nonneg_left h4 hr.le

/-- **C145.** The standard schedule, the default of `sgd`, with an exponent at most one: there is a number of steps from which on, for any number of walkers, two at least, and enough updates
between the steps, some step of the run has parameters where the energy is as flat as one likes, and so on average with the learning rates as weights. -/
theorem c145_schedule {m c : ℕ} (A : Matrix (Fin c) (Fin c) ℝ) (hA : IsUnit A.det) {H : L2C (cells m A) →ₗ.[ℂ] L2C (cells m A)} (hs : Symmetric H) {ψ : (Fin p → ℝ) → H.domain}
    {Ψ : (Fin p → ℝ) → (Fin m → Fin c → ℝ) → ℂ} {g : (Fin p → ℝ) → Fin p → (Fin m → Fin c → ℝ) → ℂ} {e : (Fin p → ℝ) → (Fin m → Fin c → ℝ) → ℂ} (L : Landscape H ψ Ψ g e G E Λ)
    (hΛ : 0 ≤ Λ) (B : Spread (cells m A) Ψ K) {E₀ : ℝ} (low : ∀ θ, E₀ ≤ energy H (ψ θ)) (E₁ : ℝ) {σ : ℝ} (hσ : σ ≠ 0) {rate delay decay : ℝ} (hr : 0 < rate) (hdl : 0 < delay)
    (h0 : 0 < decay) (h1 : decay ≤ 1) {ε : ℝ} (hε : 0 < ε) :
    ∃ T₀ : ℕ, ∀ T, T₀ ≤ T → ∀ d n : ℕ, 2 ≤ d * n → ∃ M : ℕ,
      ∀ (Ω Key : Type) (_ : MeasurableSpace Ω) (P : Measure Ω) (_ : IsProbabilityMeasure P) (scale : ℝ) (cfg : Cfg) (r : RandomRng Ω Key (Fin m → Fin c → ℝ) n)
        (keys : ℕ → Fin d → Key) (x₀ : Ω → Fin d → Batch Unit n (Fin m → Fin c → ℝ)) (θ₀ : Fin p → ℝ) (s : State), s.stddev = σ → energy H (ψ θ₀) ≤ E₁ →
        Draws P (Measure.pi fun _ : Fin m => Measure.pi fun _ : Fin c => gaussianReal 0 1) cfg.steps r keys x₀ T → M ≤ cfg.steps →
        (∑ t ∈ Finset.range T, standard rate delay decay t *
            ∫ ω, steepness H ψ (descended cfg r (pbcMoveAll A) Ψ "none" scale (standard rate delay decay) g e keys x₀ θ₀ s ω t) ∂P) /
          (∑ t ∈ Finset.range T, standard rate delay decay t) ≤ ε ∧
        ∃ t < T, ∫ ω, steepness H ψ (descended cfg r (pbcMoveAll A) Ψ "none" scale (standard rate delay decay) g e keys x₀ θ₀ s ω t) ∂P ≤ ε := by
  obtain ⟨_, hpos, _⟩ := Schedule.Props.c41_standard rate delay decay hr hdl h0.le
  obtain ⟨T₀, h⟩ := c145_rates A hA hs L hΛ B low E₁ hσ (fun t => (hpos t).le) (standard_vanishes hr hdl h0) (standard_unbounded hr hdl h1) hε
  refine ⟨T₀, fun T hT d n hdn => ?_⟩
  obtain ⟨hpS, h⟩ := h T hT
  obtain ⟨M, h⟩ := h d n hdn
  refine ⟨M, fun Ω Key i1 P i2 scale cfg r keys x₀ θ₀ s hsσ hE D hM => ?_⟩
  have key := h Ω Key i1 P i2 scale cfg r keys x₀ θ₀ s hsσ hE D hM
  refine ⟨key, ?_⟩
  by_contra hn
  push Not at hn
  rw [div_le_iff₀ hpS, Finset.mul_sum] at key
  refine absurd key (not_le.mpr (Finset.sum_lt_sum_of_nonempty (Finset.nonempty_range_iff.mpr ?_) fun t ht => ?_))
  · rintro rfl
    simp at hpS
  · rw [mul_comm ε]
    exact mul_lt_mul_of_pos_left (hn t (Finset.mem_range.mp ht)) (hpos t)

/-- **C145.** With an exponent above one the run comes to a halt wherever it is: the parameters never leave a neighbourhood of the start, the same for all runs. -/
theorem c145_halt {H : L2C μ →ₗ.[ℂ] L2C μ} {ψ : (Fin p → ℝ) → H.domain} {Ψ : (Fin p → ℝ) → V → ℂ} {g : (Fin p → ℝ) → Fin p → V → ℂ} {e : (Fin p → ℝ) → V → ℂ}
    (L : Landscape H ψ Ψ g e G E Λ) {rate delay decay : ℝ} (hr : 0 < rate) (hdl : 0 < delay) (h1 : 1 < decay) :
    ∃ R : ℝ, ∀ (d n : ℕ), 0 < d → 0 < n → ∀ (Ω Key : Type) (scale : ℝ) (cfg : Cfg) (r : RandomRng Ω Key N n) (move : ℝ → N → V → V) (keys : ℕ → Fin d → Key) (x₀ : Ω → Fin d → Batch Unit n V)
      (θ₀ : Fin p → ℝ) (s : State) (ω : Ω) (t : ℕ) (k : Fin p), |descended cfg r move Ψ "none" scale (standard rate delay decay) g e keys x₀ θ₀ s ω t k - θ₀ k| ≤ R := by
  obtain ⟨_, hpos, _⟩ := Schedule.Props.c41_standard rate delay decay hr hdl (by linarith)
  have hsum := standard_summable hr hdl h1
  refine ⟨4 * |G * E| * ∑' t, standard rate delay decay t, fun d n hd hn Ω Key scale cfg r move keys x₀ θ₀ s ω t k => ?_⟩
  have step : ∀ t, |descended cfg r move Ψ "none" scale (standard rate delay decay) g e keys x₀ θ₀ s ω t k - θ₀ k| ≤ 4 * |G * E| * ∑ u ∈ Finset.range t, standard rate delay decay u := by
    intro t
    induction t with
    | zero => simp [descended, trained, trainRun]
    | succ t ih =>
      have e1 : descended cfg r move Ψ "none" scale (standard rate delay decay) g e keys x₀ θ₀ s ω (t + 1) k = descended cfg r move Ψ "none" scale (standard rate delay decay) g e keys x₀ θ₀ s ω t k -
          standard rate delay decay t * gradOf (g (descended cfg r move Ψ "none" scale (standard rate delay decay) g e keys x₀ θ₀ s ω t) k)
            (e (descended cfg r move Ψ "none" scale (standard rate delay decay) g e keys x₀ θ₀ s ω t))
            (fun w => trainWalkers cfg r move Ψ (sgdUpdate "none" scale (standard rate delay decay) g e) keys x₀ θ₀ s ω (t + 1) w.1 () w.2) := sgd_eq hd hn scale _ t _ _ k
      have hb := grad_bound (d := d) (n := n) L hd hn k (descended cfg r move Ψ "none" scale (standard rate delay decay) g e keys x₀ θ₀ s ω t)
        (fun w => trainWalkers cfg r move Ψ (sgdUpdate "none" scale (standard rate delay decay) g e) keys x₀ θ₀ s ω (t + 1) w.1 () w.2)
      have hb2 := hb.trans (by rw [mul_assoc]; exact mul_le_mul_of_nonneg_left (le_abs_self _) (by norm_num) : 4 * G * E ≤ 4 * |G * E|)
      have h3 := mul_le_mul_of_nonneg_left hb2 (hpos t).le
      rw [Finset.sum_range_succ, mul_add, e1, sub_right_comm]
      refine (abs_sub _ _).trans (add_le_add ih ?_)
      rw [abs_mul, abs_of_pos (hpos t), mul_comm (4 * |G * E|)]
      exact h3
  refine (step t).trans (mul_le_mul_of_nonneg_left (hsum.sum_le_tsum _ fun u _ => (hpos u).le) (by positivity))

/-! ### The hypotheses can be met -/

/-- The particle on the unit circle of C143 with the default schedule: rate 0.05, delay 2000, exponent 1. -/
example : ∃ (T M : ℕ) (Ω Key : Type) (_ : MeasurableSpace Ω) (P : Measure Ω) (_ : IsProbabilityMeasure P) (r : RandomRng Ω Key (Fin 1 → Fin 1 → ℝ) 3) (keys : ℕ → Fin 2 → Key) (θ : ℕ → Ω → ℝ),
    (∀ t ω, θ t ω = descended ⟨M, 1 / 10, 100, 1 / 2, 55 / 100⟩ r (pbcMoveAll (1 : Matrix (Fin 1) (Fin 1) ℝ)) (hillValue {x | x 0 0 < 1 / 2}) "none" 5 (standard 0.05 2000 1)
      (fun _ (_ : Fin 1) x => if x ∈ {x : Fin 1 → Fin 1 → ℝ | x 0 0 < 1 / 2} then 1 else 0) (fun _ x => if x ∈ {x : Fin 1 → Fin 1 → ℝ | x 0 0 < 1 / 2} then 1 / 2 else 0) keys
      (fun _ _ _ _ => 0) (fun _ => 0) ⟨1 / 10, [], 0⟩ ω t 0) ∧
    ∃ t < T, ∫ ω, (Real.exp (2 * θ t ω) / (Real.exp (2 * θ t ω) + 1) ^ 2) ^ 2 ∂P ≤ (1 / 100 : ℝ) := by
  have := cells_finite 1 (1 : Matrix (Fin 1) (Fin 1) ℝ)
  obtain ⟨s1, s2⟩ := half_circle
  have hS : MeasurableSet {x : Fin 1 → Fin 1 → ℝ | x 0 0 < 1 / 2} := measurableSet_lt (by fun_prop) measurable_const
  obtain ⟨T, h⟩ := c145_schedule (1 : Matrix (Fin 1) (Fin 1) ℝ) (by simp) (LossGrad.Props.rankOne_symmetric _) (hill_landscape hS s1 s2) zero_le_one (hill_spread hS s1 s2) (E₀ := 0)
    (fun θ => by rw [hill_energy hS s1 s2]; positivity) 1 (σ := 1 / 10) (by norm_num) (rate := 0.05) (delay := 2000) (decay := 1) (by norm_num) (by norm_num) (by norm_num) le_rfl
    (ε := 1 / 100) (by norm_num)
  obtain ⟨M, h⟩ := h T le_rfl 2 3 (by norm_num)
  obtain ⟨Ω, Key, i1, P, i2, r, keys, D⟩ := c142_exists (Measure.pi fun _ : Fin 1 => Measure.pi fun _ : Fin 1 => gaussianReal 0 1) M 2 3 T fun _ _ => (0 : Fin 1 → Fin 1 → ℝ)
  refine ⟨T, M, Ω, Key, i1, P, i2, r, keys, _, fun t ω => rfl, ?_⟩
  obtain ⟨_, t, ht, key⟩ := h Ω Key i1 P i2 5 ⟨M, 1 / 10, 100, 1 / 2, 55 / 100⟩ r keys (fun _ _ _ _ => 0) (fun _ => 0) ⟨1 / 10, [], 0⟩ rfl (by
    rw [hill_energy hS s1 s2]
    norm_num) D le_rfl
  simp only [steepness, hill_incline hS s1 s2, Finset.univ_unique, Fin.default_eq_zero, Finset.sum_singleton] at key
  exact ⟨t, ht, key⟩

end Jaqmc.Average.Props
