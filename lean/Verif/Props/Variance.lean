import Verif.Lemmas.Variance
import Verif.Lemmas.Readings
import Verif.Props.Average
/-!
C140: what the variance an evaluation reports beside its energy measures.
-/
namespace Jaqmc.Average.Props
open Jaqmc.Sampler Jaqmc.Sampler.Props Jaqmc.Average Jaqmc.Average.Spec Jaqmc.Average.Variance Jaqmc.LossGrad.Spec
open MeasureTheory ProbabilityTheory
open scoped ENNReal Classical

set_option linter.unusedSectionVars false

variable {V N Ω Key : Type} {n d : ℕ} [MeasurableSpace V] [MeasurableSpace N] [MeasurableSpace Ω] {P : Measure Ω} [IsProbabilityMeasure P] {ν : Measure N} {μ : Measure V}

/-! ### The reported numbers -/

theorem stepVar_eq (hd : 0 < d) (hn : 0 < n) (e : V → ℂ) (x : Fin d → Batch Unit n V) :
    stepVar e x = some (spread fun w : Fin d × Fin n => (e (x w.1 () w.2)).re) := by
  have cn : (n : ℝ) ≠ 0 := by exact_mod_cast hn.ne'
  have cd : (d : ℝ) ≠ 0 := by exact_mod_cast hd.ne'
  have key : ∀ f : ℝ → ℝ, Stats.pmean (((List.finRange d).map fun a => (List.finRange n).map fun i => some (f (e (x a () i)).re)).map Stats.nanmean) =
      some ((∑ w : Fin d × Fin n, f (e (x w.1 () w.2)).re) / (Fintype.card (Fin d × Fin n) : ℝ)) := by
    intro f
    unfold Stats.pmean
    rw [List.map_map]
    have : (Stats.nanmean ∘ fun a => (List.finRange n).map fun i => some (f (e (x a () i)).re)) = some ∘ fun a => (∑ i, f (e (x a () i)).re) / (n : ℝ) := by
      funext a
      have h := nanmean_some ((List.finRange n).map fun i => f (e (x a () i)).re) (by simp [List.finRange_eq_nil_iff]; omega)
      rw [List.map_map] at h
      simp only [Function.comp_def] at h ⊢
      rw [h, ← List.ofFn_eq_map, List.sum_ofFn, List.length_ofFn]
    rw [this, ← List.map_map, nmean_some _ (by simp [List.finRange_eq_nil_iff]; omega), ← List.ofFn_eq_map, List.sum_ofFn, List.length_ofFn,
      Fintype.sum_prod_type, ← Finset.sum_div, Fintype.card_prod, Fintype.card_fin, Fintype.card_fin, div_div]
    push_cast
    rw [mul_comm (n : ℝ)]
  unfold stepVar Stats.varOf Stats.meanOf
  have h1 := key fun r => r
  have h2 := key fun r => r ^ 2
  have e2 : (((List.finRange d).map fun a => (List.finRange n).map fun i => some (e (x a () i)).re).map fun xs => Stats.nanmean (xs.map (Option.map fun r => r ^ 2))) =
      (((List.finRange d).map fun a => (List.finRange n).map fun i => some ((e (x a () i)).re ^ 2)).map Stats.nanmean) := by
    rw [List.map_map, List.map_map]
    refine List.map_congr_left fun a _ => ?_
    simp only [Function.comp_apply, List.map_map]
    rfl
  rw [e2, h2, h1]
  rfl

/-- The variance an evaluation reports is an average of non-negative numbers, one for each step. -/
theorem reportedVar_eq (hd : 0 < d) (hn : 0 < n) (T : ℕ) (hT : 0 < T) (cfg : Cfg) (g : RandomRng Ω Key N n) (move : ℝ → N → V → V) (ψ e : V → ℂ)
    (keys : ℕ → Fin d → Key) (x₀ : Ω → Fin d → Batch Unit n V) (s : State) (ω : Ω) :
    reportedVar cfg g move ψ e keys x₀ s T ω =
      some ((∑ t ∈ Finset.range T, spread fun w : Fin d × Fin n => (e (walkers cfg g move ψ keys x₀ s ω (t + 1) w.1 () w.2)).re) / (T : ℝ)) := by
  unfold reportedVar
  simp_rw [stepVar_eq hd hn]
  have h := nanmean_some ((List.range T).map fun t => spread fun w : Fin d × Fin n => (e (walkers cfg g move ψ keys x₀ s ω (t + 1) w.1 () w.2)).re)
    (by simp; omega)
  rw [List.map_map] at h
  simp only [Function.comp_def] at h
  rw [h, List.length_map, List.length_range]
  congr 2

/-! ### Independent walkers -/

theorem pairs_mem {split3 : Key → Key × Key × Key} {keys : ℕ → Key} {steps k T : ℕ} (hk : k ≤ T) {q : Key} (hq : q ∈ allKeys (pairs split3 keys steps k)) :
    q ∈ keysUsed split3 keys steps T := by
  rw [allKeys_pairs] at hq
  obtain ⟨m, rfl⟩ := Nat.exists_eq_add_of_le hk
  unfold keysUsed at hq ⊢
  rw [List.range_add, List.flatMap_append, List.mem_append]
  exact Or.inl hq

/-- Different walkers are independent of each other, after every step. -/
theorem walkers_independent {cfg : Cfg} {g : RandomRng Ω Key N n} {move : ℝ → N → V → V} {ψ : V → ℂ} {keys : ℕ → Fin d → Key}
    {x₀ : Ω → Fin d → Batch Unit n V} {s : State} {T : ℕ} (S : Setup P ν μ cfg g move ψ keys x₀ s T) (hst : Steady cfg s T)
    (I : Separate P cfg.steps g keys x₀ T) (k : ℕ) (hk : k ≤ T) {w w' : Fin d × Fin n} (hw : w ≠ w') :
    IndepFun (fun ω => walkers cfg g move ψ keys x₀ s ω k w.1 () w.2) (fun ω => walkers cfg g move ψ keys x₀ s ω k w'.1 () w'.2) P := by
  have hΩ : Nonempty Ω := nonempty_of_isProbabilityMeasure P
  have hN : Nonempty N := ⟨g.noise (keys 0 w.1) w.2 (Classical.arbitrary Ω)⟩
  have hu : ∀ k i ω, g.uniform k i ω ∈ Set.Ico (0 : ℝ) 1 := fun k i ω => (S.draws i).range k ω
  have ha : Measurable fun y => ‖ψ y‖ ^ 2 := S.wavefunction.norm.pow_const 2
  have hc := fun a => chain_measurable ha S.move_measurable (pairs g.split3 (fun t => keys t a) cfg.steps k)
  have dep : ∀ a x (d d' : Key → N × ℝ), (∀ q ∈ allKeys (pairs g.split3 (fun t => keys t a) cfg.steps k), d q = d' q) →
      chain (fun y => ‖ψ y‖ ^ 2) (move s.stddev) d x (pairs g.split3 (fun t => keys t a) cfg.steps k) =
      chain (fun y => ‖ψ y‖ ^ 2) (move s.stddev) d' x (pairs g.split3 (fun t => keys t a) cfg.steps k) :=
    fun a x d d' h => chain_congr _ _ _ _ _ _ fun q hq => ⟨h _ (mem_allKeys hq).1, h _ (mem_allKeys hq).2⟩
  have i3 : IndepFun (fun ω => (x₀ ω w.1 () w.2, x₀ ω w'.1 () w'.2)) (fun ω (q : Key × Fin n) => (g.noise q.1 q.2 ω, g.uniform q.1 q.2 ω)) P := by
    have hp : Measurable fun x : Fin d × Fin n → V => (x w, x w') := (measurable_pi_apply w).prodMk (measurable_pi_apply w')
    exact I.together.comp hp measurable_id
  have h := Variance.apart (fun q => (S.draws q.2).measurable q.1) I.draws (S.start w.1 w.2).measurable (S.start w'.1 w'.2).measurable (I.starts.indepFun hw) i3
    (i := w.2) (i' := w'.2) (l := allKeys (pairs g.split3 (fun t => keys t w.1) cfg.steps k)) (l' := allKeys (pairs g.split3 (fun t => keys t w'.1) cfg.steps k))
    (fun q hq hq' h2 => I.apart _ _ (fun h1 => hw (Prod.ext h1 h2)) (pairs_mem hk hq) (pairs_mem hk hq')) (hc w.1) (hc w'.1) (dep w.1) (dep w'.1)
  refine h.congr (Filter.Eventually.of_forall fun ω => ?_) (Filter.Eventually.of_forall fun ω => ?_)
  · exact (walkers_chain cfg g hu move ψ keys x₀ s T hst ω w.1 w.2 k hk).symm
  · exact (walkers_chain cfg g hu move ψ keys x₀ s T hst ω w'.1 w'.2 k hk).symm

theorem preserved {X : Ω → V} {ρ : Measure V} (hp : MeasurePreserving X P ρ) {h : V → ℝ} (he : MemLp h 2 ρ) :
    MemLp (fun ω => h (X ω)) 2 P ∧ ∫ ω, h (X ω) ∂P = ∫ x, h x ∂ρ ∧ Var[fun ω => h (X ω); P] = Var[h; ρ] := by
  refine ⟨he.comp_measurePreserving hp, ?_, hp.variance_fun_comp he.aestronglyMeasurable.aemeasurable⟩
  have := integral_map (μ := P) hp.measurable.aemeasurable (f := h) (by rw [hp.map_eq]; exact he.aestronglyMeasurable)
  rw [← this, hp.map_eq]

theorem walker_moments {cfg : Cfg} {g : RandomRng Ω Key N n} {move : ℝ → N → V → V} {ψ : V → ℂ} {keys : ℕ → Fin d → Key}
    {x₀ : Ω → Fin d → Batch Unit n V} {s : State} {T : ℕ} (S : Setup P ν μ cfg g move ψ keys x₀ s T) (hst : Steady cfg s T) {e : V → ℂ}
    (he : MemLp (fun x => (e x).re) 2 (walkerLaw μ ψ)) (k : ℕ) (hk : k ≤ T) (w : Fin d × Fin n) :
    MemLp (fun ω => (e (walkers cfg g move ψ keys x₀ s ω k w.1 () w.2)).re) 2 P ∧
    ∫ ω, (e (walkers cfg g move ψ keys x₀ s ω k w.1 () w.2)).re ∂P = ∫ x, (e x).re ∂walkerLaw μ ψ ∧
    Var[fun ω => (e (walkers cfg g move ψ keys x₀ s ω k w.1 () w.2)).re; P] = Var[fun x => (e x).re; walkerLaw μ ψ] := by
  have hp : MeasurePreserving (fun ω => walkers cfg g move ψ keys x₀ s ω k w.1 () w.2) P (walkerLaw μ ψ) :=
    ⟨walker_measurable S hst k hk w.1 w.2, c135_law S hst k hk w.1 w.2⟩
  have h := preserved hp he
  exact h

/-- **C140.** The variance an evaluation reports is never negative and, with walkers distributed by the squared wavefunction, never too large on average: it is at most
the variance of the (real part of the) local energy, whatever the walkers have to do with each other. -/
theorem c140_bounds (hd : 0 < d) (hn : 0 < n) {T : ℕ} (hT : 0 < T) {cfg : Cfg} {g : RandomRng Ω Key N n} {move : ℝ → N → V → V} {ψ : V → ℂ} {keys : ℕ → Fin d → Key}
    {x₀ : Ω → Fin d → Batch Unit n V} {s : State} (S : Setup P ν μ cfg g move ψ keys x₀ s T) (hst : Steady cfg s T) {e : V → ℂ}
    (he : MemLp (fun x => (e x).re) 2 (walkerLaw μ ψ)) :
    ∃ v : Ω → ℝ, (∀ ω, reportedVar cfg g move ψ e keys x₀ s T ω = some (v ω)) ∧ Integrable v P ∧ (∀ ω, 0 ≤ v ω) ∧
      ∫ ω, v ω ∂P ≤ Var[fun x => (e x).re; walkerLaw μ ψ] := by
  have : Nonempty (Fin d × Fin n) := ⟨⟨⟨0, hd⟩, ⟨0, hn⟩⟩⟩
  have hM : ∀ t ∈ Finset.range T, _ := fun t ht => walker_moments S hst he (t + 1) (Finset.mem_range.mp ht)
  have hi : ∀ t ∈ Finset.range T, Integrable (fun ω => spread fun w : Fin d × Fin n => (e (walkers cfg g move ψ keys x₀ s ω (t + 1) w.1 () w.2)).re) P :=
    fun t ht => spread_integrable fun w => (hM t ht w).1
  refine ⟨_, fun ω => reportedVar_eq hd hn T hT cfg g move ψ e keys x₀ s ω, (integrable_finsetSum _ hi).div_const _, fun ω => ?_, ?_⟩
  · exact div_nonneg (Finset.sum_nonneg fun t _ => spread_nonneg _) (by positivity)
  · have cT : (0 : ℝ) < T := by exact_mod_cast hT
    rw [integral_div, integral_finsetSum _ hi, div_le_iff₀ cT]
    calc _ ≤ ∑ t ∈ Finset.range T, Var[fun x => (e x).re; walkerLaw μ ψ] := by
          refine Finset.sum_le_sum fun t ht => ?_
          rw [spread_mean (fun w => (hM t ht w).1) (fun w => (hM t ht w).2.1) fun w => (hM t ht w).2.2]
          have := variance_nonneg (fun ω => (∑ w : Fin d × Fin n, (e (walkers cfg g move ψ keys x₀ s ω (t + 1) w.1 () w.2)).re) / Fintype.card (Fin d × Fin n)) P
          linarith
      _ = _ := by rw [Finset.sum_const, Finset.card_range, nsmul_eq_mul, mul_comm]

/-- **C140.** With walkers that have nothing to do with each other it is, on average, exactly the variance of the local energy less the share `1 / (d n)` that the finite
number of walkers takes away. -/
theorem c140_expected (hd : 0 < d) (hn : 0 < n) {T : ℕ} (hT : 0 < T) {cfg : Cfg} {g : RandomRng Ω Key N n} {move : ℝ → N → V → V} {ψ : V → ℂ} {keys : ℕ → Fin d → Key}
    {x₀ : Ω → Fin d → Batch Unit n V} {s : State} (S : Setup P ν μ cfg g move ψ keys x₀ s T) (hst : Steady cfg s T) (I : Separate P cfg.steps g keys x₀ T) {e : V → ℂ}
    (he : MemLp (fun x => (e x).re) 2 (walkerLaw μ ψ)) :
    ∃ v : Ω → ℝ, (∀ ω, reportedVar cfg g move ψ e keys x₀ s T ω = some (v ω)) ∧ Integrable v P ∧ (∀ ω, 0 ≤ v ω) ∧
      ∫ ω, v ω ∂P = (1 - 1 / (d * n : ℝ)) * Var[fun x => (e x).re; walkerLaw μ ψ] := by
  have : Nonempty (Fin d × Fin n) := ⟨⟨⟨0, hd⟩, ⟨0, hn⟩⟩⟩
  have hM : ∀ t ∈ Finset.range T, _ := fun t ht => walker_moments S hst he (t + 1) (Finset.mem_range.mp ht)
  obtain ⟨v, h1, h2, h3, _⟩ := c140_bounds hd hn hT S hst he
  refine ⟨v, h1, h2, h3, ?_⟩
  have hv : v = fun ω => (∑ t ∈ Finset.range T, spread fun w : Fin d × Fin n => (e (walkers cfg g move ψ keys x₀ s ω (t + 1) w.1 () w.2)).re) / (T : ℝ) := by
    funext ω
    have := h1 ω
    rw [reportedVar_eq hd hn T hT] at this
    exact (Option.some.inj this).symm
  have hi : ∀ t ∈ Finset.range T, Integrable (fun ω => spread fun w : Fin d × Fin n => (e (walkers cfg g move ψ keys x₀ s ω (t + 1) w.1 () w.2)).re) P :=
    fun t ht => spread_integrable fun w => (hM t ht w).1
  have cT : (T : ℝ) ≠ 0 := by exact_mod_cast hT.ne'
  have ht : ∀ t ∈ Finset.range T, ∫ ω, (spread fun w : Fin d × Fin n => (e (walkers cfg g move ψ keys x₀ s ω (t + 1) w.1 () w.2)).re) ∂P =
      (1 - 1 / (d * n : ℝ)) * Var[fun x => (e x).re; walkerLaw μ ψ] := by
    intro t ht
    rw [spread_mean (fun w => (hM t ht w).1) (fun w => (hM t ht w).2.1) fun w => (hM t ht w).2.2,
      mean_var (fun w => (hM t ht w).1) (fun w => (hM t ht w).2.2) fun w w' hw => ?_]
    · rw [Fintype.card_prod, Fintype.card_fin, Fintype.card_fin]
      push_cast
      ring
    · have hk : t + 1 ≤ T := Finset.mem_range.mp ht
      have := walkers_independent S hst I (t + 1) hk hw
      refine this.comp₀ (φ := fun x => (e x).re) (ψ := fun x => (e x).re) (walker_measurable S hst _ hk _ _).aemeasurable (walker_measurable S hst _ hk _ _).aemeasurable ?_ ?_
      · rw [c135_law S hst _ hk]; exact he.aestronglyMeasurable.aemeasurable
      · rw [c135_law S hst _ hk]; exact he.aestronglyMeasurable.aemeasurable
  rw [hv, integral_div, integral_finsetSum _ hi, Finset.sum_congr rfl ht, Finset.sum_const, Finset.card_range, nsmul_eq_mul]
  field_simp

/-- **C140.** And it says how far the energy of one step can be trusted: with walkers that have nothing to do with each other the energy a step reports scatters with
the variance of the local energy over the number of walkers. -/
theorem c140_scatter (hd : 0 < d) (hn : 0 < n) {T : ℕ} {cfg : Cfg} {g : RandomRng Ω Key N n} {move : ℝ → N → V → V} {ψ : V → ℂ} {keys : ℕ → Fin d → Key}
    {x₀ : Ω → Fin d → Batch Unit n V} {s : State} (S : Setup P ν μ cfg g move ψ keys x₀ s T) (hst : Steady cfg s T) (I : Separate P cfg.steps g keys x₀ T) {e : V → ℂ}
    (he : MemLp (fun x => (e x).re) 2 (walkerLaw μ ψ)) (t : ℕ) (ht : t ≤ T) :
    ∃ m : Ω → ℂ, (∀ ω, stepEnergy e (walkers cfg g move ψ keys x₀ s ω t) = some (m ω)) ∧
      Var[fun ω => (m ω).re; P] = Var[fun x => (e x).re; walkerLaw μ ψ] / (d * n : ℝ) := by
  have : Nonempty (Fin d × Fin n) := ⟨⟨⟨0, hd⟩, ⟨0, hn⟩⟩⟩
  have hM := walker_moments S hst he t ht
  refine ⟨_, fun ω => stepEnergy_eq hd hn e _, ?_⟩
  have hv := mean_var (fun w => (hM w).1) (fun w => (hM w).2.2) fun w w' hw => by
    have := walkers_independent S hst I t ht hw
    refine this.comp₀ (φ := fun x => (e x).re) (ψ := fun x => (e x).re) (walker_measurable S hst _ ht _ _).aemeasurable (walker_measurable S hst _ ht _ _).aemeasurable ?_ ?_
    · rw [c135_law S hst _ ht]; exact he.aestronglyMeasurable.aemeasurable
    · rw [c135_law S hst _ ht]; exact he.aestronglyMeasurable.aemeasurable
  rw [Fintype.card_prod, Fintype.card_fin, Fintype.card_fin] at hv
  push_cast at hv
  rw [← hv]
  refine congrArg (fun f => Var[f; P]) (funext fun ω => ?_)
  rw [← Finset.sum_div, div_div, Fintype.sum_prod_type]
  have : ((n : ℂ) * (d : ℂ)) = (((d : ℝ) * (n : ℝ) : ℝ) : ℂ) := by push_cast; ring
  rw [this, Complex.div_ofReal_re, Complex.re_sum]
  refine congrArg (· / ((d : ℝ) * n)) (Finset.sum_congr rfl fun a _ => ?_)
  rw [Complex.re_sum]

/-! ### Eigenstates -/

/-- The local energy of any wavefunction in the domain of the Hamiltonian has a variance, and with its imaginary part it measures how far the wavefunction is from
being an eigenstate. -/
theorem local_variance {H : L2C μ →ₗ.[ℂ] L2C μ} (hs : Symmetric H) (φ : H.domain) (h0 : (φ : L2C μ) ≠ 0) {e : V → ℂ} (he : IsLocalEnergy H φ e) :
    MemLp (fun x => (e x).re) 2 (walkerLaw μ (φ : L2C μ)) ∧ Integrable (fun x => (e x).im ^ 2) (walkerLaw μ (φ : L2C μ)) ∧
    Var[fun x => (e x).re; walkerLaw μ (φ : L2C μ)] + ∫ x, (e x).im ^ 2 ∂walkerLaw μ (φ : L2C μ) = ‖H φ - (energy H φ : ℂ) • (φ : L2C μ)‖ ^ 2 / ‖(φ : L2C μ)‖ ^ 2 := by
  obtain ⟨i1, m1⟩ := local_mean hs φ h0 he
  have hprob := Jaqmc.LossGrad.Grad.law_prob h0
  have hZ : ∫ x, ‖(φ : L2C μ) x‖ ^ 2 ∂μ = ‖(φ : L2C μ)‖ ^ 2 := by rw [← Jaqmc.LossGrad.Grad.Z_eq]; exact inner_self_eq_norm_sq (𝕜 := ℂ) _
  have hpos : 0 < ‖(φ : L2C μ)‖ ^ 2 := pow_pos (norm_pos_iff.mpr h0) 2
  have i2 := (Jaqmc.LossGrad.Grad.inner_avg h0 (H φ) (H φ) e e he he).1
  have hm : MemLp e 2 (walkerLaw μ (φ : L2C μ)) := by
    rw [memLp_two_iff_integrable_sq_norm i1.aestronglyMeasurable]
    refine i2.norm.congr (Filter.Eventually.of_forall fun x => ?_)
    simp only [norm_mul, RCLike.norm_conj]
    ring
  have hre : MemLp (fun x => (e x).re) 2 (walkerLaw μ (φ : L2C μ)) := hm.re
  have him : MemLp (fun x => (e x).im) 2 (walkerLaw μ (φ : L2C μ)) := hm.im
  refine ⟨hre, him.integrable_sq, ?_⟩
  have hres : ∀ᵐ x ∂μ, (H φ - (energy H φ : ℂ) • (φ : L2C μ) : L2C μ) x = (e x - (energy H φ : ℂ)) * (φ : L2C μ) x := by
    filter_upwards [he, Lp.coeFn_sub (H φ) ((energy H φ : ℂ) • (φ : L2C μ)), Lp.coeFn_smul (energy H φ : ℂ) (φ : L2C μ)] with x h1 h2 h3
    rw [h2, Pi.sub_apply, h3, h1, Pi.smul_apply, smul_eq_mul]
    ring
  have i3 := (Jaqmc.LossGrad.Grad.inner_avg h0 _ _ _ _ hres hres).2
  generalize hr : H φ - (energy H φ : ℂ) • (φ : L2C μ) = res at i3 ⊢
  have e1 : (∫ x, (starRingEnd ℂ) (e x - (energy H φ : ℂ)) * (e x - (energy H φ : ℂ)) ∂walkerLaw μ (φ : L2C μ)) =
      ((∫ x, (((e x).re - energy H φ) ^ 2 + (e x).im ^ 2) ∂walkerLaw μ (φ : L2C μ) : ℝ) : ℂ) := by
    rw [← integral_complex_ofReal]
    refine integral_congr_ae (Filter.Eventually.of_forall fun x => ?_)
    simp only
    rw [← Complex.normSq_eq_conj_mul_self, Complex.normSq_apply]
    simp only [Complex.sub_re, Complex.sub_im, Complex.ofReal_re, Complex.ofReal_im, sub_zero]
    norm_cast
    ring
  have hself : inner ℂ res res = ((‖res‖ ^ 2 : ℝ) : ℂ) := by rw [inner_self_eq_norm_sq_to_K]; push_cast; rfl
  rw [e1, hZ, hself, ← Complex.ofReal_mul] at i3
  have e2 : ‖res‖ ^ 2 = (∫ x, (((e x).re - energy H φ) ^ 2 + (e x).im ^ 2) ∂walkerLaw μ (φ : L2C μ)) * ‖(φ : L2C μ)‖ ^ 2 :=
    Complex.ofReal_injective i3
  rw [e2, mul_div_cancel_right₀ _ hpos.ne']
  have hmean : ∫ x, (e x).re ∂walkerLaw μ (φ : L2C μ) = energy H φ := by
    have : ∫ x, (e x).re ∂walkerLaw μ (φ : L2C μ) = (∫ x, e x ∂walkerLaw μ (φ : L2C μ)).re := integral_re (𝕜 := ℂ) i1
    rw [this, m1, Complex.ofReal_re]
  have hc : MemLp (fun x => (e x).re - energy H φ) 2 (walkerLaw μ (φ : L2C μ)) := hre.sub (memLp_const _)
  rw [integral_add hc.integrable_sq him.integrable_sq, variance_eq_integral hre.aestronglyMeasurable.aemeasurable, hmean]

/-- **C140.** The variance a run with independent walkers reports is, on average, the squared length of `Hφ - Eφ` over that of `φ`, less what the imaginary part of the
local energy contributes to it, and less one part in `d n`. -/
theorem c140_residual (hd : 0 < d) (hn : 0 < n) {T : ℕ} (hT : 0 < T) {H : L2C μ →ₗ.[ℂ] L2C μ} (hs : Symmetric H) (φ : H.domain) (h0 : (φ : L2C μ) ≠ 0)
    {ψ e : V → ℂ} (hφ : (φ : L2C μ) =ᵐ[μ] ψ) (he : IsLocalEnergy H φ e) {cfg : Cfg} {g : RandomRng Ω Key N n} {move : ℝ → N → V → V} {keys : ℕ → Fin d → Key}
    {x₀ : Ω → Fin d → Batch Unit n V} {s : State} (S : Setup P ν μ cfg g move ψ keys x₀ s T) (hst : Steady cfg s T) (I : Separate P cfg.steps g keys x₀ T) :
    ∃ v : Ω → ℝ, (∀ ω, reportedVar cfg g move ψ e keys x₀ s T ω = some (v ω)) ∧ Integrable v P ∧ (∀ ω, 0 ≤ v ω) ∧
      ∫ ω, v ω ∂P = (1 - 1 / (d * n : ℝ)) *
        (‖H φ - (energy H φ : ℂ) • (φ : L2C μ)‖ ^ 2 / ‖(φ : L2C μ)‖ ^ 2 - ∫ x, (e x).im ^ 2 ∂walkerLaw μ ψ) := by
  obtain ⟨a, _, c⟩ := local_variance hs φ h0 he
  rw [law_congr hφ] at a c
  obtain ⟨v, h1, h2, h3, h4⟩ := c140_expected hd hn hT S hst I a
  refine ⟨v, h1, h2, h3, ?_⟩
  rw [h4]
  congr 1
  linarith

/-- **C140.** So where the local energy is real it tells eigenstates from other wavefunctions, with two walkers or more: it is zero, in almost every evaluation, for
eigenstates and for no other wavefunction. -/
theorem c140_eigenstates {T : ℕ} (hT : 0 < T) (h2 : 2 ≤ d * n) {H : L2C μ →ₗ.[ℂ] L2C μ} (hs : Symmetric H) (φ : H.domain) (h0 : (φ : L2C μ) ≠ 0)
    {ψ e : V → ℂ} (hφ : (φ : L2C μ) =ᵐ[μ] ψ) (he : IsLocalEnergy H φ e) (hreal : ∀ x, (e x).im = 0) {cfg : Cfg} {g : RandomRng Ω Key N n} {move : ℝ → N → V → V}
    {keys : ℕ → Fin d → Key} {x₀ : Ω → Fin d → Batch Unit n V} {s : State} (S : Setup P ν μ cfg g move ψ keys x₀ s T) (hst : Steady cfg s T)
    (I : Separate P cfg.steps g keys x₀ T) :
    (∀ᵐ ω ∂P, reportedVar cfg g move ψ e keys x₀ s T ω = some 0) ↔ ∃ E : ℂ, H φ = E • (φ : L2C μ) := by
  have hd : 0 < d := Nat.pos_of_ne_zero fun h => by simp [h] at h2
  have hn : 0 < n := Nat.pos_of_ne_zero fun h => by simp [h] at h2
  obtain ⟨v, h1, hi, hp, hv⟩ := c140_residual hd hn hT hs φ h0 hφ he S hst I
  have hN : (2 : ℝ) ≤ d * n := by exact_mod_cast h2
  have hfac : (0 : ℝ) < 1 - 1 / (d * n : ℝ) := by
    have : 1 / (d * n : ℝ) ≤ 1 / 2 := one_div_le_one_div_of_le (by norm_num) hN
    linarith
  have hpos : 0 < ‖(φ : L2C μ)‖ ^ 2 := pow_pos (norm_pos_iff.mpr h0) 2
  have him : ∫ x, (e x).im ^ 2 ∂walkerLaw μ ψ = 0 := by simp [hreal]
  rw [him, sub_zero] at hv
  have hz : (∀ᵐ ω ∂P, reportedVar cfg g move ψ e keys x₀ s T ω = some 0) ↔ ∫ ω, v ω ∂P = 0 := by
    rw [integral_eq_zero_iff_of_nonneg hp hi]
    refine Filter.eventually_congr (Filter.Eventually.of_forall fun ω => ?_)
    rw [h1 ω, Option.some.injEq, Pi.zero_apply]
  rw [hz, hv, mul_eq_zero, or_iff_right hfac.ne', div_eq_zero_iff, or_iff_left hpos.ne', sq_eq_zero_iff, norm_eq_zero, sub_eq_zero]
  constructor
  · exact fun h => ⟨_, h⟩
  · rintro ⟨E, hE⟩
    have : (energy H φ : ℂ) = E := by
      have hsy := hs φ φ
      rw [hE, inner_smul_left, inner_smul_right] at hsy
      have hne : inner ℂ (φ : L2C μ) (φ : L2C μ) ≠ 0 := inner_self_ne_zero.mpr h0
      have hconj := mul_right_cancel₀ hne hsy
      obtain ⟨r, hr⟩ := Complex.conj_eq_iff_real.mp hconj
      unfold energy
      rw [hE, inner_smul_right, hr, Complex.re_ofReal_mul, mul_div_cancel_right₀]
      rw [inner_self_eq_norm_sq_to_K]
      have : ((‖(φ : L2C μ)‖ : ℂ) ^ 2).re = ‖(φ : L2C μ)‖ ^ 2 := by norm_cast
      exact fun h => hpos.ne' (this.symm.trans h)
    rw [this, hE]

/-! ### Complex energies -/

/-- A wavefunction that is the same in two places. -/
noncomputable def flat : L2C (Measure.count : Measure Bool) := (MemLp.of_bound (f := fun _ => (1 : ℂ)) (measurable_of_finite _).aestronglyMeasurable 1 (by simp)).toLp _

/-- A wavefunction with another phase in the second. -/
noncomputable def turned : L2C (Measure.count : Measure Bool) :=
  (MemLp.of_bound (f := fun b : Bool => if b then (1 : ℂ) else Complex.I) (measurable_of_finite _).aestronglyMeasurable 1
    (Filter.Eventually.of_forall fun b => by cases b <;> simp)).toLp _

theorem ae_count {p : Bool → Prop} : (∀ᵐ b ∂(Measure.count : Measure Bool), p b) ↔ ∀ b, p b := by
  rw [Measure.ae_count_iff]

theorem flat_apply (b : Bool) : flat b = 1 := ae_count.mp (MemLp.coeFn_toLp _) b

theorem turned_apply (b : Bool) : turned b = if b then (1 : ℂ) else Complex.I := ae_count.mp (MemLp.coeFn_toLp _) b

theorem flat_ne : flat ≠ 0 := by
  intro h
  have := flat_apply true
  rw [h] at this
  have h0 := ae_count.mp (Lp.coeFn_zero ℂ 2 (Measure.count : Measure Bool)) true
  rw [h0] at this
  simp at this

theorem turned_flat : inner ℂ turned flat = 1 - Complex.I := by
  rw [L2.inner_def]
  simp_rw [flat_apply, turned_apply]
  rw [integral_countable (by exact Integrable.of_finite)]
  simp [tsum_fintype, Measure.real]
  ring

/-- **C140.** Where the local energy is complex the reported variance, which is that of the real parts, does not tell eigenstates from other wavefunctions: here is a
wavefunction that is no eigenstate, and yet every evaluation of it, whatever the draws, the sampler and the walkers, reports the variance zero. -/
theorem c140_complex : ∃ (H : L2C (Measure.count : Measure Bool) →ₗ.[ℂ] L2C Measure.count) (φ : H.domain) (e : Bool → ℂ),
    Symmetric H ∧ (φ : L2C (Measure.count : Measure Bool)) ≠ 0 ∧ IsLocalEnergy H φ e ∧ (∀ E : ℂ, H φ ≠ E • (φ : L2C (Measure.count : Measure Bool))) ∧
    ∀ (N Ω Key : Type) (n d T : ℕ) (_ : 0 < d) (_ : 0 < n) (_ : 0 < T) (cfg : Cfg) (g : RandomRng Ω Key N n) (move : ℝ → N → Bool → Bool) (ψ : Bool → ℂ)
      (keys : ℕ → Fin d → Key) (x₀ : Ω → Fin d → Batch Unit n Bool) (s : State) (ω : Ω), reportedVar cfg g move ψ e keys x₀ s T ω = some 0 := by
  have e0 : ((Jaqmc.LossGrad.Props.line flat turned 0 : (Jaqmc.LossGrad.Props.rankOne turned).domain) : L2C (Measure.count : Measure Bool)) = flat := by
    show flat + ((0 : ℝ) : ℂ) • turned = flat
    simp
  have hloc := Jaqmc.LossGrad.Props.line_local flat turned (ae_count.mpr fun b => by rw [flat_apply]; exact one_ne_zero)
  refine ⟨Jaqmc.LossGrad.Props.rankOne turned, Jaqmc.LossGrad.Props.line flat turned 0, _, Jaqmc.LossGrad.Props.rankOne_symmetric turned, by rw [e0]; exact flat_ne,
    hloc, ?_, ?_⟩
  · intro E hE
    rw [Jaqmc.LossGrad.Props.rankOne_apply, e0, turned_flat] at hE
    have h1 := fun b => ae_count.mp (Lp.coeFn_smul (1 - Complex.I) turned) b
    have h2 := fun b => ae_count.mp (Lp.coeFn_smul E flat) b
    rw [hE] at h1
    have ht := (h1 true).symm.trans (h2 true)
    have hf := (h1 false).symm.trans (h2 false)
    simp only [Pi.smul_apply, smul_eq_mul, flat_apply, turned_apply, if_true, mul_one, Bool.false_eq_true, if_false] at ht hf
    have := ht.trans hf.symm
    have := congrArg Complex.im this
    simp at this
    norm_num at this
  · intro N Ω Key n d T hd hn hT cfg g move ψ keys x₀ s ω
    letI : MeasurableSpace Ω := ⊤
    letI : MeasurableSpace N := ⊤
    rw [reportedVar_eq hd hn T hT]
    have hr : ∀ b, (inner ℂ turned flat * (turned b / flat b)).re = 1 := by
      intro b
      rw [turned_flat, flat_apply, turned_apply]
      cases b <;> simp
    simp_rw [hr]
    have hc : ((Fintype.card (Fin d × Fin n) : ℕ) : ℝ) ≠ 0 := by
      rw [Fintype.card_prod, Fintype.card_fin, Fintype.card_fin]
      exact_mod_cast (Nat.mul_pos hd hn).ne'
    have : (spread fun _ : Fin d × Fin n => (1 : ℝ)) = 0 := by
      unfold spread
      simp only [one_pow, Finset.sum_const, Finset.card_univ, nsmul_eq_mul, mul_one]
      rw [div_self hc]; norm_num
    rw [this]
    simp

/-! ### The hypotheses can be met -/

theorem pulled {Ω' ι β : Type} [MeasurableSpace Ω'] [MeasurableSpace β] {Q : Measure Ω'} {X : Ω → Ω'} (hp : MeasurePreserving X P Q) {f : ι → Ω' → β}
    (hf : ∀ i, Measurable (f i)) (h : iIndepFun f Q) : iIndepFun (fun i ω => f i (X ω)) P := by
  rw [iIndepFun_iff_measure_inter_preimage_eq_mul] at h ⊢
  intro S sets hs
  have := h S hs
  have e1 : ⋂ i ∈ S, (fun ω => f i (X ω)) ⁻¹' sets i = X ⁻¹' ⋂ i ∈ S, f i ⁻¹' sets i := by
    ext ω; simp
  rw [e1, hp.measure_preimage (Finset.measurableSet_biInter _ fun i hi => hf i (hs i hi)).nullMeasurableSet, this]
  refine Finset.prod_congr rfl fun i hi => ?_
  have e2 : (fun ω => f i (X ω)) ⁻¹' sets i = X ⁻¹' (f i ⁻¹' sets i) := rfl
  rw [e2, hp.measure_preimage (hf i (hs i hi)).nullMeasurableSet]

theorem starts_independent (ρ : Measure V) [IsProbabilityMeasure ρ] (d n : ℕ) :
    iIndepFun (fun (q : Fin d × Fin n) (x : Fin d → Fin n → V) => x q.1 q.2) (Measure.pi fun _ => Measure.pi fun _ => ρ) := by
  have hm : ∀ q : Fin d × Fin n, Measurable fun x : Fin d → Fin n → V => x q.1 q.2 := fun q => by fun_prop
  have hev : ∀ q : Fin d × Fin n, (Measure.pi fun _ : Fin d => Measure.pi fun _ : Fin n => ρ).map (fun x => x q.1 q.2) = ρ := by
    intro q
    have h1 : Measurable fun x : Fin d → Fin n → V => x q.1 := measurable_pi_apply _
    have h2 : Measurable fun y : Fin n → V => y q.2 := measurable_pi_apply _
    have h := Measure.map_map (μ := Measure.pi fun _ : Fin d => Measure.pi fun _ : Fin n => ρ) h2 h1
    have e1 : (Measure.pi fun _ : Fin d => Measure.pi fun _ : Fin n => ρ).map (fun x => x q.1) = Measure.pi fun _ => ρ :=
      (measurePreserving_eval (fun _ : Fin d => Measure.pi fun _ : Fin n => ρ) q.1).map_eq
    have e2 : (Measure.pi fun _ : Fin n => ρ).map (fun y => y q.2) = ρ := (measurePreserving_eval (fun _ : Fin n => ρ) q.2).map_eq
    rw [e1, e2] at h
    exact h.symm
  rw [iIndepFun_iff_map_fun_eq_pi_map fun q => (hm q).aemeasurable]
  simp_rw [hev]
  refine (Measure.pi_eq fun S hS => ?_).symm
  rw [Measure.map_apply (measurable_pi_iff.mpr hm) (MeasurableSet.univ_pi hS)]
  have : (fun (x : Fin d → Fin n → V) (q : Fin d × Fin n) => x q.1 q.2) ⁻¹' Set.univ.pi S = Set.univ.pi fun a => Set.univ.pi fun i => S (a, i) := by
    ext x
    simp [Set.mem_pi]
  rw [this, Measure.pi_pi, Fintype.prod_prod_type]
  refine Finset.prod_congr rfl fun a _ => ?_
  rw [Measure.pi_pi]

theorem tree_device (a : Fin d) (steps T : ℕ) {q : TreeKey d} (h : q ∈ keysUsed treeSplit (fun t => ((t, a), [])) steps T) : q.1.2 = a := by
  unfold keysUsed at h
  simp only [List.mem_flatMap, List.mem_cons, List.not_mem_nil, or_false] at h
  obtain ⟨t, _, j, _, h⟩ := h
  unfold drawKeys at h
  rw [tree_loop] at h
  rcases h with rfl | rfl <;> rfl

/-- **C140.** There is a generator with independent walkers for every wavefunction with a distribution, every reversible proposal and any number of devices, walkers,
updates and steps. -/
theorem c140_exists (ν : Measure N) [IsProbabilityMeasure ν] (μ : Measure V) (ψ : V → ℂ) (hψ : Measurable ψ) [IsProbabilityMeasure (walkerLaw μ ψ)]
    (move : ℝ → N → V → V) (cfg : Cfg) (s : State) (hmv : Measurable fun p : V × N => move s.stddev p.2 p.1)
    (hr : Reversible μ ν (move s.stddev)) (d n T : ℕ) :
    ∃ (Ω Key : Type) (_ : MeasurableSpace Ω) (P : Measure Ω) (_ : IsProbabilityMeasure P) (g : RandomRng Ω Key N n) (keys : ℕ → Fin d → Key)
      (x₀ : Ω → Fin d → Batch Unit n V), Setup P ν μ cfg g move ψ keys x₀ s T ∧ Separate P cfg.steps g keys x₀ T := by
  refine ⟨_, _, _, idealLaw ν μ ψ d n, inferInstance, idealRng V N d n, idealKeys d, idealStart V N d n, ideal_setup ν μ ψ hψ move cfg s hmv hr d n T, ?_⟩
  have hX0 : Measurable fun p : N × ℝ => (p.1, clip p.2) := measurable_fst.prodMk (clip_measurable.comp measurable_snd)
  refine ⟨?_, ?_, ?_, ?_⟩
  · have h1 : iIndepFun (fun (q : TreeKey d × Fin n) (δ : TreeKey d × Fin n → N × ℝ) => ((δ q).1, clip (δ q).2)) (Measure.infinitePi fun _ => ν.prod unif) :=
      iIndepFun_infinitePi (X := fun _ (p : N × ℝ) => (p.1, clip p.2)) fun _ => hX0
    exact pulled measurePreserving_snd (fun q => hX0.comp (measurable_pi_apply q)) h1
  · exact pulled measurePreserving_fst (fun q => by fun_prop) (starts_independent (walkerLaw μ ψ) d n)
  · have h1 : Measurable fun (x : Fin d → Fin n → V) (q : Fin d × Fin n) => x q.1 q.2 := measurable_pi_iff.mpr fun q => by fun_prop
    have h2 : Measurable fun (δ : TreeKey d × Fin n → N × ℝ) (q : TreeKey d × Fin n) => ((δ q).1, clip (δ q).2) :=
      measurable_pi_iff.mpr fun q => hX0.comp (measurable_pi_apply q)
    exact indepFun_prod h1 h2
  · intro a b hab q hq hq'
    exact hab ((tree_device a _ _ hq).symm.trans (tree_device b _ _ hq'))

/-- **C140.** With the default proposal on the electrons' coordinates and the default settings, up to 100 steps from the start: an evaluation with independent walkers
reports, on average, the length of `Hφ - Eφ`, for any symmetric Hamiltonian. -/
theorem c140_default {m : ℕ} {H : L2C (volume : Measure (Fin m → ℝ)) →ₗ.[ℂ] L2C volume} (hs : Symmetric H) (φ : H.domain)
    (h0 : (φ : L2C (volume : Measure (Fin m → ℝ))) ≠ 0) {e : (Fin m → ℝ) → ℂ} (he : IsLocalEnergy H φ e) (hreal : ∀ x, (e x).im = 0) (d n : ℕ) (h2 : 2 ≤ d * n)
    (T : ℕ) (hT : 0 < T) (hT' : T ≤ 100) :
    let cfg : Cfg := ⟨10, 1 / 10, 100, 1 / 2, 55 / 100⟩
    ∃ (Ω Key : Type) (_ : MeasurableSpace Ω) (P : Measure Ω) (_ : IsProbabilityMeasure P) (g : RandomRng Ω Key (Fin m → ℝ) n) (keys : ℕ → Fin d → Key)
      (x₀ : Ω → Fin d → Batch Unit n (Fin m → ℝ)) (ψ : (Fin m → ℝ) → ℂ), (φ : L2C (volume : Measure (Fin m → ℝ))) =ᵐ[volume] ψ ∧
      Setup P (Measure.pi fun _ => gaussianReal 0 1) volume cfg g gaussianMove ψ keys x₀ (init cfg) T ∧ Separate P cfg.steps g keys x₀ T ∧
      ((∀ᵐ ω ∂P, reportedVar cfg g gaussianMove ψ e keys x₀ (init cfg) T ω = some 0) ↔ ∃ E : ℂ, H φ = E • (φ : L2C (volume : Measure (Fin m → ℝ)))) ∧
      ∃ v : Ω → ℝ, (∀ ω, reportedVar cfg g gaussianMove ψ e keys x₀ (init cfg) T ω = some (v ω)) ∧
        ∫ ω, v ω ∂P = (1 - 1 / (d * n : ℝ)) *
          (‖H φ - (energy H φ : ℂ) • (φ : L2C (volume : Measure (Fin m → ℝ)))‖ ^ 2 / ‖(φ : L2C (volume : Measure (Fin m → ℝ)))‖ ^ 2) := by
  intro cfg
  have hd : 0 < d := Nat.pos_of_ne_zero fun h => by simp [h] at h2
  have hn : 0 < n := Nat.pos_of_ne_zero fun h => by simp [h] at h2
  have hprob := Jaqmc.LossGrad.Grad.law_prob h0
  have hψ : Measurable ((φ : L2C (volume : Measure (Fin m → ℝ))) : (Fin m → ℝ) → ℂ) := (Lp.stronglyMeasurable (φ : L2C (volume : Measure (Fin m → ℝ)))).measurable
  obtain ⟨Ω, Key, i1, P, i2, g, keys, x₀, S, I⟩ := c140_exists (Measure.pi fun _ => gaussianReal 0 1) volume _ hψ gaussianMove cfg (init cfg)
    (by unfold gaussianMove; fun_prop) (c135_gaussian _) d n T
  have hst : Steady cfg (init cfg) T := by
    left
    intro k h1 h2
    show (0 + k) % 100 ≠ 0
    omega
  obtain ⟨v, h3, _, _, h4⟩ := c140_residual hd hn hT hs φ h0 Filter.EventuallyEq.rfl he S hst I
  refine ⟨Ω, Key, i1, P, i2, g, keys, x₀, _, Filter.EventuallyEq.rfl, S, I, c140_eigenstates hT h2 hs φ h0 Filter.EventuallyEq.rfl he hreal S hst I, v, h3, ?_⟩
  rw [h4]
  simp [hreal]

/-- Two devices with four walkers each, fifty steps, for `φ` and the operator `⟨χ, ·⟩ χ` with both functions real. -/
example (φ χ : L2C (volume : Measure (Fin 3 → ℝ))) (hφ : ∀ᵐ x, φ x ≠ 0) (h0 : φ ≠ 0) (c : ℝ) (hc : inner ℂ χ φ = (c : ℂ)) (r : (Fin 3 → ℝ) → ℝ)
    (hr : ∀ x, χ x / φ x = (r x : ℂ)) :
    ∃ (Ω Key : Type) (_ : MeasurableSpace Ω) (P : Measure Ω) (_ : IsProbabilityMeasure P) (g : RandomRng Ω Key (Fin 3 → ℝ) 4) (keys : ℕ → Fin 2 → Key)
      (x₀ : Ω → Fin 2 → Batch Unit 4 (Fin 3 → ℝ)) (ψ : (Fin 3 → ℝ) → ℂ),
      (∀ᵐ ω ∂P, reportedVar ⟨10, 1 / 10, 100, 1 / 2, 55 / 100⟩ g gaussianMove ψ (fun x => inner ℂ χ φ * (χ x / φ x)) keys x₀
        (init ⟨10, 1 / 10, 100, 1 / 2, 55 / 100⟩) 50 ω = some 0) ↔ ∃ E : ℂ, inner ℂ χ φ • χ = E • φ := by
  have e0 : ((Jaqmc.LossGrad.Props.line φ χ 0 : (Jaqmc.LossGrad.Props.rankOne χ).domain) : L2C (volume : Measure (Fin 3 → ℝ))) = φ := by
    show φ + ((0 : ℝ) : ℂ) • χ = φ
    simp
  obtain ⟨Ω, Key, i1, P, i2, g, keys, x₀, ψ, _, _, _, h, _⟩ := c140_default (Jaqmc.LossGrad.Props.rankOne_symmetric χ) (Jaqmc.LossGrad.Props.line φ χ 0)
    (by rw [e0]; exact h0) (Jaqmc.LossGrad.Props.line_local φ χ hφ) (fun x => by rw [hc, hr x]; simp) 2 4 (by norm_num) 50 (by norm_num) (by norm_num)
  rw [Jaqmc.LossGrad.Props.rankOne_apply, e0] at h
  exact ⟨Ω, Key, i1, P, i2, g, keys, x₀, ψ, h⟩

end Jaqmc.Average.Props
