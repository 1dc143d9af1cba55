import Verif.Lemmas.Training
import Verif.Model.Training
import Verif.Spec.Training
import Verif.Props.SampledGradient
/-!
C142: the walkers of a training run, whose wavefunction changes in every step.
-/
namespace Jaqmc.Average.Props
open Jaqmc.Sampler Jaqmc.Sampler.Props Jaqmc.Average Jaqmc.Average.Spec Jaqmc.Average.Training Jaqmc.LossGrad.Spec
open MeasureTheory ProbabilityTheory
open scoped ENNReal Classical

set_option linter.unusedSectionVars false

variable {V N Ω Key Θ : Type} {n d : ℕ} [MeasurableSpace V] [MeasurableSpace N]

/-! ### A step as a function of the past and of its draws -/

/-- The accepted moves of a device in the first `j` updates of a step. -/
noncomputable def accepted (a : V → ℝ) (move : N → V → V) (δ : Key × Fin n → N × ℝ) (x : Fin n → V) (split3 : Key → Key × Key × Key) (key : Key) (j : ℕ) : ℕ :=
  ∑ j' ∈ Finset.range j, ∑ i : Fin n,
    if (δ ((drawKeys split3 key j').2, i)).2 * a (chain a move (fun k => δ (k, i)) (x i) ((List.range j').map (drawKeys split3 key))) <
      a (move (δ ((drawKeys split3 key j').1, i)).1 (chain a move (fun k => δ (k, i)) (x i) ((List.range j').map (drawKeys split3 key)))) then 1 else 0

theorem loop_accepts (g : RandomRng Ω Key N n) (hu : ∀ k i ω, g.uniform k i ω ∈ Set.Ico (0 : ℝ) 1) (move : ℝ → N → V → V) (ψ : V → ℂ) (w : ℝ)
    (x : Batch Unit n V) (key : Key) (ω : Ω) (j : ℕ) :
    (mhLoop (g.seed ω) (batched fun _ y => logProbOf ψ (y ())) (moveAll g move ω w) j (start (batched fun _ y => logProbOf ψ (y ())) x key)).accepts =
      accepted (fun y => ‖ψ y‖ ^ 2) (move w) (fun q => (g.noise q.1 q.2 ω, g.uniform q.1 q.2 ω)) (x ()) g.split3 key j := by
  induction j with
  | zero => rfl
  | succ j ih =>
    have hx := fun i => loop_walker g hu move ψ w x key ω i j
    have hlp := mhLoop_logProb (g.seed ω) (fun _ y => logProbOf ψ (y ())) (moveAll g move ω w) x key j
    have hr := loop_rngs g (batched fun _ y => logProbOf ψ (y ())) (moveAll g move ω w) x key ω j
    unfold accepted at ih ⊢
    rw [Finset.sum_range_succ, ← ih]
    simp only [mhLoop]
    generalize mhLoop (g.seed ω) (batched fun _ y => logProbOf ψ (y ())) (moveAll g move ω w) j (start (batched fun _ y => logProbOf ψ (y ())) x key) = c at hlp hr hx ⊢
    simp only [← hx]
    show c.accepts + (Finset.univ.filter fun i => Sampler.cond (c.logProb i) (logProbOf ψ (move w (g.noise (g.split3 c.rngs).2.1 i ω) (c.x () i))) (g.uniform (g.split3 c.rngs).2.2 i ω)).card = _
    rw [Finset.card_filter]
    congr 1
    refine Finset.sum_congr rfl fun i _ => ?_
    have h1 := congrFun hlp i
    rw [h1, hr]
    exact if_congr (cond_iff ψ (c.x () i) _ _ (hu _ _ _)) rfl rfl

/-- The state of the sampler after steps with the given numbers of accepted moves, the last step first. -/
noncomputable def stateOf (cfg : Cfg) (n : ℕ) (s : State) : List (Fin d → ℕ) → State
  | [] => s
  | c :: r => if cfg.steps = 0 then stateOf cfg n s r else adapt cfg (stateOf cfg n s r) (pmoveOf cfg.steps n c)

/-- One more step. -/
def push (c : Fin d → ℕ) (r : Code d) : Code d := List.cons c r

/-- The updates of step `t` of a device. -/
def stepKeys (split3 : Key → Key × Key × Key) (keys : ℕ → Fin d → Key) (steps t : ℕ) (a : Fin d) : List (Key × Key) := (List.range steps).map (drawKeys split3 (keys t a))

/-- The walkers as the sampler holds them. -/
def asBatch (x : Fin d × Fin n → V) : Fin d → Batch Unit n V := fun a _ i => x (a, i)

/-- Where step `t` takes a walker. -/
noncomputable def moved (cfg : Cfg) (split3 : Key → Key × Key × Key) (move : ℝ → N → V → V) (ψ : Θ → V → ℂ) (keys : ℕ → Fin d → Key) (s : State) (t : ℕ) (w : Fin d × Fin n)
    (h : Θ × (Fin d × Fin n → V) × Code d) (δ : Key × Fin n → N × ℝ) : V :=
  chain (fun y => ‖ψ h.1 y‖ ^ 2) (move (stateOf cfg n s h.2.2).stddev) (fun k => δ (k, w.2)) (h.2.1 w) (stepKeys split3 keys cfg.steps t w.1)

/-- The moves step `t` accepts. -/
noncomputable def counted (cfg : Cfg) (split3 : Key → Key × Key × Key) (move : ℝ → N → V → V) (ψ : Θ → V → ℂ) (keys : ℕ → Fin d → Key) (s : State) (t : ℕ)
    (h : Θ × (Fin d × Fin n → V) × Code d) (δ : Key × Fin n → N × ℝ) : Fin d → ℕ := fun a =>
  accepted (fun y => ‖ψ h.1 y‖ ^ 2) (move (stateOf cfg n s h.2.2).stddev) δ (fun i => h.2.1 (a, i)) split3 (keys t a) cfg.steps

/-- All that happened before step `t`, from the starting places and the draws. -/
noncomputable def past (cfg : Cfg) (split3 : Key → Key × Key × Key) (move : ℝ → N → V → V) (ψ : Θ → V → ℂ) (update : ℕ → Θ → (Fin d → Batch Unit n V) → Θ)
    (keys : ℕ → Fin d → Key) (τ₀ : Θ) (s : State) (x : Fin d × Fin n → V) (δ : Key × Fin n → N × ℝ) : ℕ → Θ × (Fin d × Fin n → V) × Code d
  | 0 => (τ₀, x, ([] : List (Fin d → ℕ)))
  | t + 1 =>
    let h := past cfg split3 move ψ update keys τ₀ s x δ t
    let y := fun w => moved cfg split3 move ψ keys s t w h δ
    (update t h.1 (asBatch y), y, push (counted cfg split3 move ψ keys s t h δ) h.2.2)

theorem trainRun_past (cfg : Cfg) (g : RandomRng Ω Key N n) (hu : ∀ k i ω, g.uniform k i ω ∈ Set.Ico (0 : ℝ) 1) (move : ℝ → N → V → V) (ψ : Θ → V → ℂ)
    (update : ℕ → Θ → (Fin d → Batch Unit n V) → Θ) (keys : ℕ → Fin d → Key) (x₀ : Ω → Fin d → Batch Unit n V) (τ₀ : Θ) (s : State) (ω : Ω) (t : ℕ) :
    trainRun cfg g move ψ update keys x₀ τ₀ s ω t =
      (fun h : Θ × (Fin d × Fin n → V) × Code d => (h.1, asBatch h.2.1, stateOf cfg n s h.2.2))
        (past cfg g.split3 move ψ update keys τ₀ s (fun w => x₀ ω w.1 () w.2) (fun q => (g.noise q.1 q.2 ω, g.uniform q.1 q.2 ω)) t) := by
  induction t with
  | zero => rfl
  | succ t ih =>
    simp only [trainRun, past]
    rw [ih]
    generalize past cfg g.split3 move ψ update keys τ₀ s (fun w => x₀ ω w.1 () w.2) (fun q => (g.noise q.1 q.2 ω, g.uniform q.1 q.2 ω)) t = h
    have e1 : (step cfg (g.seed ω) (target (ψ h.1)) (moveAll g move ω) (asBatch h.2.1) (stateOf cfg n s h.2.2) (keys t)).1 =
        asBatch fun w => moved cfg g.split3 move ψ keys s t w h fun q => (g.noise q.1 q.2 ω, g.uniform q.1 q.2 ω) := by
      unfold step
      by_cases h0 : cfg.steps = 0
      · rw [if_pos h0]
        funext a f i
        simp [asBatch, moved, stepKeys, h0, chain]
      · rw [if_neg h0]
        funext a f i
        exact loop_walker g hu move (ψ h.1) _ (asBatch h.2.1 a) (keys t a) ω i cfg.steps
    have e2 : (step cfg (g.seed ω) (target (ψ h.1)) (moveAll g move ω) (asBatch h.2.1) (stateOf cfg n s h.2.2) (keys t)).2.2 =
        stateOf cfg n s (push (counted cfg g.split3 move ψ keys s t h fun q => (g.noise q.1 q.2 ω, g.uniform q.1 q.2 ω)) h.2.2) := by
      show _ = if cfg.steps = 0 then stateOf cfg n s h.2.2 else adapt cfg (stateOf cfg n s h.2.2)
        (pmoveOf cfg.steps n (counted cfg g.split3 move ψ keys s t h fun q => (g.noise q.1 q.2 ω, g.uniform q.1 q.2 ω)))
      unfold step
      by_cases h0 : cfg.steps = 0
      · rw [if_pos h0, if_pos h0]
      · rw [if_neg h0, if_neg h0]
        dsimp only
        congr 2
        funext a
        exact loop_accepts g hu move (ψ h.1) _ (asBatch h.2.1 a) (keys t a) ω cfg.steps
    dsimp only
    rw [e1, e2]

/-! ### Measurability -/

variable [MeasurableSpace Θ] [MeasurableSpace Ω]

theorem split_code {A B C : Type} [MeasurableSpace A] [MeasurableSpace B] [MeasurableSpace C] {D : Type} [MeasurableSpace D] {f : (A × B × Code d) × C → D}
    (h : ∀ c : Code d, Measurable fun p : A × B × C => f ((p.1, p.2.1, c), p.2.2)) : Measurable f := by
  have h1 : Measurable fun p : (A × B × C) × Code d => f ((p.1.1, p.1.2.1, p.2), p.1.2.2) := measurable_from_prod_countable_left h
  exact h1.comp (by fun_prop : Measurable fun p : (A × B × Code d) × C => ((p.1.1, p.1.2.1, p.2), p.1.2.2))

variable {cfg : Cfg} {split3 : Key → Key × Key × Key} {move : ℝ → N → V → V} {ψ : Θ → V → ℂ} {keys : ℕ → Fin d → Key} {s : State}

theorem moved_measurable (hψ : Measurable fun p : Θ × V => ψ p.1 p.2) (hmv : ∀ σ, Measurable fun p : V × N => move σ p.2 p.1) (t : ℕ) (w : Fin d × Fin n) :
    Measurable fun p : (Θ × (Fin d × Fin n → V) × Code d) × (Key × Fin n → N × ℝ) => moved cfg split3 move ψ keys s t w p.1 p.2 := by
  refine split_code fun c => ?_
  have h1 := chain_joint (a := fun τ y => ‖ψ τ y‖ ^ 2) (hψ.norm.pow_const 2) (hmv (stateOf cfg n s c).stddev) (stepKeys split3 keys cfg.steps t w.1)
  have h2 : Measurable fun p : Θ × (Fin d × Fin n → V) × (Key × Fin n → N × ℝ) => (p.1, p.2.1 w, fun k => p.2.2 (k, w.2)) := by
    refine measurable_fst.prodMk (Measurable.prodMk (by fun_prop) (measurable_pi_iff.mpr fun k => by fun_prop))
  exact h1.comp h2

theorem counted_measurable (hψ : Measurable fun p : Θ × V => ψ p.1 p.2) (hmv : ∀ σ, Measurable fun p : V × N => move σ p.2 p.1) (t : ℕ) :
    Measurable fun p : (Θ × (Fin d × Fin n → V) × Code d) × (Key × Fin n → N × ℝ) => counted cfg split3 move ψ keys s t p.1 p.2 := by
  refine split_code fun c => measurable_pi_iff.mpr fun a => ?_
  unfold counted accepted
  refine Finset.measurable_sum _ fun j _ => Finset.measurable_sum _ fun i _ => ?_
  have h1 := accept_measurable (a := fun τ y => ‖ψ τ y‖ ^ 2) (hψ.norm.pow_const 2) (hmv (stateOf cfg n s c).stddev) ((List.range j).map (drawKeys split3 (keys t a))) (drawKeys split3 (keys t a) j)
  have h2 : Measurable fun p : Θ × (Fin d × Fin n → V) × (Key × Fin n → N × ℝ) => (p.1, p.2.1 (a, i), fun k => p.2.2 (k, i)) := by
    refine measurable_fst.prodMk (Measurable.prodMk (by fun_prop) (measurable_pi_iff.mpr fun k => by fun_prop))
  exact Measurable.ite (h2 h1) measurable_const measurable_const

theorem past_measurable (hψ : Measurable fun p : Θ × V => ψ p.1 p.2) (hmv : ∀ σ, Measurable fun p : V × N => move σ p.2 p.1) {update : ℕ → Θ → (Fin d → Batch Unit n V) → Θ}
    (hup : ∀ t, Measurable fun p : Θ × (Fin d × Fin n → V) => update t p.1 (asBatch p.2)) (τ₀ : Θ) (t : ℕ) :
    Measurable fun p : (Fin d × Fin n → V) × (Key × Fin n → N × ℝ) => past cfg split3 move ψ update keys τ₀ s p.1 p.2 t := by
  induction t with
  | zero => exact measurable_const.prodMk (measurable_fst.prodMk measurable_const)
  | succ t ih =>
    simp only [past]
    have hp := ih.prodMk (measurable_snd : Measurable fun p : (Fin d × Fin n → V) × (Key × Fin n → N × ℝ) => p.2)
    have hy : Measurable fun p : (Fin d × Fin n → V) × (Key × Fin n → N × ℝ) => fun w => moved cfg split3 move ψ keys s t w (past cfg split3 move ψ update keys τ₀ s p.1 p.2 t) p.2 :=
      measurable_pi_iff.mpr fun w => (moved_measurable (cfg := cfg) (split3 := split3) (keys := keys) (s := s) hψ hmv t w).comp hp
    have hc := (counted_measurable (cfg := cfg) (split3 := split3) (keys := keys) (s := s) (n := n) hψ hmv t).comp hp
    refine ((hup t).comp ((measurable_fst.comp ih).prodMk hy)).prodMk (hy.prodMk ?_)
    have hcons : Measurable fun q : (Fin d → ℕ) × Code d => push q.1 q.2 := measurable_of_countable _
    exact hcons.comp (hc.prodMk (measurable_snd.comp (measurable_snd.comp ih)))

/-! ### Which draws a step uses -/

theorem moved_dep (t : ℕ) (w : Fin d × Fin n) (h : Θ × (Fin d × Fin n → V) × Code d) (δ δ' : Key × Fin n → N × ℝ)
    (he : ∀ k ∈ allKeys (stepKeys split3 keys cfg.steps t w.1), δ (k, w.2) = δ' (k, w.2)) :
    moved cfg split3 move ψ keys s t w h δ = moved cfg split3 move ψ keys s t w h δ' := by
  unfold moved
  exact chain_congr _ _ _ _ _ _ fun q hq => ⟨he _ (mem_allKeys hq).1, he _ (mem_allKeys hq).2⟩

theorem counted_dep (t : ℕ) (h : Θ × (Fin d × Fin n → V) × Code d) (δ δ' : Key × Fin n → N × ℝ)
    (he : ∀ a, ∀ k ∈ allKeys (stepKeys split3 keys cfg.steps t a), ∀ i, δ (k, i) = δ' (k, i)) :
    counted cfg split3 move ψ keys s t h δ = counted cfg split3 move ψ keys s t h δ' := by
  funext a
  unfold counted accepted
  refine Finset.sum_congr rfl fun j hj => Finset.sum_congr rfl fun i _ => ?_
  have hm : ∀ j' < cfg.steps, drawKeys split3 (keys t a) j' ∈ stepKeys split3 keys cfg.steps t a := fun j' hj' => by
    unfold stepKeys; exact List.mem_map.mpr ⟨j', List.mem_range.mpr hj', rfl⟩
  have hjs := Finset.mem_range.mp hj
  have hc : ∀ x : V, chain (fun y => ‖ψ h.1 y‖ ^ 2) (move (stateOf cfg n s h.2.2).stddev) (fun k => δ (k, i)) x ((List.range j).map (drawKeys split3 (keys t a))) =
      chain (fun y => ‖ψ h.1 y‖ ^ 2) (move (stateOf cfg n s h.2.2).stddev) (fun k => δ' (k, i)) x ((List.range j).map (drawKeys split3 (keys t a))) := by
    intro x
    refine chain_congr _ _ _ _ _ _ fun q hq => ?_
    obtain ⟨j', hj', rfl⟩ := List.mem_map.mp hq
    have := hm j' (lt_trans (List.mem_range.mp hj') hjs)
    exact ⟨he a _ (mem_allKeys this).1 i, he a _ (mem_allKeys this).2 i⟩
  rw [hc, he a _ (mem_allKeys (hm j hjs)).1 i, he a _ (mem_allKeys (hm j hjs)).2 i]

theorem past_dep {update : ℕ → Θ → (Fin d → Batch Unit n V) → Θ} (τ₀ : Θ) (x : Fin d × Fin n → V) (t : ℕ) (δ δ' : Key × Fin n → N × ℝ)
    (he : ∀ t' < t, ∀ a, ∀ k ∈ allKeys (stepKeys split3 keys cfg.steps t' a), ∀ i, δ (k, i) = δ' (k, i)) :
    past cfg split3 move ψ update keys τ₀ s x δ t = past cfg split3 move ψ update keys τ₀ s x δ' t := by
  induction t with
  | zero => rfl
  | succ t ih =>
    simp only [past]
    rw [ih fun t' ht' => he t' (by omega)]
    have h1 := he t (by omega)
    have h2 : ∀ w h, moved cfg split3 move ψ keys s t w h δ = moved cfg split3 move ψ keys s t w h δ' := fun w h => moved_dep t w h δ δ' fun k hk => h1 _ k hk _
    simp only [h2]
    rw [counted_dep t _ δ δ' h1]

/-! ### One update, whatever the wavefunction -/

/-- The circumstances under which all wavefunctions of a family are reached at one rate: none is concentrated more than `K` allows. -/
structure Spread (μ : Measure V) (ψ : Θ → V → ℂ) (K : ℝ) : Prop where
  measurable : Measurable fun p : Θ × V => ψ p.1 p.2
  positive : ∀ τ, 0 < ∫ y, ‖ψ τ y‖ ^ 2 ∂μ
  bounded : ∀ τ x, ‖ψ τ x‖ ^ 2 ≤ K * ∫ y, ‖ψ τ y‖ ^ 2 ∂μ

variable {μ : Measure V} {ν : Measure N} {K : ℝ}

theorem spread_measurable (B : Spread μ ψ K) (τ : Θ) : Measurable (ψ τ) := B.measurable.comp measurable_prodMk_left

theorem spread_prob (B : Spread μ ψ K) (τ : Θ) : IsProbabilityMeasure (walkerLaw μ (ψ τ)) := by
  refine walkerLaw_probability ?_ (B.positive τ)
  by_contra h
  have := B.positive τ
  rw [integral_undef h] at this
  exact lt_irrefl _ this

theorem spread_pos (B : Spread μ ψ K) (τ : Θ) : 0 < K := by
  by_contra hK
  have h : ∀ x, ‖ψ τ x‖ ^ 2 ≤ 0 := fun x => (B.bounded τ x).trans (mul_nonpos_of_nonpos_of_nonneg (not_lt.mp hK) (B.positive τ).le)
  have h0 : ∀ x, ‖ψ τ x‖ ^ 2 = 0 := fun x => le_antisymm (h x) (by positivity)
  have := B.positive τ
  simp [h0] at this

/-- The law of the walkers depends measurably on the parameters. -/
theorem spread_law [SFinite μ] (B : Spread μ ψ K) {S : Set V} (hS : MeasurableSet S) : Measurable fun τ => walkerLaw μ (ψ τ) S := by
  have h1 : Measurable fun p : Θ × V => ‖ψ p.1 p.2‖ ^ 2 := B.measurable.norm.pow_const 2
  have h2 : Measurable fun τ => ∫ y, ‖ψ τ y‖ ^ 2 ∂μ := h1.stronglyMeasurable.integral_prod_right'.measurable
  have h3 : Measurable fun p : Θ × V => ENNReal.ofReal (‖ψ p.1 p.2‖ ^ 2 / ∫ y, ‖ψ p.1 y‖ ^ 2 ∂μ) := (h1.div (h2.comp measurable_fst)).ennreal_ofReal
  have e : ∀ τ, walkerLaw μ (ψ τ) S = ∫⁻ x in S, ENNReal.ofReal (‖ψ τ x‖ ^ 2 / ∫ y, ‖ψ τ y‖ ^ 2 ∂μ) ∂μ := fun τ => by
    unfold walkerLaw
    exact withDensity_apply _ hS
  simp_rw [e]
  exact h3.lintegral_prod_right'

/-- One rate for all wavefunctions and all widths: a step brings a walker near the law of whatever wavefunction it is made for. -/
theorem spread_mixes [IsProbabilityMeasure ν] (B : Spread μ ψ K) {c : ℝ≥0∞} (hc1 : c ≤ 1) (τ : Θ) {mv : N → V → V} (hmv : Measurable fun p : V × N => mv p.2 p.1) (hr : Reversible μ ν mv)
    (hc : ∀ x, ∀ f : V → ℝ≥0∞, Measurable f → c * ∫⁻ y, f y ∂μ ≤ ∫⁻ z, f (mv z x) ∂ν) :
    c.toReal / K ≤ 1 ∧ ∀ (P : Measure Ω) [IsProbabilityMeasure P] (noise : Key → Ω → N) (uniform : Key → Ω → ℝ), Independent P ν noise uniform →
      ∀ ks : List (Key × Key), (allKeys ks).Nodup → ∀ (x : V) (f : V → ℝ), Measurable f → (∀ y, |f y| ≤ 1) →
        |∫ ω, f (chain (fun y => ‖ψ τ y‖ ^ 2) mv (fun k => (noise k ω, uniform k ω)) x ks) ∂P - ∫ y, f y ∂walkerLaw μ (ψ τ)| ≤ 2 * (1 - c.toReal / K) ^ ks.length := by
  have hp := spread_prob B τ
  have hK := spread_pos B τ
  have hψ := spread_measurable B τ
  have ha : Measurable fun y => ‖ψ τ y‖ ^ 2 := hψ.norm.pow_const 2
  have hct : c ≠ ∞ := ne_top_of_le_ne_top ENNReal.one_ne_top hc1
  set Z := ∫ y, ‖ψ τ y‖ ^ 2 ∂μ with hZd
  have hZ : 0 < Z := B.positive τ
  have hcov : ∀ x, ∀ f : V → ℝ≥0∞, Measurable f →
      ENNReal.ofReal (c.toReal / K) * ∫⁻ y, f y ∂(walkerLaw μ (ψ τ)) ≤ ∫⁻ q, f (wstep (fun y => ‖ψ τ y‖ ^ 2) mv x q.1 q.2) ∂(ν.prod unif) := by
    intro x f hf
    refine le_trans (le_of_eq ?_) (update_covers (c := c) ha (fun x => by positivity) (mul_pos hK hZ) (B.bounded τ) hmv x (hc x) f hf)
    have hden : Measurable fun x => ENNReal.ofReal (‖ψ τ x‖ ^ 2 / Z) := (ha.div_const _).ennreal_ofReal
    unfold walkerLaw
    rw [lintegral_withDensity_eq_lintegral_mul _ hden hf]
    simp only [Pi.mul_apply]
    rw [div_eq_mul_inv, ENNReal.ofReal_mul ENNReal.toReal_nonneg, ENNReal.ofReal_toReal hct, mul_assoc]
    congr 1
    have m1 : Measurable fun y => ENNReal.ofReal (‖ψ τ y‖ ^ 2 / Z) * f y := hden.mul hf
    rw [← lintegral_const_mul _ m1]
    refine lintegral_congr fun y => ?_
    rw [← mul_assoc, ← ENNReal.ofReal_mul (by positivity)]
    congr 2
    field_simp
  have hN : Nonempty N := nonempty_of_isProbabilityMeasure ν
  have h0 : 0 ≤ c.toReal / K := div_nonneg ENNReal.toReal_nonneg hK.le
  have h1 : c.toReal / K ≤ 1 := by
    obtain ⟨x⟩ := nonempty_of_isProbabilityMeasure (walkerLaw μ (ψ τ))
    have := hcov x (fun _ => 1) measurable_const
    simp only [lintegral_const, measure_univ, mul_one] at this
    exact ENNReal.ofReal_le_one.mp this
  refine ⟨h1, fun P _ noise uniform hI ks hd x f hf hb => ?_⟩
  have := chain_mixes hI ha hmv h0 h1 hcov (law_kept hψ hmv hr) ks hd x hf (fun y => abs_le.mp (hb y))
  refine this.trans (le_of_eq (by ring))

/-! ### The walkers of a training run -/

theorem stepKeys_mem {split3 : Key → Key × Key × Key} {keys : ℕ → Fin d → Key} {steps t T : ℕ} (ht : t < T) {a : Fin d} {k : Key}
    (hk : k ∈ allKeys (stepKeys split3 keys steps t a)) : k ∈ keysUsed split3 (fun t => keys t a) steps T := by
  unfold allKeys stepKeys at hk
  rw [List.mem_flatMap] at hk
  obtain ⟨q, hq, hk⟩ := hk
  obtain ⟨j, hj, rfl⟩ := List.mem_map.mp hq
  unfold keysUsed
  exact List.mem_flatMap.mpr ⟨t, List.mem_range.mpr ht, List.mem_flatMap.mpr ⟨j, hj, hk⟩⟩

theorem stepKeys_fresh {split3 : Key → Key × Key × Key} {keys : ℕ → Fin d → Key} {steps t T : ℕ} (ht : t < T) {a : Fin d}
    (h : (keysUsed split3 (fun t => keys t a) steps T).Nodup) :
    (allKeys (stepKeys split3 keys steps t a)).Nodup ∧ ∀ t' < t, List.Disjoint (allKeys (stepKeys split3 keys steps t' a)) (allKeys (stepKeys split3 keys steps t a)) := by
  have e : ∀ t, allKeys (stepKeys split3 keys steps t a) = (List.range steps).flatMap fun j => [(drawKeys split3 (keys t a) j).1, (drawKeys split3 (keys t a) j).2] := by
    intro t
    unfold allKeys stepKeys
    rw [List.flatMap_map]
  have h1 := keysUsed_nodup h (k := t + 1) (by omega)
  unfold keysUsed at h1
  rw [List.range_succ, List.flatMap_append, List.nodup_append] at h1
  obtain ⟨_, h2, h3⟩ := h1
  rw [List.flatMap_singleton] at h2 h3
  rw [← e] at h2 h3
  refine ⟨h2, fun t' ht' k hk hk' => ?_⟩
  rw [e] at hk
  exact h3 k (List.mem_flatMap.mpr ⟨t', List.mem_range.mpr ht', hk⟩) k hk' rfl

/-- **C142.** Training: the parameters change in every step, by any rule from the batch, and the width of the proposals is adapted all along.  If no wavefunction is concentrated
more than `K` allows and proposals of the widths in use go everywhere, then the walkers on which a step computes its gradient are, together with everything the run holds before
that step, as good as an independent sample from the squared current wavefunction: the chance of no event differs by more than `2 N ρ ^ steps`, for all steps, all runs, all starts
and all rules. -/
theorem c142_batch [SFinite μ] [IsProbabilityMeasure ν] (B : Spread μ ψ K) [Nonempty Θ] (hmv : ∀ σ, Measurable fun p : V × N => move σ p.2 p.1) {W : Set ℝ}
    (hr : ∀ σ ∈ W, Reversible μ ν (move σ)) {c : ℝ≥0∞} (hc0 : c ≠ 0) (hc : ∀ σ ∈ W, ∀ x, ∀ f : V → ℝ≥0∞, Measurable f → c * ∫⁻ y, f y ∂μ ≤ ∫⁻ z, f (move σ z x) ∂ν)
    (hW : W.Nonempty) :
    ∃ ρ : ℝ, 0 ≤ ρ ∧ ρ < 1 ∧ ∀ (Ω Key : Type) (_ : MeasurableSpace Ω) (P : Measure Ω) (_ : IsProbabilityMeasure P) (n d : ℕ) (cfg : Cfg) (g : RandomRng Ω Key N n)
      (update : ℕ → Θ → (Fin d → Batch Unit n V) → Θ) (keys : ℕ → Fin d → Key) (x₀ : Ω → Fin d → Batch Unit n V) (τ₀ : Θ) (s : State) (T : ℕ),
      Draws P ν cfg.steps g keys x₀ T → (∀ t, Measurable fun p : Θ × (Fin d × Fin n → V) => update t p.1 fun a _ i => p.2 (a, i)) →
      (∀ t < T, ∀ ω, trainWidth cfg g move ψ update keys x₀ τ₀ s ω t ∈ W) → ∀ t < T,
      ∀ φ : (Θ × (Fin d × Fin n → V)) × (Fin d × Fin n → V) → ℝ, Measurable φ → (∀ p, 0 ≤ φ p) → (∀ p, φ p ≤ 1) →
        |∫ ω, φ ((trained cfg g move ψ update keys x₀ τ₀ s ω t, fun w => trainWalkers cfg g move ψ update keys x₀ τ₀ s ω t w.1 () w.2),
              fun w => trainWalkers cfg g move ψ update keys x₀ τ₀ s ω (t + 1) w.1 () w.2) ∂P -
          ∫ ω, ∫ y, φ ((trained cfg g move ψ update keys x₀ τ₀ s ω t, fun w => trainWalkers cfg g move ψ update keys x₀ τ₀ s ω t w.1 () w.2), y)
              ∂(Measure.pi fun _ => walkerLaw μ (ψ (trained cfg g move ψ update keys x₀ τ₀ s ω t))) ∂P| ≤ 2 * ((d * n : ℕ) : ℝ) * ρ ^ cfg.steps := by
  obtain ⟨σ₀, hσ₀⟩ := hW
  have τ₁ := Classical.arbitrary Θ
  have hK := spread_pos B τ₁
  set c' := min c 1 with hc'
  have hc'0 : c' ≠ 0 := by rw [hc']; exact (lt_min (pos_iff_ne_zero.mpr hc0) one_pos).ne'
  have hc't : c' ≠ ∞ := ne_top_of_le_ne_top ENNReal.one_ne_top (min_le_right _ _)
  have hcov : ∀ σ ∈ W, ∀ x, ∀ f : V → ℝ≥0∞, Measurable f → c' * ∫⁻ y, f y ∂μ ≤ ∫⁻ z, f (move σ z x) ∂ν := fun σ hσ x f hf =>
    (mul_le_mul_left (min_le_left _ _) _).trans (hc σ hσ x f hf)
  have hε0 : 0 < c'.toReal / K := div_pos (ENNReal.toReal_pos hc'0 hc't) hK
  have hε1 := (spread_mixes (Ω := Unit) (Key := Unit) B (min_le_right c 1) τ₁ (hmv σ₀) (hr σ₀ hσ₀) (hcov σ₀ hσ₀)).1
  refine ⟨1 - c'.toReal / K, by linarith, by linarith, ?_⟩
  intro Ω Key _ P _ n d cfg g update keys x₀ τ₀ s T D hup hw t ht φ hφ h0 h1
  rcases isEmpty_or_nonempty (Fin d × Fin n) with he | ⟨⟨w₀⟩⟩
  · have hnil : ∀ (x y : Fin d × Fin n → V), x = y := fun x y => Subsingleton.elim _ _
    have : ∀ ω, (∫ y, φ ((trained cfg g move ψ update keys x₀ τ₀ s ω t, fun w => trainWalkers cfg g move ψ update keys x₀ τ₀ s ω t w.1 () w.2), y)
              ∂(Measure.pi fun _ => walkerLaw μ (ψ (trained cfg g move ψ update keys x₀ τ₀ s ω t)))) =
        φ ((trained cfg g move ψ update keys x₀ τ₀ s ω t, fun w => trainWalkers cfg g move ψ update keys x₀ τ₀ s ω t w.1 () w.2),
              fun w => trainWalkers cfg g move ψ update keys x₀ τ₀ s ω (t + 1) w.1 () w.2) := by
      intro ω
      have hpp := fun _ : Fin d × Fin n => spread_prob B (trained cfg g move ψ update keys x₀ τ₀ s ω t)
      simp_rw [fun y => hnil y fun w => trainWalkers cfg g move ψ update keys x₀ τ₀ s ω (t + 1) w.1 () w.2]
      simp
    simp_rw [this]
    rw [sub_self, abs_zero]
    have : 0 ≤ (1 - c'.toReal / K) ^ cfg.steps := pow_nonneg (by linarith) _
    positivity
  have hΩ : Nonempty Ω := nonempty_of_isProbabilityMeasure P
  have hN : Nonempty N := ⟨g.noise (keys 0 w₀.1) w₀.2 (Classical.arbitrary Ω)⟩
  have hu : ∀ k i ω, g.uniform k i ω ∈ Set.Ico (0 : ℝ) 1 := fun k i ω => (D.each i).range k ω
  have hF : ∀ q : Key × Fin n, Measurable fun ω => (g.noise q.1 q.2 ω, g.uniform q.1 q.2 ω) := fun q => (D.each q.2).measurable q.1
  have hrun := trainRun_past cfg g hu move ψ update keys x₀ τ₀ s
  have key := step_near (ι := Fin d × Fin n) (B := V) (H := Θ × (Fin d × Fin n → V) × Code d) hF D.all (x := fun ω w => x₀ ω w.1 () w.2)
    (measurable_pi_iff.mpr fun w : Fin d × Fin n => D.measurable w.1 w.2) D.starts
    (S := (Finset.univ : Finset (Fin d × Fin n)).biUnion fun w => ((List.range t).flatMap fun t' => (allKeys (stepKeys g.split3 keys cfg.steps t' w.1)).map fun k => (k, w.2)).toFinset)
    (S' := fun w => ((allKeys (stepKeys g.split3 keys cfg.steps t w.1)).map fun k => (k, w.2)).toFinset)
    (by
      intro w
      rw [Finset.disjoint_left]
      intro q hq hq'
      simp only [Finset.mem_biUnion, Finset.mem_univ, true_and, List.mem_toFinset, List.mem_flatMap, List.mem_range, List.mem_map] at hq hq'
      obtain ⟨w', t', ht', k, hk, rfl⟩ := hq
      obtain ⟨k', hk', e⟩ := hq'
      obtain ⟨rfl, e2⟩ := Prod.mk.inj e
      by_cases hww : w'.1 = w.1
      · rw [hww] at hk
        exact (stepKeys_fresh ht (D.fresh w.1)).2 t' ht' hk hk'
      · exact D.apart _ _ hww (stepKeys_mem (by omega) hk) (stepKeys_mem ht hk'))
    (by
      intro w w' hww
      rw [Finset.disjoint_left]
      intro q hq hq'
      simp only [List.mem_toFinset, List.mem_map] at hq hq'
      obtain ⟨k, hk, rfl⟩ := hq
      obtain ⟨k', hk', e⟩ := hq'
      obtain ⟨rfl, e2⟩ := Prod.mk.inj e
      exact D.apart _ _ (fun h => hww (Prod.ext h e2.symm)) (stepKeys_mem ht hk) (stepKeys_mem ht hk'))
    (f := fun x δ => past cfg g.split3 move ψ update keys τ₀ s x δ t) (past_measurable B.measurable hmv hup τ₀ t)
    (by
      intro x δ δ' h
      refine past_dep τ₀ x t δ δ' fun t' ht' a k hk i => h _ ?_
      simp only [Finset.mem_biUnion, Finset.mem_univ, true_and, List.mem_toFinset, List.mem_flatMap, List.mem_range, List.mem_map]
      exact ⟨(a, i), t', ht', k, hk, rfl⟩)
    (e := fun w h δ => moved cfg g.split3 move ψ keys s t w h δ) (moved_measurable B.measurable hmv t)
    (by
      intro w h δ δ' hδ
      refine moved_dep t w h δ δ' fun k hk => hδ _ ?_
      simp only [List.mem_toFinset, List.mem_map]
      exact ⟨k, hk, rfl⟩)
    (Q := fun h => walkerLaw μ (ψ h.1)) (fun h => spread_prob B h.1) (fun S hS => (spread_law B hS).comp measurable_fst)
    (δ := 2 * (1 - c'.toReal / K) ^ cfg.steps) (by have : 0 ≤ (1 - c'.toReal / K) ^ cfg.steps := pow_nonneg (by linarith) _
                                                   positivity)
    (by
      intro ω w f hf hb
      have hwid := hw t ht ω
      unfold trainWidth at hwid
      rw [hrun] at hwid
      have hm := (spread_mixes (Ω := Ω) (Key := Key) B (min_le_right c 1)
        (past cfg g.split3 move ψ update keys τ₀ s (fun w => x₀ ω w.1 () w.2) (fun q => (g.noise q.1 q.2 ω, g.uniform q.1 q.2 ω)) t).1 (hmv _) (hr _ hwid) (hcov _ hwid)).2 P _ _ (D.each w.2)
        (stepKeys g.split3 keys cfg.steps t w.1) (stepKeys_fresh ht (D.fresh w.1)).1
        ((past cfg g.split3 move ψ update keys τ₀ s (fun w => x₀ ω w.1 () w.2) (fun q => (g.noise q.1 q.2 ω, g.uniform q.1 q.2 ω)) t).2.1 w) f hf hb
      have hl : (stepKeys g.split3 keys cfg.steps t w.1).length = cfg.steps := by simp [stepKeys]
      rw [hl] at hm
      exact hm)
    (φ := fun p => φ ((p.1.1, p.1.2.1), p.2)) (hφ.comp (by fun_prop)) (fun p => h0 _) (fun p => h1 _)
  have hcard : (Fintype.card (Fin d × Fin n) : ℝ) = ((d * n : ℕ) : ℝ) := by simp
  rw [hcard] at key
  unfold trained trainWalkers
  simp only [hrun]
  refine (le_of_eq ?_).trans (key.trans (le_of_eq (by ring)))
  rfl

/-! ### The widths in use -/

/-- The widths `t` adaptations can lead to. -/
def Reachable (σ : ℝ) (t : ℕ) : Set ℝ := {w | ∃ j : ℤ, |j| ≤ t ∧ w = σ * (11 / 10) ^ j}

theorem reachable_finite (σ : ℝ) (t : ℕ) : (Reachable σ t).Finite := by
  refine (((Set.finite_Icc (-(t : ℤ)) t).image fun j : ℤ => σ * (11 / 10 : ℝ) ^ j)).subset ?_
  rintro w ⟨j, hj, rfl⟩
  exact ⟨j, abs_le.mp hj, rfl⟩

theorem reachable_mono (σ : ℝ) {t t' : ℕ} (h : t ≤ t') : Reachable σ t ⊆ Reachable σ t' := by
  rintro w ⟨j, hj, rfl⟩
  exact ⟨j, hj.trans (by exact_mod_cast h), rfl⟩

theorem trainWidth_reachable (cfg : Cfg) (g : RandomRng Ω Key N n) (move : ℝ → N → V → V) (ψ : Θ → V → ℂ) (update : ℕ → Θ → (Fin d → Batch Unit n V) → Θ)
    (keys : ℕ → Fin d → Key) (x₀ : Ω → Fin d → Batch Unit n V) (τ₀ : Θ) (s : State) (ω : Ω) (t : ℕ) :
    trainWidth cfg g move ψ update keys x₀ τ₀ s ω t ∈ Reachable s.stddev t := by
  unfold trainWidth
  induction t with
  | zero => exact ⟨0, by simp, by simp [trainRun]⟩
  | succ t ih =>
    simp only [trainRun]
    generalize trainRun cfg g move ψ update keys x₀ τ₀ s ω t = h at ih ⊢
    obtain ⟨j, hj, e⟩ := ih
    have hc : (step cfg (g.seed ω) (target (ψ h.1)) (moveAll g move ω) h.2.1 h.2.2 (keys t)).2.2.stddev ∈ ({h.2.2.stddev, h.2.2.stddev * 1.1, h.2.2.stddev / 1.1} : Set ℝ) := by
      unfold step
      split
      · simp
      · unfold adapt
        dsimp only
        split
        · split
          · simp
          · split <;> simp
        · simp
    have h11 : (11 / 10 : ℝ) ≠ 0 := by norm_num
    rcases hc with hc | hc | hc
    · rw [hc, e]
      exact ⟨j, hj.trans (by push_cast; omega), rfl⟩
    · rw [hc, e]
      refine ⟨j + 1, (abs_add_le j 1).trans (by push_cast; rw [abs_one]; omega), ?_⟩
      rw [zpow_add_one₀ h11]
      norm_num
      ring
    · rw [Set.mem_singleton_iff.mp hc, e]
      refine ⟨j - 1, (abs_sub j 1).trans (by push_cast; rw [abs_one]; omega), ?_⟩
      rw [zpow_sub_one₀ h11]
      norm_num
      ring

/-! ### Solids -/

open Jaqmc.Geometry Jaqmc.Geometry.Props.Sphere

/-- What C142 promises for one family of wavefunctions, one proposal, the widths `W` and runs of `T` steps. -/
def TracksTraining (μ : Measure V) (ν : Measure N) (ψ : Θ → V → ℂ) (move : ℝ → N → V → V) (W : Set ℝ) (ρ : ℝ) : Prop :=
  ∀ (Ω Key : Type) (_ : MeasurableSpace Ω) (P : Measure Ω) (_ : IsProbabilityMeasure P) (n d : ℕ) (cfg : Cfg) (g : RandomRng Ω Key N n)
    (update : ℕ → Θ → (Fin d → Batch Unit n V) → Θ) (keys : ℕ → Fin d → Key) (x₀ : Ω → Fin d → Batch Unit n V) (τ₀ : Θ) (s : State) (T : ℕ),
    Draws P ν cfg.steps g keys x₀ T → (∀ t, Measurable fun p : Θ × (Fin d × Fin n → V) => update t p.1 fun a _ i => p.2 (a, i)) →
    (∀ t < T, ∀ ω, trainWidth cfg g move ψ update keys x₀ τ₀ s ω t ∈ W) → ∀ t < T,
    ∀ φ : (Θ × (Fin d × Fin n → V)) × (Fin d × Fin n → V) → ℝ, Measurable φ → (∀ p, 0 ≤ φ p) → (∀ p, φ p ≤ 1) →
      |∫ ω, φ ((trained cfg g move ψ update keys x₀ τ₀ s ω t, fun w => trainWalkers cfg g move ψ update keys x₀ τ₀ s ω t w.1 () w.2),
            fun w => trainWalkers cfg g move ψ update keys x₀ τ₀ s ω (t + 1) w.1 () w.2) ∂P -
        ∫ ω, ∫ y, φ ((trained cfg g move ψ update keys x₀ τ₀ s ω t, fun w => trainWalkers cfg g move ψ update keys x₀ τ₀ s ω t w.1 () w.2), y)
            ∂(Measure.pi fun _ => walkerLaw μ (ψ (trained cfg g move ψ update keys x₀ τ₀ s ω t))) ∂P| ≤ 2 * ((d * n : ℕ) : ℝ) * ρ ^ cfg.steps

/-- **C142.** Solids: for any finite number of widths in use, none of them zero. -/
theorem c142_solid [Nonempty Θ] {m c : ℕ} (L : Matrix (Fin c) (Fin c) ℝ) (hL : IsUnit L.det) {ψ : Θ → (Fin m → Fin c → ℝ) → ℂ} (B : Spread (cells m L) ψ K) {W : Set ℝ} (hW : W.Finite)
    (hW0 : (0 : ℝ) ∉ W) (hWn : W.Nonempty) :
    ∃ ρ : ℝ, 0 ≤ ρ ∧ ρ < 1 ∧ TracksTraining (cells m L) (Measure.pi fun _ : Fin m => Measure.pi fun _ : Fin c => gaussianReal 0 1) ψ (pbcMoveAll L) W ρ := by
  have := cells_finite m L
  obtain ⟨σ₀, hσ₀, hmin⟩ := Set.exists_min_image W (fun σ => Geometry.Cell.share L σ ^ m) hW hWn
  have hne : ∀ σ ∈ W, σ ≠ 0 := fun σ hσ h => hW0 (h ▸ hσ)
  exact c142_batch B (pbcMoveAll_measurable L) (fun σ _ => c136_cell L hL σ) (pow_ne_zero m (Geometry.Cell.share_pos L (hne σ₀ hσ₀)))
    (fun σ hσ x f hf => (mul_le_mul_left (hmin σ hσ) _).trans (Geometry.Cell.cells_cover L hL (hne σ hσ) x f hf)) hWn

/-- **C142.** Solids with the width adapted all along, in runs of `T` steps from a width other than zero. -/
theorem c142_solid_adapting [Nonempty Θ] {m c : ℕ} (L : Matrix (Fin c) (Fin c) ℝ) (hL : IsUnit L.det) {ψ : Θ → (Fin m → Fin c → ℝ) → ℂ} (B : Spread (cells m L) ψ K) {σ : ℝ} (hσ : σ ≠ 0) (T : ℕ) :
    ∃ ρ : ℝ, 0 ≤ ρ ∧ ρ < 1 ∧
    ∀ (Ω Key : Type) (_ : MeasurableSpace Ω) (P : Measure Ω) (_ : IsProbabilityMeasure P) (n d : ℕ) (cfg : Cfg) (g : RandomRng Ω Key (Fin m → Fin c → ℝ) n)
      (update : ℕ → Θ → (Fin d → Batch Unit n (Fin m → Fin c → ℝ)) → Θ) (keys : ℕ → Fin d → Key) (x₀ : Ω → Fin d → Batch Unit n (Fin m → Fin c → ℝ)) (τ₀ : Θ) (s : State),
      s.stddev = σ → Draws P (Measure.pi fun _ : Fin m => Measure.pi fun _ : Fin c => gaussianReal 0 1) cfg.steps g keys x₀ T →
      (∀ t, Measurable fun p : Θ × (Fin d × Fin n → Fin m → Fin c → ℝ) => update t p.1 fun a _ i => p.2 (a, i)) → ∀ t < T,
      ∀ A : Set (Θ × (Fin d × Fin n → Fin m → Fin c → ℝ)), MeasurableSet A →
        |P.real {ω | (trained cfg g (pbcMoveAll L) ψ update keys x₀ τ₀ s ω t, fun w : Fin d × Fin n => trainWalkers cfg g (pbcMoveAll L) ψ update keys x₀ τ₀ s ω (t + 1) w.1 () w.2) ∈ A} -
          ∫ ω, (Measure.pi fun _ : Fin d × Fin n => walkerLaw (cells m L) (ψ (trained cfg g (pbcMoveAll L) ψ update keys x₀ τ₀ s ω t))).real
            {y | (trained cfg g (pbcMoveAll L) ψ update keys x₀ τ₀ s ω t, y) ∈ A} ∂P| ≤ 2 * ((d * n : ℕ) : ℝ) * ρ ^ cfg.steps := by
  obtain ⟨ρ, h0, h1, h⟩ := c142_solid L hL B (reachable_finite σ T)
    (by rintro ⟨j, _, hj⟩
        rcases mul_eq_zero.mp hj.symm with h | h
        · exact hσ h
        · exact absurd h (zpow_ne_zero j (by norm_num)))
    ⟨σ, 0, by simp, by simp⟩
  refine ⟨ρ, h0, h1, fun Ω Key _ P _ n d cfg g update keys x₀ τ₀ s hs D hup t ht A hA => ?_⟩
  have hu : ∀ k i ω, g.uniform k i ω ∈ Set.Ico (0 : ℝ) 1 := fun k i ω => (D.each i).range k ω
  have key := h Ω Key _ P inferInstance n d cfg g update keys x₀ τ₀ s T D hup
    (fun t ht ω => reachable_mono σ ht.le (hs ▸ trainWidth_reachable cfg g (pbcMoveAll L) ψ update keys x₀ τ₀ s ω t)) t ht
    (fun p => A.indicator (fun _ => 1) (p.1.1, p.2)) ((measurable_const.indicator hA).comp (by fun_prop)) (fun p => Set.indicator_nonneg (fun _ _ => zero_le_one) _)
    (fun p => Set.indicator_le_self' (fun _ _ => zero_le_one) _)
  have mrun : ∀ t, Measurable fun ω => past cfg g.split3 (pbcMoveAll L) ψ update keys τ₀ s (fun w => x₀ ω w.1 () w.2) (fun q => (g.noise q.1 q.2 ω, g.uniform q.1 q.2 ω)) t := fun t =>
    (past_measurable B.measurable (pbcMoveAll_measurable L) hup τ₀ t).comp
      ((measurable_pi_iff.mpr fun w : Fin d × Fin n => D.measurable w.1 w.2).prodMk (measurable_pi_iff.mpr fun q : Key × Fin n => (D.each q.2).measurable q.1))
  have hrun := trainRun_past cfg g hu (pbcMoveAll L) ψ update keys x₀ τ₀ s
  have mA : MeasurableSet {ω | (trained cfg g (pbcMoveAll L) ψ update keys x₀ τ₀ s ω t, fun w : Fin d × Fin n => trainWalkers cfg g (pbcMoveAll L) ψ update keys x₀ τ₀ s ω (t + 1) w.1 () w.2) ∈ A} := by
    unfold trained trainWalkers
    simp only [hrun]
    exact ((measurable_fst.comp (mrun t)).prodMk (measurable_fst.comp (measurable_snd.comp (mrun (t + 1))))) hA
  have e1 : P.real {ω | (trained cfg g (pbcMoveAll L) ψ update keys x₀ τ₀ s ω t, fun w : Fin d × Fin n => trainWalkers cfg g (pbcMoveAll L) ψ update keys x₀ τ₀ s ω (t + 1) w.1 () w.2) ∈ A} =
      ∫ ω, A.indicator (fun _ => (1 : ℝ)) (trained cfg g (pbcMoveAll L) ψ update keys x₀ τ₀ s ω t, fun w : Fin d × Fin n => trainWalkers cfg g (pbcMoveAll L) ψ update keys x₀ τ₀ s ω (t + 1) w.1 () w.2) ∂P := by
    have := integral_indicator_one (μ := P) mA
    rw [← this]
    rfl
  have e2 : ∀ τ : Θ, (Measure.pi fun _ : Fin d × Fin n => walkerLaw (cells m L) (ψ τ)).real {y | (τ, y) ∈ A} =
      ∫ y, A.indicator (fun _ => (1 : ℝ)) (τ, y) ∂(Measure.pi fun _ : Fin d × Fin n => walkerLaw (cells m L) (ψ τ)) := by
    intro τ
    have hm : MeasurableSet {y : Fin d × Fin n → Fin m → Fin c → ℝ | (τ, y) ∈ A} := measurable_prodMk_left hA
    rw [← integral_indicator_one hm]
    rfl
  simp_rw [e1, e2]
  convert key using 3

/-! ### The hypotheses can be met -/

/-- **C142.** There are draws for training runs from any starting places, for any number of devices, walkers, updates and steps. -/
theorem c142_exists (ν : Measure N) [IsProbabilityMeasure ν] (steps d n T : ℕ) (y : Fin d → Fin n → V) [Nonempty V] :
    ∃ (Ω Key : Type) (_ : MeasurableSpace Ω) (P : Measure Ω) (_ : IsProbabilityMeasure P) (g : RandomRng Ω Key N n) (keys : ℕ → Fin d → Key),
      Draws P ν steps g keys (fun _ a _ i => y a i) T := by
  obtain ⟨Ω, Key, i1, P, i2, g, keys, R, I⟩ := c141_exists (V := V) ν ⟨steps, 1, 1, 0, 1⟩ ⟨1, [], 0⟩ d n T (Or.inr ⟨le_rfl, le_rfl, by simp⟩) y
  exact ⟨Ω, Key, i1, P, i2, g, keys, R.draws, I.draws, fun a i => measurable_const, I.together, R.fresh, I.apart⟩

/-- Two electrons in the unit cube and a wavefunction with one parameter. -/
theorem wave_spread : Spread (cells 2 (1 : Matrix (Fin 3) (Fin 3) ℝ)) (fun (τ : ℝ) x => 2 + Complex.ofReal (Real.cos τ * Real.cos (x 0 0 - x 1 0))) 9 := by
  have hfin := cells_finite 2 (1 : Matrix (Fin 3) (Fin 3) ℝ)
  have hle : ∀ (τ : ℝ) (x : Fin 2 → Fin 3 → ℝ), |Real.cos τ * Real.cos (x 0 0 - x 1 0)| ≤ 1 := fun τ x => by
    rw [abs_mul]
    exact mul_le_one₀ (Real.abs_cos_le_one _) (abs_nonneg _) (Real.abs_cos_le_one _)
  have hn : ∀ (τ : ℝ) (x : Fin 2 → Fin 3 → ℝ), ‖(2 : ℂ) + Complex.ofReal (Real.cos τ * Real.cos (x 0 0 - x 1 0))‖ = 2 + Real.cos τ * Real.cos (x 0 0 - x 1 0) := fun τ x => by
    have h := abs_le.mp (hle τ x)
    have : (2 : ℂ) + Complex.ofReal (Real.cos τ * Real.cos (x 0 0 - x 1 0)) = ((2 + Real.cos τ * Real.cos (x 0 0 - x 1 0) : ℝ) : ℂ) := by push_cast; ring
    rw [this, Complex.norm_real, Real.norm_of_nonneg (by linarith [h.1])]
  have hm : Measurable fun p : ℝ × (Fin 2 → Fin 3 → ℝ) => (2 : ℂ) + Complex.ofReal (Real.cos p.1 * Real.cos (p.2 0 0 - p.2 1 0)) := by
    have h1 : Measurable fun p : ℝ × (Fin 2 → Fin 3 → ℝ) => Real.cos p.1 * Real.cos (p.2 0 0 - p.2 1 0) := by fun_prop
    exact (Complex.measurable_ofReal.comp h1).const_add 2
  have hvol : (cells 2 (1 : Matrix (Fin 3) (Fin 3) ℝ)).real Set.univ = 1 := by
    have hcell : {p : Fin 3 → ℝ | Geometry.Spec.InCell (1 : Matrix (Fin 3) (Fin 3) ℝ) p} = Set.univ.pi fun _ => Set.Ico (0 : ℝ) 1 := by
      ext p
      simp only [Set.mem_ofPred_eq, Set.mem_univ_pi, Set.mem_Ico]
      constructor
      · rintro ⟨q, hq, hp⟩ k
        have : p k = q k := by rw [hp]; simp [Matrix.one_apply]
        rw [this]
        exact hq k
      · intro h
        exact ⟨p, h, fun k => by simp [Matrix.one_apply]⟩
    have : (cells 2 (1 : Matrix (Fin 3) (Fin 3) ℝ)) Set.univ = 1 := by
      unfold cells
      rw [hcell, Measure.pi_univ]
      simp only [Measure.restrict_apply_univ, volume_pi_pi, Real.volume_Ico]
      simp
    rw [Measure.real, this]
    norm_num
  have hlow : ∀ τ : ℝ, 1 ≤ ∫ y, ‖(2 : ℂ) + Complex.ofReal (Real.cos τ * Real.cos (y 0 0 - y 1 0))‖ ^ 2 ∂cells 2 (1 : Matrix (Fin 3) (Fin 3) ℝ) := by
    intro τ
    have hi : Integrable (fun y : Fin 2 → Fin 3 → ℝ => ‖(2 : ℂ) + Complex.ofReal (Real.cos τ * Real.cos (y 0 0 - y 1 0))‖ ^ 2) (cells 2 (1 : Matrix (Fin 3) (Fin 3) ℝ)) := by
      refine Integrable.of_bound ((hm.comp measurable_prodMk_left).norm.pow_const 2).aestronglyMeasurable 9 (Filter.Eventually.of_forall fun y => ?_)
      rw [Real.norm_of_nonneg (by positivity), hn]
      have h := abs_le.mp (hle τ y)
      nlinarith [h.1, h.2]
    have := integral_mono (integrable_const (1 : ℝ)) hi fun y => by
      simp only [hn]
      have h := abs_le.mp (hle τ y)
      nlinarith [h.1, h.2]
    rw [integral_const, hvol] at this
    simpa using this
  refine ⟨hm, fun τ => lt_of_lt_of_le one_pos (hlow τ), fun τ x => ?_⟩
  rw [hn]
  have h := abs_le.mp (hle τ x)
  have h9 : (2 + Real.cos τ * Real.cos (x 0 0 - x 1 0)) ^ 2 ≤ 9 := by nlinarith [h.1, h.2]
  have := hlow τ
  linarith

/-- A training run of this wavefunction: steps of ten updates with default adaptation, all walkers of two devices placed at one point, and a rule that lowers the parameter by a twentieth
of the mean of the first coordinates of the batch. -/
noncomputable def waveRun (g : RandomRng Ω Key (Fin 2 → Fin 3 → ℝ) 5) (keys : ℕ → Fin 2 → Key) (ω : Ω) : ℕ → ℝ × (Fin 2 → Batch Unit 5 (Fin 2 → Fin 3 → ℝ)) × State :=
  trainRun ⟨10, 1 / 10, 100, 1 / 2, 55 / 100⟩ g (pbcMoveAll (1 : Matrix (Fin 3) (Fin 3) ℝ)) (fun (τ : ℝ) x => 2 + Complex.ofReal (Real.cos τ * Real.cos (x 0 0 - x 1 0)))
    (fun _ τ x => τ - 1 / 20 * ((∑ a, ∑ i, x a () i 0 0) / 10)) keys (fun _ _ _ _ _ _ => 0) 1 (init ⟨10, 1 / 10, 100, 1 / 2, 55 / 100⟩) ω

/-- In every step of such a run the chance that this mean exceeds one half is nearly what independent samples from the then current wavefunction would give. -/
example (T : ℕ) : ∃ ρ : ℝ, 0 ≤ ρ ∧ ρ < 1 ∧ ∃ (Ω Key : Type) (_ : MeasurableSpace Ω) (P : Measure Ω) (_ : IsProbabilityMeasure P) (g : RandomRng Ω Key (Fin 2 → Fin 3 → ℝ) 5)
    (keys : ℕ → Fin 2 → Key),
    ∀ t < T, |P.real {ω | 1 / 2 < (∑ w : Fin 2 × Fin 5, (waveRun g keys ω (t + 1)).2.1 w.1 () w.2 0 0) / 10} -
      ∫ ω, (Measure.pi fun _ : Fin 2 × Fin 5 => walkerLaw (cells 2 (1 : Matrix (Fin 3) (Fin 3) ℝ)) fun x => 2 + Complex.ofReal (Real.cos (waveRun g keys ω t).1 * Real.cos (x 0 0 - x 1 0))).real
        {y | 1 / 2 < (∑ w, y w 0 0) / 10} ∂P| ≤ 20 * ρ ^ 10 := by
  obtain ⟨ρ, h0, h1, h⟩ := c142_solid_adapting (1 : Matrix (Fin 3) (Fin 3) ℝ) (by simp) wave_spread (σ := 1 / 10) (by norm_num) T
  obtain ⟨Ω, Key, i1, P, i2, g, keys, D⟩ := c142_exists (Measure.pi fun _ : Fin 2 => Measure.pi fun _ : Fin 3 => gaussianReal 0 1) 10 2 5 T fun _ _ => (0 : Fin 2 → Fin 3 → ℝ)
  refine ⟨ρ, h0, h1, Ω, Key, i1, P, i2, g, keys, fun t ht => ?_⟩
  have hup : Measurable fun p : ℝ × (Fin 2 × Fin 5 → Fin 2 → Fin 3 → ℝ) => p.1 - 1 / 20 * ((∑ a, ∑ i, p.2 (a, i) 0 0) / 10) := by fun_prop
  have hA : MeasurableSet {p : ℝ × (Fin 2 × Fin 5 → Fin 2 → Fin 3 → ℝ) | 1 / 2 < (∑ w, p.2 w 0 0) / 10} := measurableSet_lt measurable_const (by fun_prop)
  have key := h Ω Key i1 P i2 5 2 ⟨10, 1 / 10, 100, 1 / 2, 55 / 100⟩ g (fun _ τ x => τ - 1 / 20 * ((∑ a, ∑ i, x a () i 0 0) / 10)) keys (fun _ _ _ _ _ _ => 0) 1
    (init ⟨10, 1 / 10, 100, 1 / 2, 55 / 100⟩) rfl D (fun _ => hup) t ht _ hA
  have e : 2 * ((2 * 5 : ℕ) : ℝ) * ρ ^ 10 = 20 * ρ ^ 10 := by norm_num
  simp only [Set.mem_ofPred_eq, trained, trainWalkers] at key
  rw [← e]
  unfold waveRun
  convert key using 3

end Jaqmc.Average.Props
