import Verif.Model.Average
import Verif.Lemmas.Average
import Verif.Lemmas.EnergyGradient
import Verif.Props.Sampler
import Verif.Props.EnergyGradient
import Mathlib.Probability.Distributions.Gaussian.Real
import Mathlib.Probability.Independence.InfinitePi
/-!
C135: what an evaluation reports is, on average, the variational energy.
-/
namespace Jaqmc.Average.Props
open Jaqmc.Sampler Jaqmc.Sampler.Props Jaqmc.Average Jaqmc.Average.Spec Jaqmc.LossGrad.Spec
open MeasureTheory ProbabilityTheory
open scoped ENNReal Classical

set_option linter.unusedSectionVars false

variable {V N Ω Key : Type} {n d : ℕ} [MeasurableSpace V] [MeasurableSpace N]

/-! ### The walkers of the model -/

theorem cond_iff (ψ : V → ℂ) (x y : V) (u : ℝ) (hu : u ∈ Set.Ico (0 : ℝ) 1) :
    Sampler.cond (logProbOf ψ x) (logProbOf ψ y) u ↔ u * ‖ψ x‖ ^ 2 < ‖ψ y‖ ^ 2 := by
  unfold Sampler.cond logProbOf logU
  have hu0 := hu.1
  by_cases hy : ψ y = 0
  · rw [if_pos hy]
    have : ¬ u * ‖ψ x‖ ^ 2 < ‖ψ y‖ ^ 2 := by
      rw [hy, norm_zero]
      have : 0 ≤ u * ‖ψ x‖ ^ 2 := by positivity
      simpa using this
    simp only [this, iff_false]
    by_cases hx : ψ x = 0
    · rw [if_pos hx]; simp [LP.sub, LP.gt]
    · rw [if_neg hx]; split <;> simp [LP.sub, LP.gt]
  · rw [if_neg hy]
    have py : 0 < ‖ψ y‖ := norm_pos_iff.mpr hy
    by_cases hx : ψ x = 0
    · rw [if_pos hx, hx, norm_zero]
      have : u * (0 : ℝ) ^ 2 < ‖ψ y‖ ^ 2 := by rw [zero_pow two_ne_zero, mul_zero]; positivity
      simp only [this, iff_true]
      split <;> simp [LP.sub, LP.gt]
    · rw [if_neg hx]
      have px : 0 < ‖ψ x‖ := norm_pos_iff.mpr hx
      by_cases h0 : u = 0
      · have : u * ‖ψ x‖ ^ 2 < ‖ψ y‖ ^ 2 := by rw [h0, zero_mul]; positivity
        rw [if_pos h0]
        simp only [this, iff_true]
        simp [LP.sub, LP.gt]
      · rw [if_neg h0]
        have pu : 0 < u := lt_of_le_of_ne hu0 (Ne.symm h0)
        simp only [LP.sub, LP.gt]
        rw [gt_iff_lt, lt_sub_iff_add_lt, ← Real.log_lt_log_iff (by positivity : 0 < u * ‖ψ x‖ ^ 2) (by positivity), Real.log_mul h0 (by positivity),
          Real.log_pow, Real.log_pow]
        norm_num

theorem loop_rngs (g : RandomRng Ω Key N n) (lp : Batch Unit n V → Fin n → LP) (prop : Key → Batch Unit n V → Batch Unit n V) (x : Batch Unit n V)
    (key : Key) (ω : Ω) (j : ℕ) : (mhLoop (g.seed ω) lp prop j (start lp x key)).rngs = loopKey g.split3 key j := by
  induction j with
  | zero => rfl
  | succ j ih =>
    show (g.split3 (mhLoop (g.seed ω) lp prop j (start lp x key)).rngs).1 = (g.split3 (loopKey g.split3 key j)).1
    rw [ih]

/-- One sampling step moves a walker by the chain of updates at the keys of that step. -/
theorem loop_walker (g : RandomRng Ω Key N n) (hu : ∀ k i ω, g.uniform k i ω ∈ Set.Ico (0 : ℝ) 1) (move : ℝ → N → V → V) (ψ : V → ℂ) (w : ℝ)
    (x : Batch Unit n V) (key : Key) (ω : Ω) (i : Fin n) (j : ℕ) :
    (mhLoop (g.seed ω) (batched fun _ y => logProbOf ψ (y ())) (moveAll g move ω w) j (start (batched fun _ y => logProbOf ψ (y ())) x key)).x () i =
      chain (fun y => ‖ψ y‖ ^ 2) (move w) (fun k => (g.noise k i ω, g.uniform k i ω)) (x () i) ((List.range j).map (drawKeys g.split3 key)) := by
  induction j with
  | zero => rfl
  | succ j ih =>
    rw [List.range_succ, List.map_append, List.map_singleton, chain_append, ← ih]
    have hlp := congrFun (mhLoop_logProb (g.seed ω) (fun _ y => logProbOf ψ (y ())) (moveAll g move ω w) x key j) i
    have hr := loop_rngs g (batched fun _ y => logProbOf ψ (y ())) (moveAll g move ω w) x key ω j
    simp only [mhLoop]
    generalize mhLoop (g.seed ω) (batched fun _ y => logProbOf ψ (y ())) (moveAll g move ω w) j (start (batched fun _ y => logProbOf ψ (y ())) x key) = c at hlp hr ⊢
    show (if Sampler.cond (c.logProb i) (logProbOf ψ (move w (g.noise (g.split3 c.rngs).2.1 i ω) (c.x () i))) (g.uniform (g.split3 c.rngs).2.2 i ω)
      then move w (g.noise (g.split3 c.rngs).2.1 i ω) (c.x () i) else c.x () i) = _
    rw [hlp, hr]
    unfold wstep batched drawKeys
    rw [if_congr (cond_iff ψ (c.x () i) _ _ (hu _ _ _)) rfl rfl]

/-! ### Several sampling steps -/

theorem run_append (cfg : Cfg) (rng : Rng Key n) (prop : ℝ → Key → Batch Unit n V → Batch Unit n V) (x : Fin d → Batch Unit n V) (s : State)
    (ins : List ((Fin d → Batch Unit n V → Fin n → LP) × (Fin d → Key))) (i : (Fin d → Batch Unit n V → Fin n → LP) × (Fin d → Key)) :
    (run cfg rng prop x s (ins ++ [i])).1 = (step cfg rng i.1 prop (run cfg rng prop x s ins).1 (run cfg rng prop x s ins).2.2 i.2).1 ∧
    (run cfg rng prop x s (ins ++ [i])).2.2 = (step cfg rng i.1 prop (run cfg rng prop x s ins).1 (run cfg rng prop x s ins).2.2 i.2).2.2 := by
  induction ins generalizing x s with
  | nil => exact ⟨rfl, rfl⟩
  | cons j rest ih =>
    simp only [List.cons_append, run]
    exact ih _ _

/-- The state of the sampler after `T` sampling steps. -/
noncomputable def stateAfter (cfg : Cfg) (g : RandomRng Ω Key N n) (move : ℝ → N → V → V) (ψ : V → ℂ) (keys : ℕ → Fin d → Key)
    (x₀ : Ω → Fin d → Batch Unit n V) (s : State) (ω : Ω) (T : ℕ) : State :=
  (run cfg (g.seed ω) (moveAll g move ω) (x₀ ω) s ((List.range T).map fun t => (target ψ, keys t))).2.2

theorem walkers_succ (cfg : Cfg) (g : RandomRng Ω Key N n) (move : ℝ → N → V → V) (ψ : V → ℂ) (keys : ℕ → Fin d → Key)
    (x₀ : Ω → Fin d → Batch Unit n V) (s : State) (ω : Ω) (T : ℕ) :
    walkers cfg g move ψ keys x₀ s ω (T + 1) =
      (step cfg (g.seed ω) (target ψ) (moveAll g move ω) (walkers cfg g move ψ keys x₀ s ω T) (stateAfter cfg g move ψ keys x₀ s ω T) (keys T)).1 ∧
    stateAfter cfg g move ψ keys x₀ s ω (T + 1) =
      (step cfg (g.seed ω) (target ψ) (moveAll g move ω) (walkers cfg g move ψ keys x₀ s ω T) (stateAfter cfg g move ψ keys x₀ s ω T) (keys T)).2.2 := by
  unfold walkers stateAfter
  rw [List.range_succ, List.map_append, List.map_singleton]
  exact run_append cfg (g.seed ω) (moveAll g move ω) (x₀ ω) s _ _

/-- The width does not change during an evaluation of `T` steps: it ends before the next adaptation, or the accepted range is all of `[0, 1]`. -/
def Steady (cfg : Cfg) (s : State) (T : ℕ) : Prop :=
  (∀ k, 1 ≤ k → k < T → (s.counter + k) % cfg.adaptFrequency ≠ 0) ∨
    (cfg.pmoveLow ≤ 0 ∧ 1 ≤ cfg.pmoveHigh ∧ ∀ p ∈ s.pmoves, 0 ≤ p ∧ p ≤ 1)

theorem meanL_range (l : List ℝ) (h : ∀ p ∈ l, 0 ≤ p ∧ p ≤ 1) : 0 ≤ meanL l ∧ meanL l ≤ 1 := by
  have h0 : 0 ≤ l.sum := List.sum_nonneg fun p hp => (h p hp).1
  have h1 : l.sum ≤ l.length := by
    have := List.sum_le_card_nsmul l 1 fun p hp => (h p hp).2
    simpa using this
  unfold meanL
  refine ⟨by positivity, div_le_one_of_le₀ h1 (by positivity)⟩

theorem width_steady (cfg : Cfg) (g : RandomRng Ω Key N n) (move : ℝ → N → V → V) (ψ : V → ℂ) (keys : ℕ → Fin d → Key)
    (x₀ : Ω → Fin d → Batch Unit n V) (s : State) (ω : Ω) (T : ℕ) (hs : Steady cfg s T) (k : ℕ) (hk : k < T) :
    (stateAfter cfg g move ψ keys x₀ s ω k).stddev = s.stddev := by
  by_cases h0 : cfg.steps = 0
  · have : ∀ k, stateAfter cfg g move ψ keys x₀ s ω k = s := by
      intro k
      induction k with
      | zero => rfl
      | succ k ih =>
        rw [(walkers_succ cfg g move ψ keys x₀ s ω k).2, ih]
        unfold step
        rw [if_pos h0]
    rw [this]
  · have hstep : ∀ k, ∃ p, 0 ≤ p ∧ p ≤ 1 ∧ stateAfter cfg g move ψ keys x₀ s ω (k + 1) = adapt cfg (stateAfter cfg g move ψ keys x₀ s ω k) p := by
      intro k
      have hr := c25_ratio cfg (g.seed ω) (target ψ) (moveAll g move ω) (walkers cfg g move ψ keys x₀ s ω k) (stateAfter cfg g move ψ keys x₀ s ω k) (keys k)
      refine ⟨_, hr.1, hr.2, ?_⟩
      rw [(walkers_succ cfg g move ψ keys x₀ s ω k).2]
      unfold step
      rw [if_neg h0]
    have hc : ∀ k, (stateAfter cfg g move ψ keys x₀ s ω k).counter = s.counter + k := by
      intro k
      induction k with
      | zero => rfl
      | succ k ih =>
        obtain ⟨p, _, _, e⟩ := hstep k
        rw [e]
        show (stateAfter cfg g move ψ keys x₀ s ω k).counter + 1 = _
        rw [ih]; omega
    rcases hs with hs | ⟨hl, hh, hp⟩
    · induction k with
      | zero => rfl
      | succ k ih =>
        obtain ⟨p, _, _, e⟩ := hstep k
        rw [e]
        unfold adapt
        dsimp only
        rw [hc, if_neg (by have := hs (k + 1) (by omega) hk; rwa [← add_assoc] at this)]
        exact ih (by omega)
    · suffices h : (stateAfter cfg g move ψ keys x₀ s ω k).stddev = s.stddev ∧
          ∀ p ∈ (stateAfter cfg g move ψ keys x₀ s ω k).pmoves, 0 ≤ p ∧ p ≤ 1 from h.1
      induction k with
      | zero => exact ⟨rfl, hp⟩
      | succ k ih =>
        obtain ⟨ih1, ih2⟩ := ih (by omega)
        obtain ⟨p, p0, p1, e⟩ := hstep k
        rw [e]
        have hset : ∀ q ∈ (stateAfter cfg g move ψ keys x₀ s ω k).pmoves.set
            (((stateAfter cfg g move ψ keys x₀ s ω k).counter + 1) % cfg.adaptFrequency) p, 0 ≤ q ∧ q ≤ 1 := by
          intro q hq
          rcases List.mem_or_eq_of_mem_set hq with h | h
          · exact ih2 q h
          · rw [h]; exact ⟨p0, p1⟩
        have hm := meanL_range _ hset
        unfold adapt
        dsimp only
        refine ⟨?_, hset⟩
        rw [if_neg (not_lt.mpr (hm.2.trans hh)), if_neg (not_lt.mpr (hl.trans hm.1)), ite_self]
        exact ih1

/-- The keys of the updates of one device in `T` steps. -/
def pairs (split3 : Key → Key × Key × Key) (keys : ℕ → Key) (steps T : ℕ) : List (Key × Key) :=
  (List.range T).flatMap fun t => (List.range steps).map (drawKeys split3 (keys t))

theorem allKeys_pairs (split3 : Key → Key × Key × Key) (keys : ℕ → Key) (steps T : ℕ) :
    allKeys (pairs split3 keys steps T) = keysUsed split3 keys steps T := by
  unfold allKeys pairs keysUsed
  rw [List.flatMap_assoc]
  congr 1
  funext t
  rw [List.flatMap_map]

/-- A walker of an evaluation is moved by the chain of its updates. -/
theorem walkers_chain (cfg : Cfg) (g : RandomRng Ω Key N n) (hu : ∀ k i ω, g.uniform k i ω ∈ Set.Ico (0 : ℝ) 1) (move : ℝ → N → V → V) (ψ : V → ℂ)
    (keys : ℕ → Fin d → Key) (x₀ : Ω → Fin d → Batch Unit n V) (s : State) (T : ℕ) (hs : Steady cfg s T) (ω : Ω) (a : Fin d) (i : Fin n)
    (k : ℕ) (hk : k ≤ T) :
    walkers cfg g move ψ keys x₀ s ω k a () i =
      chain (fun y => ‖ψ y‖ ^ 2) (move s.stddev) (fun k => (g.noise k i ω, g.uniform k i ω)) (x₀ ω a () i)
        (pairs g.split3 (fun t => keys t a) cfg.steps k) := by
  induction k with
  | zero => rfl
  | succ k ih =>
    have hp : pairs g.split3 (fun t => keys t a) cfg.steps (k + 1) =
        pairs g.split3 (fun t => keys t a) cfg.steps k ++ (List.range cfg.steps).map (drawKeys g.split3 (keys k a)) := by
      unfold pairs
      rw [List.range_succ, List.flatMap_append]
      simp
    have hc : ∀ l m, chain (fun y => ‖ψ y‖ ^ 2) (move s.stddev) (fun k => (g.noise k i ω, g.uniform k i ω)) (x₀ ω a () i) (l ++ m) =
        chain (fun y => ‖ψ y‖ ^ 2) (move s.stddev) (fun k => (g.noise k i ω, g.uniform k i ω))
          (chain (fun y => ‖ψ y‖ ^ 2) (move s.stddev) (fun k => (g.noise k i ω, g.uniform k i ω)) (x₀ ω a () i) l) m := by
      intro l m; unfold chain; rw [List.foldl_append]
    rw [hp, hc, ← ih (by omega), (walkers_succ cfg g move ψ keys x₀ s ω k).1]
    unfold step
    by_cases h0 : cfg.steps = 0
    · rw [if_pos h0, h0]; rfl
    · rw [if_neg h0]
      dsimp only
      rw [width_steady cfg g move ψ keys x₀ s ω T hs k (by omega)]
      exact loop_walker g hu move ψ s.stddev _ (keys k a) ω i cfg.steps

/-! ### The law of the walkers -/

variable [MeasurableSpace Ω] {P : Measure Ω} [IsProbabilityMeasure P] {ν : Measure N} {μ : Measure V}

/-- The circumstances of C135: a proposal as likely one way as the other, independent draws, walkers started in the distribution of the wavefunction, and
no key used twice by a device. -/
structure Setup (P : Measure Ω) (ν : Measure N) (μ : Measure V) (cfg : Cfg) (g : RandomRng Ω Key N n) (move : ℝ → N → V → V) (ψ : V → ℂ)
    (keys : ℕ → Fin d → Key) (x₀ : Ω → Fin d → Batch Unit n V) (s : State) (T : ℕ) : Prop where
  wavefunction : Measurable ψ
  move_measurable : Measurable fun p : V × N => move s.stddev p.2 p.1
  reversible : Reversible μ ν (move s.stddev)
  draws : ∀ i, Independent P ν (fun k => g.noise k i) (fun k => g.uniform k i)
  start : ∀ a i, StartsIn P (walkerLaw μ ψ) (fun ω => x₀ ω a () i) (fun k => g.noise k i) (fun k => g.uniform k i)
  fresh : ∀ a, (keysUsed g.split3 (fun t => keys t a) cfg.steps T).Nodup

theorem keysUsed_nodup {split3 : Key → Key × Key × Key} {keys : ℕ → Key} {steps T : ℕ} (h : (keysUsed split3 keys steps T).Nodup) {k : ℕ} (hk : k ≤ T) :
    (keysUsed split3 keys steps k).Nodup := by
  obtain ⟨m, rfl⟩ := Nat.exists_eq_add_of_le hk
  unfold keysUsed at h ⊢
  rw [List.range_add, List.flatMap_append, List.nodup_append] at h
  exact h.1

theorem walker_measurable {cfg : Cfg} {g : RandomRng Ω Key N n} {move : ℝ → N → V → V} {ψ : V → ℂ} {keys : ℕ → Fin d → Key}
    {x₀ : Ω → Fin d → Batch Unit n V} {s : State} {T : ℕ} (S : Setup P ν μ cfg g move ψ keys x₀ s T) (hst : Steady cfg s T) (k : ℕ) (hk : k ≤ T) (a : Fin d) (i : Fin n) :
    Measurable fun ω => walkers cfg g move ψ keys x₀ s ω k a () i := by
  have hu : ∀ k i ω, g.uniform k i ω ∈ Set.Ico (0 : ℝ) 1 := fun k i ω => (S.draws i).range k ω
  have hdr : Measurable fun ω => fun k => (g.noise k i ω, g.uniform k i ω) := measurable_pi_iff.mpr (S.draws i).measurable
  simp_rw [walkers_chain cfg g hu move ψ keys x₀ s T hst _ a i k hk]
  exact (chain_measurable (S.wavefunction.norm.pow_const 2) S.move_measurable _).comp ((S.start a i).measurable.prodMk hdr)

/-- **C135.** After every sampling step of an evaluation every walker is still distributed by the squared wavefunction, on whatever space it lives. -/
theorem c135_law {cfg : Cfg} {g : RandomRng Ω Key N n} {move : ℝ → N → V → V} {ψ : V → ℂ} {keys : ℕ → Fin d → Key}
    {x₀ : Ω → Fin d → Batch Unit n V} {s : State} {T : ℕ} (S : Setup P ν μ cfg g move ψ keys x₀ s T) (hst : Steady cfg s T) (k : ℕ) (hk : k ≤ T) (a : Fin d) (i : Fin n) :
    P.map (fun ω => walkers cfg g move ψ keys x₀ s ω k a () i) = walkerLaw μ ψ := by
  have hu : ∀ k i ω, g.uniform k i ω ∈ Set.Ico (0 : ℝ) 1 := fun k i ω => (S.draws i).range k ω
  by_cases hk0 : k = 0
  · subst hk0; exact (S.start a i).law
  by_cases hs0 : cfg.steps = 0
  · have : (fun ω => walkers cfg g move ψ keys x₀ s ω k a () i) = fun ω => x₀ ω a () i := by
      funext ω
      rw [walkers_chain cfg g hu move ψ keys x₀ s T hst ω a i k hk]
      have : pairs g.split3 (fun t => keys t a) cfg.steps k = [] := by simp [pairs, hs0]
      rw [this]; rfl
    rw [this]; exact (S.start a i).law
  have hdr : Measurable fun ω => fun k => (g.noise k i ω, g.uniform k i ω) := measurable_pi_iff.mpr (S.draws i).measurable
  have hν : IsProbabilityMeasure ν := noise_prob (S.draws i) (keys 0 a)
  have hN : Nonempty N := nonempty_of_isProbabilityMeasure ν
  have ha : Measurable fun y => ‖ψ y‖ ^ 2 := S.wavefunction.norm.pow_const 2
  have hc := chain_measurable (Key := Key) ha S.move_measurable (pairs g.split3 (fun t => keys t a) cfg.steps k)
  refine Measure.ext_of_lintegral _ fun f hf => ?_
  rw [lintegral_map hf (walker_measurable S hst k hk a i)]
  simp_rw [walkers_chain cfg g hu move ψ keys x₀ s T hst _ a i k hk]
  have hmap := (indepFun_iff_map_prod_eq_prod_map_map (S.start a i).measurable.aemeasurable hdr.aemeasurable).mp (S.start a i).indep
  have hpd := Measure.isProbabilityMeasure_map (μ := P) hdr.aemeasurable
  have hF : Measurable fun p : V × (Key → N × ℝ) => f (chain (fun y => ‖ψ y‖ ^ 2) (move s.stddev) p.2 p.1 (pairs g.split3 (fun t => keys t a) cfg.steps k)) :=
    hf.comp hc
  have e1 : ∫⁻ ω, f (chain (fun y => ‖ψ y‖ ^ 2) (move s.stddev) (fun k => (g.noise k i ω, g.uniform k i ω)) (x₀ ω a () i)
      (pairs g.split3 (fun t => keys t a) cfg.steps k)) ∂P =
      ∫⁻ x, ∫⁻ ω, f (chain (fun y => ‖ψ y‖ ^ 2) (move s.stddev) (fun k => (g.noise k i ω, g.uniform k i ω)) x
        (pairs g.split3 (fun t => keys t a) cfg.steps k)) ∂P ∂(walkerLaw μ ψ) := by
    have := lintegral_map (μ := P) hF ((S.start a i).measurable.prodMk hdr)
    rw [← this, hmap, (S.start a i).law, lintegral_prod _ hF.aemeasurable]
    refine lintegral_congr fun x => ?_
    have h2 : Measurable fun y : Key → N × ℝ => f (chain (fun y => ‖ψ y‖ ^ 2) (move s.stddev) y x (pairs g.split3 (fun t => keys t a) cfg.steps k)) :=
      hF.comp (measurable_const.prodMk measurable_id)
    exact lintegral_map h2 hdr
  rw [e1]
  have hden : Measurable fun x => ENNReal.ofReal (‖ψ x‖ ^ 2 / ∫ y, ‖ψ y‖ ^ 2 ∂μ) := (ha.div_const _).ennreal_ofReal
  have hZ : 0 ≤ ∫ y, ‖ψ y‖ ^ 2 ∂μ := integral_nonneg fun y => by positivity
  have hin : Measurable fun x => ∫⁻ ω, f (chain (fun y => ‖ψ y‖ ^ 2) (move s.stddev) (fun k => (g.noise k i ω, g.uniform k i ω)) x
        (pairs g.split3 (fun t => keys t a) cfg.steps k)) ∂P := by
    have : Measurable fun p : V × Ω => f (chain (fun y => ‖ψ y‖ ^ 2) (move s.stddev) (fun k => (g.noise k i p.2, g.uniform k i p.2)) p.1
        (pairs g.split3 (fun t => keys t a) cfg.steps k)) := hF.comp (measurable_fst.prodMk (hdr.comp measurable_snd))
    exact this.lintegral_prod_right'
  unfold walkerLaw
  rw [lintegral_withDensity_eq_lintegral_mul _ hden hin, lintegral_withDensity_eq_lintegral_mul _ hden hf]
  simp only [Pi.mul_apply]
  have es : ∀ x, ENNReal.ofReal (‖ψ x‖ ^ 2 / ∫ y, ‖ψ y‖ ^ 2 ∂μ) = ENNReal.ofReal (∫ y, ‖ψ y‖ ^ 2 ∂μ)⁻¹ * ENNReal.ofReal (‖ψ x‖ ^ 2) := by
    intro x
    rw [← ENNReal.ofReal_mul (by positivity), div_eq_inv_mul]
  simp_rw [es, mul_assoc]
  rw [lintegral_const_mul' _ _ ENNReal.ofReal_ne_top, lintegral_const_mul' _ _ ENNReal.ofReal_ne_top]
  congr 1
  exact chain_invariant (S.draws i) ha (fun x => by positivity) S.move_measurable S.reversible _
    (by rw [allKeys_pairs]; exact keysUsed_nodup (S.fresh a) hk) hf

/-! ### The reported energy -/

theorem nanmean_some {K : Type} [Field K] (l : List K) (h : l ≠ []) : Stats.nanmean (l.map some) = some (l.sum / (l.length : K)) := by
  unfold Stats.nanmean
  have : (l.map some).filterMap id = l := by induction l with
    | nil => rfl
    | cons x r ih => by_cases hr : r = [] <;> simp_all
  rw [this, if_neg h]; rfl

theorem nmean_some {K : Type} [Field K] (l : List K) (h : l ≠ []) : Stats.nmean (l.map some) = some (l.sum / (l.length : K)) := by
  unfold Stats.nmean
  have : (l.map some).filterMap id = l := by induction l with
    | nil => rfl
    | cons x r ih => by_cases hr : r = [] <;> simp_all
  rw [this, if_neg (by cases l with | nil => exact absurd rfl h | cons x r => simp)]; rfl

theorem stepEnergy_eq (hd : 0 < d) (hn : 0 < n) (e : V → ℂ) (x : Fin d → Batch Unit n V) :
    stepEnergy e x = some ((∑ a, (∑ i, e (x a () i)) / (n : ℂ)) / (d : ℂ)) := by
  unfold stepEnergy Stats.meanOf Stats.pmean
  rw [List.map_map]
  have : (Stats.nanmean ∘ fun a => (List.finRange n).map fun i => some (e (x a () i))) = some ∘ fun a => (∑ i, e (x a () i)) / (n : ℂ) := by
    funext a
    have h := nanmean_some ((List.finRange n).map fun i => e (x a () i)) (by simp [List.finRange_eq_nil_iff]; omega)
    rw [List.map_map] at h
    simp only [Function.comp_def] at h ⊢
    rw [h, ← List.ofFn_eq_map, List.sum_ofFn, List.length_ofFn]
  rw [this, ← List.map_map, nmean_some _ (by simp [List.finRange_eq_nil_iff]; omega), ← List.ofFn_eq_map, List.sum_ofFn, List.length_ofFn]

theorem reported_eq (hd : 0 < d) (hn : 0 < n) (T : ℕ) (hT : 0 < T) (cfg : Cfg) (g : RandomRng Ω Key N n) (move : ℝ → N → V → V) (ψ e : V → ℂ)
    (keys : ℕ → Fin d → Key) (x₀ : Ω → Fin d → Batch Unit n V) (s : State) (ω : Ω) :
    reported cfg g move ψ e keys x₀ s T ω =
      some ((∑ t ∈ Finset.range T, (∑ a, (∑ i, e (walkers cfg g move ψ keys x₀ s ω (t + 1) a () i)) / (n : ℂ)) / (d : ℂ)) / (T : ℂ)) := by
  unfold reported
  simp_rw [stepEnergy_eq hd hn]
  have h := nanmean_some ((List.range T).map fun t => (∑ a, (∑ i, e (walkers cfg g move ψ keys x₀ s ω (t + 1) a () i)) / (n : ℂ)) / (d : ℂ))
    (by simp; omega)
  rw [List.map_map] at h
  simp only [Function.comp_def] at h
  rw [h, List.length_map, List.length_range]
  congr 2

/-- The walkers of a wavefunction and of the vector it represents have the same law. -/
theorem law_congr {ψ χ : V → ℂ} (h : ψ =ᵐ[μ] χ) : walkerLaw μ ψ = walkerLaw μ χ := by
  unfold walkerLaw
  have : ∫ y, ‖ψ y‖ ^ 2 ∂μ = ∫ y, ‖χ y‖ ^ 2 ∂μ := integral_congr_ae (by filter_upwards [h] with y hy; rw [hy])
  rw [this]
  exact withDensity_congr_ae (by filter_upwards [h] with y hy; rw [hy])

theorem local_mean {H : L2C μ →ₗ.[ℂ] L2C μ} (hs : Symmetric H) (φ : H.domain) (h0 : (φ : L2C μ) ≠ 0) {e : V → ℂ} (he : IsLocalEnergy H φ e) :
    Integrable e (walkerLaw μ (φ : L2C μ)) ∧ ∫ x, e x ∂walkerLaw μ (φ : L2C μ) = (energy H φ : ℂ) := by
  obtain ⟨h1, h2⟩ := Jaqmc.LossGrad.Grad.inner_avg h0 (φ : L2C μ) (H φ) (fun _ => 1) e (Filter.Eventually.of_forall fun x => (one_mul _).symm) he
  simp only [map_one, one_mul] at h1 h2
  refine ⟨h1, ?_⟩
  have hz := Jaqmc.LossGrad.Grad.Z_pos h0
  have hreal : inner ℂ (φ : L2C μ) (H φ) = (((inner ℂ (φ : L2C μ) (H φ)).re : ℝ) : ℂ) := by
    have : (starRingEnd ℂ) (inner ℂ (φ : L2C μ) (H φ)) = inner ℂ (φ : L2C μ) (H φ) := by
      rw [inner_conj_symm]; exact hs φ φ
    exact (Complex.conj_eq_iff_real.mp this).elim fun r hr => by rw [hr, Complex.ofReal_re]
  unfold energy
  rw [Jaqmc.LossGrad.Grad.Z_eq, Complex.ofReal_div, ← hreal, h2, mul_div_cancel_right₀]
  exact_mod_cast hz.ne'

/-- **C135.** The energy an evaluation reports is, on average over the draws, the variational energy of the wavefunction: its real part, with no imaginary
part left, whatever the number of steps, devices and walkers. -/
theorem c135_energy (hd : 0 < d) (hn : 0 < n) {T : ℕ} (hT : 0 < T) {H : L2C μ →ₗ.[ℂ] L2C μ} (hs : Symmetric H) (φ : H.domain) (h0 : (φ : L2C μ) ≠ 0)
    {ψ e : V → ℂ} (hφ : (φ : L2C μ) =ᵐ[μ] ψ) (he : IsLocalEnergy H φ e) {cfg : Cfg} {g : RandomRng Ω Key N n} {move : ℝ → N → V → V}
    {keys : ℕ → Fin d → Key} {x₀ : Ω → Fin d → Batch Unit n V} {s : State} (S : Setup P ν μ cfg g move ψ keys x₀ s T) (hst : Steady cfg s T) :
    ∃ m : Ω → ℂ, (∀ ω, reported cfg g move ψ e keys x₀ s T ω = some (m ω)) ∧ Integrable m P ∧ ∫ ω, m ω ∂P = (energy H φ : ℂ) := by
  refine ⟨_, fun ω => reported_eq hd hn T hT cfg g move ψ e keys x₀ s ω, ?_⟩
  obtain ⟨hi, hm⟩ := local_mean hs φ h0 he
  rw [law_congr hφ] at hi hm
  have hw : ∀ t ∈ Finset.range T, ∀ a i, Integrable (fun ω => e (walkers cfg g move ψ keys x₀ s ω (t + 1) a () i)) P ∧
      ∫ ω, e (walkers cfg g move ψ keys x₀ s ω (t + 1) a () i) ∂P = (energy H φ : ℂ) := by
    intro t ht a i
    have hk : t + 1 ≤ T := Finset.mem_range.mp ht
    have hl := c135_law S hst (t + 1) hk a i
    have hmeas := walker_measurable S hst (t + 1) hk a i
    rw [← hl] at hi hm
    exact ⟨hi.comp_measurable hmeas, by rw [← hm, integral_map hmeas.aemeasurable hi.aestronglyMeasurable]⟩
  have hi1 : ∀ t ∈ Finset.range T, ∀ a : Fin d, Integrable (fun ω => (∑ i, e (walkers cfg g move ψ keys x₀ s ω (t + 1) a () i)) / (n : ℂ)) P :=
    fun t ht a => (integrable_finsetSum _ fun i _ => (hw t ht a i).1).div_const _
  have hi2 : ∀ t ∈ Finset.range T, Integrable (fun ω => (∑ a, (∑ i, e (walkers cfg g move ψ keys x₀ s ω (t + 1) a () i)) / (n : ℂ)) / (d : ℂ)) P :=
    fun t ht => (integrable_finsetSum _ fun a _ => hi1 t ht a).div_const _
  refine ⟨(integrable_finsetSum _ hi2).div_const _, ?_⟩
  have cn : (n : ℂ) ≠ 0 := by exact_mod_cast hn.ne'
  have cd : (d : ℂ) ≠ 0 := by exact_mod_cast hd.ne'
  have cT : (T : ℂ) ≠ 0 := by exact_mod_cast hT.ne'
  rw [integral_div, integral_finsetSum _ hi2]
  have h1 : ∀ t ∈ Finset.range T, ∫ ω, (∑ a, (∑ i, e (walkers cfg g move ψ keys x₀ s ω (t + 1) a () i)) / (n : ℂ)) / (d : ℂ) ∂P = (energy H φ : ℂ) := by
    intro t ht
    rw [integral_div, integral_finsetSum _ fun a _ => hi1 t ht a]
    have h2 : ∀ a : Fin d, ∫ ω, (∑ i, e (walkers cfg g move ψ keys x₀ s ω (t + 1) a () i)) / (n : ℂ) ∂P = (energy H φ : ℂ) := by
      intro a
      rw [integral_div, integral_finsetSum _ fun i _ => (hw t ht a i).1, Finset.sum_congr rfl fun i _ => (hw t ht a i).2]
      simp only [Finset.sum_const, Finset.card_univ, Fintype.card_fin, nsmul_eq_mul]
      field_simp
    simp only [h2, Finset.sum_const, Finset.card_univ, Fintype.card_fin, nsmul_eq_mul]
    field_simp
  rw [Finset.sum_congr rfl h1]
  simp only [Finset.sum_const, Finset.card_range, nsmul_eq_mul]
  field_simp

/-- **C135.** So it lies, on average, above every lower bound of the Hamiltonian: no evaluation of a trial function undercuts the ground-state energy except by chance. -/
theorem c135_variational (hd : 0 < d) (hn : 0 < n) {T : ℕ} (hT : 0 < T) {H : L2C μ →ₗ.[ℂ] L2C μ} (hs : Symmetric H) (E₀ : ℝ)
    (hE : ∀ χ : H.domain, E₀ * ‖(χ : L2C μ)‖ ^ 2 ≤ (inner ℂ (χ : L2C μ) (H χ)).re) (φ : H.domain) (h0 : (φ : L2C μ) ≠ 0)
    {ψ e : V → ℂ} (hφ : (φ : L2C μ) =ᵐ[μ] ψ) (he : IsLocalEnergy H φ e) {cfg : Cfg} {g : RandomRng Ω Key N n} {move : ℝ → N → V → V}
    {keys : ℕ → Fin d → Key} {x₀ : Ω → Fin d → Batch Unit n V} {s : State} (S : Setup P ν μ cfg g move ψ keys x₀ s T) (hst : Steady cfg s T) :
    ∃ m : Ω → ℂ, (∀ ω, reported cfg g move ψ e keys x₀ s T ω = some (m ω)) ∧ E₀ ≤ ∫ ω, (m ω).re ∂P := by
  obtain ⟨m, h1, h2, h3⟩ := c135_energy hd hn hT hs φ h0 hφ he S hst
  refine ⟨m, h1, ?_⟩
  have : ∫ ω, (m ω).re ∂P = (∫ ω, m ω ∂P).re := integral_re (𝕜 := ℂ) h2
  rw [this, h3, Complex.ofReal_re]
  unfold energy
  have hz : (inner ℂ (φ : L2C μ) (φ : L2C μ)).re = ‖(φ : L2C μ)‖ ^ 2 := inner_self_eq_norm_sq (𝕜 := ℂ) _
  rw [hz, le_div_iff₀ (pow_pos (norm_pos_iff.mpr h0) 2)]
  exact hE φ

/-- **C135.** For an eigenstate there is nothing to average: every evaluation reports the eigenvalue, almost surely. -/
theorem c135_eigenstate (hd : 0 < d) (hn : 0 < n) {T : ℕ} (hT : 0 < T) {H : L2C μ →ₗ.[ℂ] L2C μ} (φ : H.domain) (E : ℂ)
    (hE : H φ = E • (φ : L2C μ)) {ψ e : V → ℂ} (hφ : (φ : L2C μ) =ᵐ[μ] ψ) (he : IsLocalEnergy H φ e) {cfg : Cfg} {g : RandomRng Ω Key N n}
    {move : ℝ → N → V → V} {keys : ℕ → Fin d → Key} {x₀ : Ω → Fin d → Batch Unit n V} {s : State} (S : Setup P ν μ cfg g move ψ keys x₀ s T) (hst : Steady cfg s T) :
    ∀ᵐ ω ∂P, reported cfg g move ψ e keys x₀ s T ω = some E := by
  have hl : ∀ᵐ x ∂walkerLaw μ ψ, e x = E := by
    unfold walkerLaw
    rw [ae_withDensity_iff ((S.wavefunction.norm.pow_const 2).div_const _).ennreal_ofReal]
    have hs := Lp.coeFn_smul E (φ : L2C μ)
    rw [← hE] at hs
    filter_upwards [hs, he, hφ] with x h1 h2 h3 hx
    have hne : ψ x ≠ 0 := by
      rintro h
      rw [h] at hx
      simp at hx
    rw [h2, Pi.smul_apply, smul_eq_mul, h3] at h1
    exact mul_right_cancel₀ hne h1
  have hall : ∀ᵐ ω ∂P, ∀ t ∈ Finset.range T, ∀ a i, e (walkers cfg g move ψ keys x₀ s ω (t + 1) a () i) = E := by
    rw [Filter.eventually_all_finset]
    intro t ht
    rw [ae_all_iff]; intro a
    rw [ae_all_iff]; intro i
    have hk : t + 1 ≤ T := Finset.mem_range.mp ht
    rw [← c135_law S hst (t + 1) hk a i] at hl
    exact ae_of_ae_map (walker_measurable S hst (t + 1) hk a i).aemeasurable hl
  filter_upwards [hall] with ω hω
  rw [reported_eq hd hn T hT]
  have cn : (n : ℂ) ≠ 0 := by exact_mod_cast hn.ne'
  have cd : (d : ℂ) ≠ 0 := by exact_mod_cast hd.ne'
  have cT : (T : ℂ) ≠ 0 := by exact_mod_cast hT.ne'
  rw [Finset.sum_congr rfl fun t ht => by rw [Finset.sum_congr rfl fun a _ => by rw [Finset.sum_congr rfl fun i _ => hω t ht a i]]]
  simp only [Finset.sum_const, Finset.card_range, Finset.card_univ, Fintype.card_fin, nsmul_eq_mul]
  congr 1
  field_simp

/-! ### The default proposal -/

/-- **C135.** The default proposal is as likely one way as the other, at every width, for any number of coordinates. -/
theorem c135_gaussian {m : ℕ} (w : ℝ) :
    Reversible (volume : Measure (Fin m → ℝ)) (Measure.pi fun _ => gaussianReal 0 1) (gaussianMove w) := by
  intro f hf
  have hmv : Measurable fun p : (Fin m → ℝ) × (Fin m → ℝ) => gaussianMove w p.2 p.1 := by
    unfold gaussianMove
    fun_prop
  have m1 : Measurable fun p : (Fin m → ℝ) × (Fin m → ℝ) => f (p.1, gaussianMove w p.2 p.1) := hf.comp (measurable_fst.prodMk hmv)
  have m2 : Measurable fun p : (Fin m → ℝ) × (Fin m → ℝ) => f (gaussianMove w p.2 p.1, p.1) := hf.comp (hmv.prodMk measurable_fst)
  have s1 := lintegral_lintegral_swap (μ := (volume : Measure (Fin m → ℝ))) (ν := Measure.pi fun _ => gaussianReal 0 1)
    (f := fun x z => f (x, gaussianMove w z x)) m1.aemeasurable
  have s2 := lintegral_lintegral_swap (μ := (volume : Measure (Fin m → ℝ))) (ν := Measure.pi fun _ => gaussianReal 0 1)
    (f := fun x z => f (gaussianMove w z x, x)) m2.aemeasurable
  rw [s1, s2]
  have hneg : MeasurePreserving (fun z : Fin m → ℝ => -z) (Measure.pi fun _ => gaussianReal 0 1) (Measure.pi fun _ => gaussianReal 0 1) := by
    have h1 : MeasurePreserving (fun z : ℝ => -z) (gaussianReal 0 1) (gaussianReal 0 1) :=
      ⟨measurable_neg, by rw [gaussianReal_map_neg, neg_zero]⟩
    exact measurePreserving_pi (fun _ : Fin m => gaussianReal 0 1) (fun _ => gaussianReal 0 1) fun _ => h1
  have hm3 : Measurable fun z : Fin m → ℝ => ∫⁻ x, f (gaussianMove w z x, x) := m2.lintegral_prod_left'
  rw [← hneg.lintegral_comp hm3]
  refine lintegral_congr fun z => ?_
  have ht := lintegral_add_right_eq_self (μ := (volume : Measure (Fin m → ℝ))) (fun x => f (gaussianMove w (-z) x, x)) (fun c => z c * w)
  rw [← ht]
  refine lintegral_congr fun x => ?_
  congr 1
  refine Prod.ext ?_ rfl
  funext c
  simp [gaussianMove]

/-! ### The hypotheses can be met -/

/-- Keys with the walk through the tree of splits they come from. -/
abbrev TreeKey (d : ℕ) := (ℕ × Fin d) × List (Fin 3)

def treeSplit (k : TreeKey d) : TreeKey d × TreeKey d × TreeKey d := ((k.1, 0 :: k.2), (k.1, 1 :: k.2), (k.1, 2 :: k.2))

theorem tree_loop (r : ℕ × Fin d) (j : ℕ) : loopKey treeSplit (r, []) j = (r, List.replicate j 0) := by
  induction j with
  | zero => rfl
  | succ j ih => show (treeSplit (loopKey treeSplit (r, []) j)).1 = _; rw [ih]; rfl

theorem tree_fresh (a : Fin d) (steps T : ℕ) : (keysUsed treeSplit (fun t => ((t, a), [])) steps T).Nodup := by
  have hk : ∀ t j, drawKeys (treeSplit (d := d)) ((t, a), []) j = (((t, a), 1 :: List.replicate j 0), ((t, a), 2 :: List.replicate j 0)) := by
    intro t j; unfold drawKeys; rw [tree_loop]; rfl
  have hlen : ∀ {b b' : Fin 3} {j j' : ℕ}, b :: List.replicate j (0 : Fin 3) = b' :: List.replicate j' 0 → b = b' ∧ j = j' := by
    intro b b' j j' h
    rw [List.cons.injEq] at h
    have := congrArg List.length h.2
    simp only [List.length_replicate] at this
    exact ⟨h.1, this⟩
  unfold keysUsed
  simp only [hk]
  rw [List.nodup_flatMap]
  constructor
  · intro t _
    rw [List.nodup_flatMap]
    constructor
    · intro j _
      simp
    · refine List.nodup_range.pairwise_of_forall_ne fun j _ j' _ hne => ?_
      intro q hq hq'
      simp only [List.mem_cons, List.not_mem_nil, or_false] at hq hq'
      apply hne
      rcases hq with rfl | rfl <;> rcases hq' with h | h <;> exact (hlen (Prod.ext_iff.mp h).2).2
  · refine List.nodup_range.pairwise_of_forall_ne fun t _ t' _ hne => ?_
    intro q hq hq'
    simp only [List.mem_flatMap, List.mem_cons, List.not_mem_nil, or_false] at hq hq'
    obtain ⟨j, _, hj⟩ := hq
    obtain ⟨j', _, hj'⟩ := hq'
    apply hne
    rcases hj with rfl | rfl <;> rcases hj' with h | h <;> exact (Prod.ext_iff.mp (Prod.ext_iff.mp h).1).1

/-- Draws outside `[0, 1)` do not happen; this makes it so everywhere. -/
noncomputable def clip (r : ℝ) : ℝ := if r ∈ Set.Ico (0 : ℝ) 1 then r else 0

@[fun_prop]
theorem clip_measurable : Measurable clip := Measurable.ite measurableSet_Ico measurable_id measurable_const

theorem clip_range (r : ℝ) : clip r ∈ Set.Ico (0 : ℝ) 1 := by
  unfold clip; split
  · assumption
  · exact ⟨le_rfl, one_pos⟩

theorem clip_law : unif.map clip = unif := by
  have : clip =ᵐ[unif] id := by
    rw [Filter.EventuallyEq, ae_restrict_iff' measurableSet_Ico]
    exact Filter.Eventually.of_forall fun r hr => if_pos hr
  rw [Measure.map_congr this, Measure.map_id]

/-- Walkers drawn independently from the distribution of the wavefunction, and draws independent of them and of each other. -/
noncomputable def idealLaw (ν : Measure N) (μ : Measure V) (ψ : V → ℂ) (d n : ℕ) : Measure ((Fin d → Fin n → V) × (TreeKey d × Fin n → N × ℝ)) :=
  (Measure.pi fun _ => Measure.pi fun _ => walkerLaw μ ψ).prod (Measure.infinitePi fun _ => ν.prod unif)

/-- The generator that reads those draws. -/
noncomputable def idealRng (V N : Type) (d n : ℕ) : RandomRng ((Fin d → Fin n → V) × (TreeKey d × Fin n → N × ℝ)) (TreeKey d) N n :=
  ⟨treeSplit, fun k i ω => (ω.2 (k, i)).1, fun k i ω => clip (ω.2 (k, i)).2⟩

/-- The key of each device in each step. -/
def idealKeys (d : ℕ) : ℕ → Fin d → TreeKey d := fun t a => ((t, a), [])

/-- The walkers' starting places. -/
def idealStart (V N : Type) (d n : ℕ) : (Fin d → Fin n → V) × (TreeKey d × Fin n → N × ℝ) → Fin d → Batch Unit n V := fun ω a _ i => ω.1 a i

instance idealLaw_prob (ν : Measure N) [IsProbabilityMeasure ν] (μ : Measure V) (ψ : V → ℂ) [IsProbabilityMeasure (walkerLaw μ ψ)] (d n : ℕ) :
    IsProbabilityMeasure (idealLaw ν μ ψ d n) := by unfold idealLaw; infer_instance

theorem ideal_setup (ν : Measure N) [IsProbabilityMeasure ν] (μ : Measure V) (ψ : V → ℂ) (hψ : Measurable ψ) [IsProbabilityMeasure (walkerLaw μ ψ)]
    (move : ℝ → N → V → V) (cfg : Cfg) (s : State) (hmv : Measurable fun p : V × N => move s.stddev p.2 p.1)
    (hr : Reversible μ ν (move s.stddev)) (d n T : ℕ) : Setup (idealLaw ν μ ψ d n) ν μ cfg (idealRng V N d n) move ψ (idealKeys d) (idealStart V N d n) s T := by
  unfold idealLaw idealRng idealKeys idealStart
  let A : Measure (Fin d → Fin n → V) := Measure.pi fun _ => Measure.pi fun _ => walkerLaw μ ψ
  let Q : Measure (TreeKey d × Fin n → N × ℝ) := Measure.infinitePi fun _ => ν.prod unif
  let g : RandomRng ((Fin d → Fin n → V) × (TreeKey d × Fin n → N × ℝ)) (TreeKey d) N n :=
    ⟨treeSplit, fun k i ω => (ω.2 (k, i)).1, fun k i ω => clip (ω.2 (k, i)).2⟩
  have hX0 : Measurable fun p : N × ℝ => (p.1, clip p.2) := measurable_fst.prodMk (clip_measurable.comp measurable_snd)
  have hsnd : (A.prod Q).map Prod.snd = Q := by rw [Measure.map_snd_prod, measure_univ, one_smul]
  have hev : ∀ q, Q.map (fun d => d q) = ν.prod unif := fun q => Measure.infinitePi_map_eval _ q
  show Setup (A.prod Q) ν μ cfg g move ψ (fun t a => ((t, a), [])) (fun ω a _ i => ω.1 a i) s T
  refine ⟨hψ, hmv, hr, fun i => ?_, fun a i => ?_, fun a => tree_fresh a _ _⟩
  · have hmeasQ : ∀ k : TreeKey d, Measurable fun δ : TreeKey d × Fin n → N × ℝ => ((δ (k, i)).1, clip (δ (k, i)).2) :=
      fun k => hX0.comp (measurable_pi_apply (k, i))
    have hmeas : ∀ k : TreeKey d, Measurable fun ω : (Fin d → Fin n → V) × (TreeKey d × Fin n → N × ℝ) => (g.noise k i ω, g.uniform k i ω) :=
      fun k => (hmeasQ k).comp measurable_snd
    refine ⟨hmeas, ?_, fun k => ?_, fun k => ?_, fun k ω => clip_range _⟩
    · have hQ : iIndepFun (fun (k : TreeKey d) (δ : TreeKey d × Fin n → N × ℝ) => ((δ (k, i)).1, clip (δ (k, i)).2)) Q := by
        have h1 : iIndepFun (fun (q : TreeKey d × Fin n) (δ : TreeKey d × Fin n → N × ℝ) => ((δ q).1, clip (δ q).2)) Q :=
          iIndepFun_infinitePi (X := fun _ (p : N × ℝ) => (p.1, clip p.2)) fun _ => hX0
        exact h1.precomp (g := fun k => (k, i)) fun k k' h => (Prod.ext_iff.mp h).1
      rw [iIndepFun_iff_map_fun_eq_infinitePi_map hmeas]
      rw [iIndepFun_iff_map_fun_eq_infinitePi_map hmeasQ] at hQ
      have e1 : (A.prod Q).map (fun ω (k : TreeKey d) => (g.noise k i ω, g.uniform k i ω)) = Q.map fun δ k => ((δ (k, i)).1, clip (δ (k, i)).2) := by
        rw [← hsnd, Measure.map_map (measurable_pi_iff.mpr hmeasQ) measurable_snd, hsnd]
        rfl
      have e2 : ∀ k : TreeKey d, (A.prod Q).map (fun ω => (g.noise k i ω, g.uniform k i ω)) = Q.map fun δ => ((δ (k, i)).1, clip (δ (k, i)).2) := by
        intro k
        rw [← hsnd, Measure.map_map (hmeasQ k) measurable_snd, hsnd]
        rfl
      rw [e1, hQ]
      simp_rw [e2]
    · have : (A.prod Q).map (fun ω => g.noise k i ω) = ((A.prod Q).map Prod.snd |>.map fun δ => δ (k, i)).map Prod.fst := by
        rw [Measure.map_map (by fun_prop) (by fun_prop), Measure.map_map (by fun_prop) (by fun_prop)]
        rfl
      rw [this, hsnd, hev, Measure.map_fst_prod, measure_univ, one_smul]
    · have : (A.prod Q).map (fun ω => g.uniform k i ω) = (((A.prod Q).map Prod.snd |>.map fun δ => δ (k, i)).map Prod.snd).map clip := by
        rw [Measure.map_map (by fun_prop) (by fun_prop), Measure.map_map (by fun_prop) (by fun_prop),
          Measure.map_map (by fun_prop) (by fun_prop)]
        rfl
      rw [this, hsnd, hev, Measure.map_snd_prod, measure_univ, one_smul, clip_law]
  · have hfst : (A.prod Q).map Prod.fst = A := by rw [Measure.map_fst_prod, measure_univ, one_smul]
    refine ⟨by fun_prop, ?_, ?_⟩
    · have : (A.prod Q).map (fun ω => ω.1 a i) = (((A.prod Q).map Prod.fst).map (Function.eval a)).map (Function.eval i) := by
        rw [Measure.map_map (measurable_pi_apply _) measurable_fst, Measure.map_map (measurable_pi_apply _) ((measurable_pi_apply _).comp measurable_fst)]
        rfl
      rw [this, hfst]
      have e1 : A.map (Function.eval a) = Measure.pi fun _ => walkerLaw μ ψ := by
        simp only [A]; rw [Measure.pi_map_eval]; simp
      rw [e1, Measure.pi_map_eval]; simp
    · exact indepFun_prod (μ := A) (ν := Q) (X := fun x => x a i) (Y := fun δ (k : TreeKey d) => ((δ (k, i)).1, clip (δ (k, i)).2))
        (by fun_prop) (measurable_pi_iff.mpr fun k => hX0.comp (measurable_pi_apply (k, i)))

/-- **C135.** For every wavefunction with a distribution, every reversible proposal and any number of devices, walkers, updates and steps there is a
generator that meets the hypotheses: independent draws at all keys and for all walkers, and walkers started independently. -/
theorem c135_exists (ν : Measure N) [IsProbabilityMeasure ν] (μ : Measure V) (ψ : V → ℂ) (hψ : Measurable ψ) [IsProbabilityMeasure (walkerLaw μ ψ)]
    (move : ℝ → N → V → V) (cfg : Cfg) (s : State) (hmv : Measurable fun p : V × N => move s.stddev p.2 p.1)
    (hr : Reversible μ ν (move s.stddev)) (d n T : ℕ) :
    ∃ (P : Measure ((Fin d → Fin n → V) × (TreeKey d × Fin n → N × ℝ))) (_ : IsProbabilityMeasure P)
      (g : RandomRng ((Fin d → Fin n → V) × (TreeKey d × Fin n → N × ℝ)) (TreeKey d) N n) (keys : ℕ → Fin d → TreeKey d)
      (x₀ : (Fin d → Fin n → V) × (TreeKey d × Fin n → N × ℝ) → Fin d → Batch Unit n V),
      Setup P ν μ cfg g move ψ keys x₀ s T :=
  ⟨idealLaw ν μ ψ d n, inferInstance, idealRng V N d n, idealKeys d, idealStart V N d n, ideal_setup ν μ ψ hψ move cfg s hmv hr d n T⟩

/-- **C135.** With the default proposal on the electrons' coordinates and the default settings (10 updates per step, width adapted after 100 steps), up to
100 steps from the start, the average is the variational energy, for any symmetric Hamiltonian: the hypotheses above are those of the default sampler. -/
theorem c135_default {m : ℕ} {H : L2C (volume : Measure (Fin m → ℝ)) →ₗ.[ℂ] L2C volume} (hs : Symmetric H) (φ : H.domain)
    (h0 : (φ : L2C (volume : Measure (Fin m → ℝ))) ≠ 0) {e : (Fin m → ℝ) → ℂ} (he : IsLocalEnergy H φ e) (d n : ℕ) (hd : 0 < d) (hn : 0 < n)
    (T : ℕ) (hT : 0 < T) (hT' : T ≤ 100) :
    let cfg : Cfg := ⟨10, 1 / 10, 100, 1 / 2, 55 / 100⟩
    ∃ (Ω Key : Type) (_ : MeasurableSpace Ω) (P : Measure Ω) (_ : IsProbabilityMeasure P) (g : RandomRng Ω Key (Fin m → ℝ) n) (keys : ℕ → Fin d → Key)
      (x₀ : Ω → Fin d → Batch Unit n (Fin m → ℝ)) (ψ : (Fin m → ℝ) → ℂ), (φ : L2C (volume : Measure (Fin m → ℝ))) =ᵐ[volume] ψ ∧
      Setup P (Measure.pi fun _ => gaussianReal 0 1) volume cfg g gaussianMove ψ keys x₀ (init cfg) T ∧ Steady cfg (init cfg) T ∧
      ∃ r : Ω → ℂ, (∀ ω, reported cfg g gaussianMove ψ e keys x₀ (init cfg) T ω = some (r ω)) ∧ ∫ ω, r ω ∂P = (energy H φ : ℂ) := by
  intro cfg
  have hprob := Jaqmc.LossGrad.Grad.law_prob h0
  have hψ : Measurable ((φ : L2C (volume : Measure (Fin m → ℝ))) : (Fin m → ℝ) → ℂ) := (Lp.stronglyMeasurable (φ : L2C (volume : Measure (Fin m → ℝ)))).measurable
  obtain ⟨P, hP, g, keys, x₀, S⟩ := c135_exists (Measure.pi fun _ => gaussianReal 0 1) volume _ hψ gaussianMove cfg (init cfg)
    (by unfold gaussianMove; fun_prop) (c135_gaussian _) d n T
  have hst : Steady cfg (init cfg) T := by
    left
    intro k h1 h2
    show (0 + k) % 100 ≠ 0
    omega
  obtain ⟨r, h1, _, h3⟩ := c135_energy hd hn hT hs φ h0 Filter.EventuallyEq.rfl he S hst
  exact ⟨_, _, _, P, hP, g, keys, x₀, _, Filter.EventuallyEq.rfl, S, hst, r, h1, h3⟩

/-- Two devices with four walkers each, fifty steps: an operator and a wavefunction that is not an eigenstate of it. -/
example (φ χ : L2C (volume : Measure (Fin 3 → ℝ))) (hφ : ∀ᵐ x, φ x ≠ 0) (h0 : φ ≠ 0) :
    ∃ (Ω Key : Type) (_ : MeasurableSpace Ω) (P : Measure Ω) (_ : IsProbabilityMeasure P) (g : RandomRng Ω Key (Fin 3 → ℝ) 4) (keys : ℕ → Fin 2 → Key)
      (x₀ : Ω → Fin 2 → Batch Unit 4 (Fin 3 → ℝ)) (ψ : (Fin 3 → ℝ) → ℂ) (r : Ω → ℂ),
      (∀ ω, reported ⟨10, 1 / 10, 100, 1 / 2, 55 / 100⟩ g gaussianMove ψ (fun x => inner ℂ χ φ * (χ x / φ x)) keys x₀
        (init ⟨10, 1 / 10, 100, 1 / 2, 55 / 100⟩) 50 ω = some (r ω)) ∧
      ∫ ω, r ω ∂P = (energy (Jaqmc.LossGrad.Props.rankOne χ) (Jaqmc.LossGrad.Props.line φ χ 0) : ℂ) := by
  have e0 : ((Jaqmc.LossGrad.Props.line φ χ 0 : (Jaqmc.LossGrad.Props.rankOne χ).domain) : L2C (volume : Measure (Fin 3 → ℝ))) = φ := by
    show φ + ((0 : ℝ) : ℂ) • χ = φ
    simp
  obtain ⟨Ω, Key, i1, P, i2, g, keys, x₀, ψ, _, _, _, r, h1, h2⟩ := c135_default (Jaqmc.LossGrad.Props.rankOne_symmetric χ) (Jaqmc.LossGrad.Props.line φ χ 0)
    (by rw [e0]; exact h0) (Jaqmc.LossGrad.Props.line_local φ χ hφ) 2 4 (by norm_num) (by norm_num) 50 (by norm_num) (by norm_num)
  exact ⟨Ω, Key, i1, P, i2, g, keys, x₀, ψ, r, h1, h2⟩

/-! ### Adaptation -/

/-- One sampling step of one update for one walker on one device. -/
theorem one_step (cfg : Cfg) (h1 : cfg.steps = 1) (g : RandomRng Ω Key N 1) (hu : ∀ k i ω, g.uniform k i ω ∈ Set.Ico (0 : ℝ) 1) (move : ℝ → N → V → V)
    (ψ : V → ℂ) (x : Fin 1 → Batch Unit 1 V) (s : State) (keys : Fin 1 → Key) (ω : Ω) :
    let y := move s.stddev (g.noise (g.split3 (keys 0)).2.1 0 ω) (x 0 () 0)
    let acc := g.uniform (g.split3 (keys 0)).2.2 0 ω * ‖ψ (x 0 () 0)‖ ^ 2 < ‖ψ y‖ ^ 2
    (step cfg (g.seed ω) (target ψ) (moveAll g move ω) x s keys).1 0 () 0 = (if acc then y else x 0 () 0) ∧
    (step cfg (g.seed ω) (target ψ) (moveAll g move ω) x s keys).2.2 = adapt cfg s (if acc then 1 else 0) := by
  intro y acc
  have hc := cond_iff ψ (x 0 () 0) y (g.uniform (g.split3 (keys 0)).2.2 0 ω) (hu _ _ _)
  unfold step
  rw [if_neg (by omega), h1]
  dsimp only
  constructor
  · show (if Sampler.cond (logProbOf ψ (x 0 () 0)) (logProbOf ψ y) (g.uniform (g.split3 (keys 0)).2.2 0 ω) then y else x 0 () 0) = _
    rw [if_congr hc rfl rfl]
  · congr 1
    unfold pmoveOf
    rw [Fin.sum_univ_one]
    have : (mhLoop (g.seed ω) (target (d := 1) ψ 0) (moveAll g move ω s.stddev) 1 (start (target (d := 1) ψ 0) (x 0) (keys 0))).accepts = if acc then 1 else 0 := by
      show 0 + (Finset.univ.filter fun i : Fin 1 => Sampler.cond (logProbOf ψ (x 0 () i)) (logProbOf ψ (move s.stddev (g.noise (g.split3 (keys 0)).2.1 i ω) (x 0 () i)))
        (g.uniform (g.split3 (keys 0)).2.2 i ω)).card = _
      rw [zero_add]
      by_cases ha : acc
      · rw [if_pos ha, Finset.card_eq_one]
        refine ⟨0, ?_⟩
        ext i
        rw [Subsingleton.elim i 0]
        simp only [Finset.mem_filter, Finset.mem_univ, true_and, Finset.mem_singleton, iff_true]
        exact hc.mpr ha
      · rw [if_neg ha, Finset.card_eq_zero]
        ext i
        rw [Subsingleton.elim i 0]
        simp only [Finset.mem_filter, Finset.mem_univ, true_and, Finset.notMem_empty, iff_false]
        exact fun h => ha (hc.mp h)
    dsimp only
    rw [this]
    split <;> simp

/-- A wavefunction on two places, twice as likely in one as in the other. -/
noncomputable def twoPlaces (b : Bool) : ℂ := if b then 1 else (Real.sqrt 2 : ℝ)

/-- A move to the other place; wider moves go all the way round. -/
noncomputable def turn (width : ℝ) (_ : Unit) (b : Bool) : Bool := if width ≤ 1 then !b else b

theorem twoPlaces_sq (b : Bool) : ‖twoPlaces b‖ ^ 2 = if b then 1 else 2 := by
  cases b
  · simp [twoPlaces]
  · simp [twoPlaces]

theorem twoPlaces_law : walkerLaw Measure.count twoPlaces {true} = ENNReal.ofReal (1 / 3) ∧ walkerLaw Measure.count twoPlaces {false} = ENNReal.ofReal (2 / 3) := by
  have hZ : ∫ y, ‖twoPlaces y‖ ^ 2 ∂(Measure.count : Measure Bool) = 3 := by
    simp_rw [twoPlaces_sq]
    rw [integral_countable (by exact Integrable.of_finite)]
    simp [tsum_fintype, Measure.real]
    norm_num
  unfold walkerLaw
  rw [hZ]
  constructor
  · rw [withDensity_apply _ (measurableSet_singleton _), Measure.restrict_singleton]
    simp [twoPlaces_sq]
  · rw [withDensity_apply _ (measurableSet_singleton _), Measure.restrict_singleton]
    simp [twoPlaces_sq]

instance twoPlaces_prob : IsProbabilityMeasure (walkerLaw Measure.count twoPlaces) := by
  constructor
  have : (Set.univ : Set Bool) = {true} ∪ {false} := by ext b; cases b <;> simp
  rw [this, measure_union (by simp) (measurableSet_singleton _), twoPlaces_law.1, twoPlaces_law.2, ← ENNReal.ofReal_add (by norm_num) (by norm_num)]
  norm_num

theorem turn_reversible (w : ℝ) : Reversible (Measure.count : Measure Bool) (Measure.dirac ()) (turn w) := by
  intro f hf
  simp only [lintegral_dirac, lintegral_count, tsum_fintype, Fintype.sum_bool]
  unfold turn
  split
  · simp [add_comm]
  · rfl

noncomputable def adaptive : Cfg := ⟨1, 1, 1, 0, 1 / 2⟩

theorem half_mass : unif {u | u * 2 < 1} = ENNReal.ofReal (1 / 2) := by
  have := accept_mass 2 1 (by norm_num) (by norm_num)
  rw [min_eq_right (by norm_num)] at this
  have h2 : ENNReal.ofReal (1 / 2) = ENNReal.ofReal (1 / 2) * (ENNReal.ofReal 2 * unif {u | u * 2 < 1}) := by rw [this, ← ENNReal.ofReal_mul (by norm_num)]; norm_num
  rw [h2, ← mul_assoc, ← ENNReal.ofReal_mul (by norm_num)]
  norm_num

/-- **C135.** The adaptation of the width breaks this: with it the walkers leave the distribution they started in, although each of the proposals it chooses from
is as likely one way as the other. -/
theorem c135_adaptation :
    (∀ w, Reversible (Measure.count : Measure Bool) (Measure.dirac ()) (turn w)) ∧
    ∃ (Ω Key : Type) (_ : MeasurableSpace Ω) (P : Measure Ω) (_ : IsProbabilityMeasure P) (g : RandomRng Ω Key Unit 1) (keys : ℕ → Fin 1 → Key)
      (x₀ : Ω → Fin 1 → Batch Unit 1 Bool),
      Setup P (Measure.dirac ()) Measure.count adaptive g turn twoPlaces keys x₀ (init adaptive) 2 ∧
      P.map (fun ω => walkers adaptive g turn twoPlaces keys x₀ (init adaptive) ω 2 0 () 0) ≠ walkerLaw Measure.count twoPlaces := by
  refine ⟨turn_reversible, ?_⟩
  obtain ⟨P, hP, g, keys, x₀, S⟩ := c135_exists (Measure.dirac ()) Measure.count twoPlaces (measurable_of_finite _) turn adaptive (init adaptive)
    (measurable_of_countable _) (turn_reversible _) 1 1 2
  refine ⟨_, _, _, P, hP, g, keys, x₀, S, ?_⟩
  have hu : ∀ k i ω, g.uniform k i ω ∈ Set.Ico (0 : ℝ) 1 := fun k i ω => (S.draws i).range k ω
  set k1 := (g.split3 (keys 0 0)).2.2 with hk1
  set k2 := (g.split3 (keys 1 0)).2.2 with hk2
  have hne : k1 ≠ k2 := by
    have := S.fresh 0
    simp only [keysUsed, adaptive, List.range_succ, List.range_zero, List.nil_append, List.flatMap_cons, List.flatMap_nil, List.append_nil, List.cons_append, drawKeys, loopKey,
      List.nodup_cons, List.mem_cons, not_or, List.not_mem_nil] at this
    exact this.2.1.2.1
  -- after the first step
  have hw1 : ∀ ω, x₀ ω 0 () 0 = false →
      walkers adaptive g turn twoPlaces keys x₀ (init adaptive) ω 1 0 () 0 = decide (g.uniform k1 0 ω * 2 < 1) ∧
      (stateAfter adaptive g turn twoPlaces keys x₀ (init adaptive) ω 1).stddev = if g.uniform k1 0 ω * 2 < 1 then 1 * 1.1 else 1 := by
    intro ω hx
    obtain ⟨e1, e2⟩ := walkers_succ adaptive g turn twoPlaces keys x₀ (init adaptive) ω 0
    obtain ⟨o1, o2⟩ := one_step adaptive rfl g hu turn twoPlaces (walkers adaptive g turn twoPlaces keys x₀ (init adaptive) ω 0)
      (stateAfter adaptive g turn twoPlaces keys x₀ (init adaptive) ω 0) (keys 0) ω
    have z1 : walkers adaptive g turn twoPlaces keys x₀ (init adaptive) ω 0 0 () 0 = false := hx
    have z2 : stateAfter adaptive g turn twoPlaces keys x₀ (init adaptive) ω 0 = init adaptive := rfl
    have z3 : (init adaptive).stddev = 1 := rfl
    rw [← e1] at o1
    rw [← e2] at o2
    rw [z1, z2, z3] at o1 o2
    have ht : turn 1 (g.noise (g.split3 (keys 0 0)).2.1 0 ω) false = true := by simp [turn]
    rw [ht, twoPlaces_sq, twoPlaces_sq, ← hk1] at o1 o2
    simp only [Bool.false_eq_true, if_false, if_true] at o1 o2
    constructor
    · rw [o1]; by_cases h : g.uniform k1 0 ω * 2 < 1 <;> simp [h]
    · rw [o2]
      by_cases h : g.uniform k1 0 ω * 2 < 1
      · simp only [if_pos h]
        simp [adapt, adaptive, init, meanL]
        norm_num
      · simp only [if_neg h]
        simp [adapt, adaptive, init, meanL]
        try norm_num
  have hw2 : ∀ ω, x₀ ω 0 () 0 = false → (g.uniform k1 0 ω * 2 < 1 ∨ g.uniform k2 0 ω * 2 < 1) →
      walkers adaptive g turn twoPlaces keys x₀ (init adaptive) ω 2 0 () 0 = true := by
    intro ω hx hor
    obtain ⟨y1, y2⟩ := hw1 ω hx
    obtain ⟨e1, e2⟩ := walkers_succ adaptive g turn twoPlaces keys x₀ (init adaptive) ω 1
    obtain ⟨o1, o2⟩ := one_step adaptive rfl g hu turn twoPlaces (walkers adaptive g turn twoPlaces keys x₀ (init adaptive) ω 1)
      (stateAfter adaptive g turn twoPlaces keys x₀ (init adaptive) ω 1) (keys 1) ω
    rw [← e1] at o1
    rw [y1, y2, ← hk2] at o1
    rw [o1]
    by_cases h : g.uniform k1 0 ω * 2 < 1
    · simp only [h, decide_true, if_true]
      have : turn (1 * 1.1) (g.noise (g.split3 (keys 1 0)).2.1 0 ω) true = true := by unfold turn; rw [if_neg (by norm_num)]
      rw [this, ite_self]
    · simp only [h, decide_false, if_false]
      have ht : turn 1 (g.noise (g.split3 (keys 1 0)).2.1 0 ω) false = true := by simp [turn]
      rw [ht, twoPlaces_sq, twoPlaces_sq]
      simp only [Bool.false_eq_true, if_false, if_true]
      rw [if_pos (hor.resolve_left h)]
  intro hlaw
  -- the probability to end in the rarer place
  have m0 : Measurable fun ω => x₀ ω 0 () 0 := (S.start 0 0).measurable
  have mu : ∀ k, Measurable (g.uniform k 0) := fun k => measurable_snd.comp ((S.draws 0).measurable k)
  have hlow : ENNReal.ofReal (1 / 2) ≤ P {ω | walkers adaptive g turn twoPlaces keys x₀ (init adaptive) ω 2 0 () 0 = true} := by
    have hsub : {ω | x₀ ω 0 () 0 = false} ∩ {ω | g.uniform k1 0 ω * 2 < 1 ∨ g.uniform k2 0 ω * 2 < 1} ⊆
        {ω | walkers adaptive g turn twoPlaces keys x₀ (init adaptive) ω 2 0 () 0 = true} := fun ω h => hw2 ω h.1 h.2
    refine le_trans ?_ (measure_mono hsub)
    have mA : MeasurableSet {u : ℝ | u * 2 < 1} := measurableSet_lt (by fun_prop) (by fun_prop)
    have hX : P {ω | x₀ ω 0 () 0 = false} = ENNReal.ofReal (2 / 3) := by
      rw [← twoPlaces_law.2, ← (S.start 0 0).law, Measure.map_apply m0 (measurableSet_singleton _)]; rfl
    have hU : ∀ k, P {ω | g.uniform k 0 ω * 2 < 1} = ENNReal.ofReal (1 / 2) := by
      intro k
      rw [← half_mass, unif, ← (S.draws 0).uniform_law k, Measure.map_apply (mu k) mA]; rfl
    have hind : P ({ω | x₀ ω 0 () 0 = false} ∩ {ω | g.uniform k1 0 ω * 2 < 1 ∨ g.uniform k2 0 ω * 2 < 1}) =
        P {ω | x₀ ω 0 () 0 = false} * P {ω | g.uniform k1 0 ω * 2 < 1 ∨ g.uniform k2 0 ω * 2 < 1} := by
      have h := (indepFun_iff_measure_inter_preimage_eq_mul.mp (S.start 0 0).indep) {false} ({δ | (δ k1).2 * 2 < 1} ∪ {δ | (δ k2).2 * 2 < 1})
        (measurableSet_singleton _) (MeasurableSet.union (measurableSet_lt (f := fun δ : TreeKey 1 → Unit × ℝ => (δ k1).2 * 2) (by fun_prop) (by fun_prop))
          (measurableSet_lt (f := fun δ : TreeKey 1 → Unit × ℝ => (δ k2).2 * 2) (by fun_prop) (by fun_prop)))
      exact h
    have hcompl : P {ω | g.uniform k1 0 ω * 2 < 1 ∨ g.uniform k2 0 ω * 2 < 1} + P {ω | ¬ g.uniform k1 0 ω * 2 < 1 ∧ ¬ g.uniform k2 0 ω * 2 < 1} = 1 := by
      have hm : MeasurableSet {ω | g.uniform k1 0 ω * 2 < 1 ∨ g.uniform k2 0 ω * 2 < 1} := ((mu k1) mA).union ((mu k2) mA)
      rw [← measure_univ (μ := P), ← measure_add_measure_compl hm]
      congr 2
      ext ω; simp [not_or]
    have hN : ∀ k, P {ω | ¬ g.uniform k 0 ω * 2 < 1} = ENNReal.ofReal (1 / 2) := by
      intro k
      have hm : MeasurableSet {ω | g.uniform k 0 ω * 2 < 1} := (mu k) mA
      have := measure_compl hm (measure_ne_top P _)
      rw [measure_univ, hU, ← ENNReal.ofReal_one, ← ENNReal.ofReal_sub _ (by norm_num)] at this
      rw [show {ω | ¬ g.uniform k 0 ω * 2 < 1} = {ω | g.uniform k 0 ω * 2 < 1}ᶜ from rfl, this]
      norm_num
    have hboth : P {ω | ¬ g.uniform k1 0 ω * 2 < 1 ∧ ¬ g.uniform k2 0 ω * 2 < 1} = ENNReal.ofReal (1 / 4) := by
      have hi := (S.draws 0).indep.indepFun hne
      have h := (indepFun_iff_measure_inter_preimage_eq_mul.mp hi) {p | ¬ p.2 * 2 < 1} {p | ¬ p.2 * 2 < 1}
        (measurableSet_lt (f := fun p : Unit × ℝ => p.2 * 2) (g := fun _ => 1) (by fun_prop) (by fun_prop)).compl
        (measurableSet_lt (f := fun p : Unit × ℝ => p.2 * 2) (g := fun _ => 1) (by fun_prop) (by fun_prop)).compl
      have h' : P {ω | ¬ g.uniform k1 0 ω * 2 < 1 ∧ ¬ g.uniform k2 0 ω * 2 < 1} =
          P {ω | ¬ g.uniform k1 0 ω * 2 < 1} * P {ω | ¬ g.uniform k2 0 ω * 2 < 1} := h
      rw [h', hN, hN, ← ENNReal.ofReal_mul (by norm_num)]
      norm_num
    rw [hboth] at hcompl
    have hor : P {ω | g.uniform k1 0 ω * 2 < 1 ∨ g.uniform k2 0 ω * 2 < 1} = ENNReal.ofReal (3 / 4) := by
      have := ENNReal.eq_sub_of_add_eq (ENNReal.ofReal_ne_top) hcompl
      rw [this, ← ENNReal.ofReal_one, ← ENNReal.ofReal_sub _ (by norm_num)]
      norm_num
    rw [hind, hX, hor, ← ENNReal.ofReal_mul (by norm_num)]
    exact ENNReal.ofReal_le_ofReal (by norm_num)
  have hT : ENNReal.ofReal (1 / 3) = P {ω | walkers adaptive g turn twoPlaces keys x₀ (init adaptive) ω 2 0 () 0 = true} := by
    have hm : AEMeasurable (fun ω => walkers adaptive g turn twoPlaces keys x₀ (init adaptive) ω 2 0 () 0) P := by
      by_contra hc
      rw [Measure.map_of_not_aemeasurable hc] at hlaw
      have := twoPlaces_law.1
      rw [← hlaw] at this
      have h3 : (0 : ℝ≥0∞) < ENNReal.ofReal (1 / 3) := ENNReal.ofReal_pos.mpr (by norm_num)
      rw [← this] at h3
      simp at h3
    rw [← twoPlaces_law.1, ← hlaw, Measure.map_apply_of_aemeasurable hm (measurableSet_singleton _)]
    rfl
  rw [← hT] at hlow
  have := (ENNReal.ofReal_le_ofReal_iff (by norm_num)).mp hlow
  norm_num at this

end Jaqmc.Average.Props
