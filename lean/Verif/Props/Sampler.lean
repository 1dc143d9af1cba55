import Verif.Spec.Sampler
import Verif.Props.Data
import Mathlib.MeasureTheory.Measure.Lebesgue.Basic
import Mathlib.Tactic.Ring
import Mathlib.Tactic.Linarith
import Mathlib.Tactic.FieldSimp
import Mathlib.Tactic.Positivity
/-! # Samplers: C24, C25, C26, C27 -/
namespace Jaqmc.Sampler.Props
open Jaqmc.Sampler Jaqmc.Sampler.Spec
open Classical
open Jaqmc.Data.Props (c15_merge c15_subset)

variable {F V Key : Type} {n : Nat}

/-! ### C25 -/

theorem mhUpdate_logProb (rng : Rng Key n) (lp : Fin n → (F → V) → LP)
    (proposal : Key → Batch F n V → Batch F n V) (c : Carry F n V Key) (h : c.logProb = batched lp c.x) :
    (mhUpdate rng (batched lp) proposal c).logProb = batched lp (mhUpdate rng (batched lp) proposal c).x := by
  funext i
  unfold mhUpdate
  dsimp only
  unfold batched
  by_cases hc : cond (c.logProb i) (lp i fun f => proposal (rng.split3 c.rngs).2.1 c.x f i)
      (rng.uniform (rng.split3 c.rngs).2.2 i)
  · have hc' := hc
    simp only [hc, if_true]
  · simp only [hc, if_false]
    rw [h]; rfl

theorem not_cond_ninf (old : LP) (u : ℝ) : ¬ cond old .ninf u := by
  unfold cond logU
  cases old <;> simp only [LP.sub] <;> split <;> simp [LP.gt]

theorem not_cond_nan (old : LP) (u : ℝ) : ¬ cond old .nan u := by
  unfold cond
  cases old <;> simp [LP.sub, LP.gt]

theorem mhLoop_logProb (rng : Rng Key n) (lp : Fin n → (F → V) → LP)
    (proposal : Key → Batch F n V → Batch F n V) (x : Batch F n V) (key : Key) (k : Nat) :
    (mhLoop rng (batched lp) proposal k (start (batched lp) x key)).logProb
      = batched lp (mhLoop rng (batched lp) proposal k (start (batched lp) x key)).x := by
  induction k with
  | zero => rfl
  | succ k ih =>
    simp only [mhLoop]
    exact mhUpdate_logProb rng lp proposal _ ih

/-- C25: at every sub-step the stored log-probability of each walker is that of its stored configuration, and
each walker separately either keeps its whole configuration or takes the whole proposed one, the latter exactly
when the acceptance test passes on its own log-probabilities and its own draw; the number of accepted moves
grows by the number of walkers that moved. -/
theorem c25_walkers (rng : Rng Key n) (lp : Fin n → (F → V) → LP)
    (proposal : Key → Batch F n V → Batch F n V) (x : Batch F n V) (key : Key) (k : Nat) :
    let c := mhLoop rng (batched lp) proposal k (start (batched lp) x key)
    let c' := mhLoop rng (batched lp) proposal (k + 1) (start (batched lp) x key)
    (∀ i, c.logProb i = lp i (fun f => c.x f i)) ∧
    ∃ (y : Batch F n V) (u : Fin n → ℝ),
      y = proposal (rng.split3 c.rngs).2.1 c.x ∧ u = rng.uniform (rng.split3 c.rngs).2.2 ∧
      (∀ i, cond (lp i (fun f => c.x f i)) (lp i (fun f => y f i)) (u i) → SameAt i c'.x y) ∧
      (∀ i, ¬ cond (lp i (fun f => c.x f i)) (lp i (fun f => y f i)) (u i) → SameAt i c'.x c.x) ∧
      c'.accepts = c.accepts
        + (Finset.univ.filter (fun i => cond (lp i (fun f => c.x f i)) (lp i (fun f => y f i)) (u i))).card := by
  intro c c'
  have h0 : ∀ i, c.logProb i = lp i (fun f => c.x f i) :=
    fun i => congrFun (mhLoop_logProb rng lp proposal x key k) i
  refine ⟨h0, _, _, rfl, rfl, ?_, ?_, ?_⟩
  · intro i hc f
    rw [← h0] at hc
    exact if_pos hc
  · intro i hc f
    rw [← h0] at hc
    exact if_neg hc
  · simp only [← h0]
    rfl

theorem accepts_le (rng : Rng Key n) (logProb : Batch F n V → Fin n → LP)
    (proposal : Key → Batch F n V → Batch F n V) (c : Carry F n V Key) (k : Nat) :
    (mhLoop rng logProb proposal k c).accepts ≤ c.accepts + k * n := by
  induction k with
  | zero => simp [mhLoop]
  | succ k ih =>
    have : (mhLoop rng logProb proposal (k + 1) c).accepts
        ≤ (mhLoop rng logProb proposal k c).accepts + n := by
      simp only [mhLoop, mhUpdate]
      apply Nat.add_le_add_left
      calc _ ≤ (Finset.univ : Finset (Fin n)).card := Finset.card_filter_le _ _
        _ = n := by simp
    rw [Nat.succ_mul]; omega

/-- C25: the reported acceptance ratio is between 0 and 1. -/
theorem c25_ratio {d : Nat} (cfg : Cfg) (rng : Rng Key n) (logProb : Fin d → Batch F n V → Fin n → LP)
    (proposal : ℝ → Key → Batch F n V → Batch F n V) (x : Fin d → Batch F n V) (s : State) (keys : Fin d → Key) :
    0 ≤ (step cfg rng logProb proposal x s keys).2.1 ∧ (step cfg rng logProb proposal x s keys).2.1 ≤ 1 := by
  unfold step
  split
  · simp
  · dsimp only
    unfold pmoveOf
    constructor
    · apply div_nonneg _ (Nat.cast_nonneg d)
      exact Finset.sum_nonneg (fun i _ => by positivity)
    · have hb : ∀ i : Fin d, (((mhLoop rng (logProb i) (proposal s.stddev) cfg.steps
          (start (logProb i) (x i) (keys i))).accepts : ℝ) / ((cfg.steps : ℝ) * n)) ≤ 1 := by
        intro i
        have := accepts_le rng (logProb i) (proposal s.stddev) (start (logProb i) (x i) (keys i)) cfg.steps
        apply div_le_one_of_le₀
        · have h : (mhLoop rng (logProb i) (proposal s.stddev) cfg.steps
              (start (logProb i) (x i) (keys i))).accepts ≤ cfg.steps * n := by
            simpa [start] using this
          exact_mod_cast h
        · positivity
      apply div_le_one_of_le₀
      · calc _ ≤ ∑ _i : Fin d, (1 : ℝ) := Finset.sum_le_sum (fun i _ => hb i)
          _ = d := by simp
      · exact Nat.cast_nonneg d

theorem cond_fin (a b u : ℝ) (hu : 0 ≤ u) : cond (.fin a) (.fin b) u ↔ Accepts a b u := by
  unfold cond Accepts logU LP.sub
  rw [← Real.exp_sub]
  by_cases h : u = 0
  · rw [if_pos h]
    simp only [LP.gt, true_iff]
    rw [h]; exact Real.exp_pos _
  · rw [if_neg h]
    have hp : 0 < u := lt_of_le_of_ne hu (Ne.symm h)
    simp only [LP.gt, gt_iff_lt]
    rw [Real.log_lt_iff_lt_exp hp]

/-- C25: on ordinary numbers the test is `u < p(new)/p(old)`; a proposal of zero or undefined probability is
always refused. -/
theorem c25_test (a b u : ℝ) (hu : 0 ≤ u) (old : LP) :
    (cond (.fin a) (.fin b) u ↔ Accepts a b u) ∧ ¬ cond old .ninf u ∧ ¬ cond old .nan u := by
  exact ⟨cond_fin a b u hu, not_cond_ninf old u, not_cond_nan old u⟩

/-- C25: a walker that starts at a configuration of positive probability is at one forever. -/
theorem c25_positive (rng : Rng Key n) (lp : Fin n → (F → V) → LP)
    (proposal : Key → Batch F n V → Batch F n V) (x : Batch F n V) (key : Key) (i : Fin n)
    (h0 : lp i (fun f => x f i) ≠ .nan ∧ lp i (fun f => x f i) ≠ .ninf) (k : Nat) :
    let c := mhLoop rng (batched lp) proposal k (start (batched lp) x key)
    lp i (fun f => c.x f i) ≠ .nan ∧ lp i (fun f => c.x f i) ≠ .ninf := by
  induction k with
  | zero => exact h0
  | succ k ih =>
    obtain ⟨_, y, u, _, _, h1, h2, _⟩ := c25_walkers rng lp proposal x key k
    intro c'
    by_cases hc : cond (lp i (fun f => (mhLoop rng (batched lp) proposal k (start (batched lp) x key)).x f i))
        (lp i (fun f => y f i)) (u i)
    · have e : (fun f => c'.x f i) = fun f => y f i := funext (h1 i hc)
      rw [e]
      constructor
      · intro hn; rw [hn] at hc; exact not_cond_nan _ _ hc
      · intro hn; rw [hn] at hc; exact not_cond_ninf _ _ hc
    · have e : (fun f => c'.x f i)
          = fun f => (mhLoop rng (batched lp) proposal k (start (batched lp) x key)).x f i := funext (h2 i hc)
      rw [e]; exact ih

/-- What C25 does not give: a walker whose log-probability is NaN at the start never moves. -/
theorem c25_nan_stuck (rng : Rng Key n) (lp : Fin n → (F → V) → LP)
    (proposal : Key → Batch F n V → Batch F n V) (x : Batch F n V) (key : Key) (i : Fin n)
    (h0 : lp i (fun f => x f i) = .nan) (k : Nat) :
    SameAt i (mhLoop rng (batched lp) proposal k (start (batched lp) x key)).x x := by
  induction k with
  | zero => exact fun _ => rfl
  | succ k ih =>
    obtain ⟨_, y, u, _, _, _, h2, _⟩ := c25_walkers rng lp proposal x key k
    have e : (fun f => (mhLoop rng (batched lp) proposal k (start (batched lp) x key)).x f i) = fun f => x f i :=
      funext ih
    have hc : ¬ cond (lp i (fun f => (mhLoop rng (batched lp) proposal k (start (batched lp) x key)).x f i))
        (lp i (fun f => y f i)) (u i) := by
      rw [e, h0]
      unfold cond
      cases lp i (fun f => y f i) <;> simp [LP.sub, LP.gt]
    intro f
    rw [h2 i hc f, ih f]

/-- The key reached from `key` by splitting in three again and again, taking the branches in `path` (last one
first). -/
def derived (rng : Rng Key n) (key : Key) : List (Fin 3) → Key
  | [] => key
  | 0 :: path => (rng.split3 (derived rng key path)).1
  | 1 :: path => (rng.split3 (derived rng key path)).2.1
  | 2 :: path => (rng.split3 (derived rng key path)).2.2

/-- C25: the key of the proposal and the key of the acceptance draws of every sub-step come from different branches
of the tree of splits: no two of them are equal, and none is an ancestor of another. -/
theorem c25_fresh_keys (rng : Rng Key n) (logProb : Batch F n V → Fin n → LP)
    (proposal : Key → Batch F n V → Batch F n V) (x : Batch F n V) (key : Key) :
    ∃ path : Nat → Bool → List (Fin 3),
      (∀ k, (rng.split3 (mhLoop rng logProb proposal k (start logProb x key)).rngs).2.1 = derived rng key (path k false)) ∧
      (∀ k, (rng.split3 (mhLoop rng logProb proposal k (start logProb x key)).rngs).2.2 = derived rng key (path k true)) ∧
      (∀ k b k' b', path k b <:+ path k' b' → k = k' ∧ b = b') := by
  have h0 : ∀ k, (mhLoop rng logProb proposal k (start logProb x key)).rngs = derived rng key (List.replicate k 0) := by
    intro k
    induction k with
    | zero => rfl
    | succ k ih =>
      rw [List.replicate_succ]
      simp only [mhLoop, derived, ← ih]
      rfl
  refine ⟨fun k b => (if b then 2 else 1) :: List.replicate k 0, ?_, ?_, ?_⟩
  · intro k; rw [h0]; rfl
  · intro k; rw [h0]; rfl
  · intro k b k' b' h
    rw [List.suffix_cons_iff] at h
    rcases h with h | h
    · rw [List.cons.injEq] at h
      have hl := congrArg List.length h.2
      simp only [List.length_replicate] at hl
      refine ⟨hl, ?_⟩
      cases b <;> cases b' <;> simp_all
    · have hm := h.subset (List.mem_cons_self ..)
      rw [List.mem_replicate] at hm
      cases b <;> simp at hm

/-! ### C26 -/
open MeasureTheory

/-- The probability that a move from log-probability `a` to `b` is accepted: the Lebesgue measure of the
draws in `[0, 1)` that pass the test. -/
noncomputable def acceptProb (a b : LP) : ℝ := (volume {u : ℝ | u ∈ Set.Ico 0 1 ∧ cond a b u}).toReal

/-- C26: the move is accepted with probability `min(1, p(new)/p(old))`. -/
theorem c26_probability (a b : ℝ) : acceptProb (.fin a) (.fin b) = min 1 (Real.exp b / Real.exp a) := by
  unfold acceptProb
  have e : {u : ℝ | u ∈ Set.Ico 0 1 ∧ cond (.fin a) (.fin b) u} = Set.Ico 0 (min 1 (Real.exp b / Real.exp a)) := by
    ext u
    simp only [Set.mem_setOf_eq, Set.mem_Ico, lt_min_iff]
    constructor
    · rintro ⟨⟨h1, h2⟩, h3⟩
      exact ⟨h1, h2, (cond_fin a b u h1).1 h3⟩
    · rintro ⟨h1, h2, h3⟩
      exact ⟨⟨h1, h2⟩, (cond_fin a b u h1).2 h3⟩
  have hp : 0 < Real.exp b / Real.exp a := div_pos (Real.exp_pos _) (Real.exp_pos _)
  rw [e, Real.volume_Ico, sub_zero, ENNReal.toReal_ofReal (le_min zero_le_one hp.le)]

theorem acceptProb_ninf (a : LP) : acceptProb a .ninf = 0 := by
  unfold acceptProb
  have : {u : ℝ | u ∈ Set.Ico 0 1 ∧ cond a .ninf u} = ∅ := by
    ext u
    simp only [Set.mem_setOf_eq, Set.mem_empty_iff_false, iff_false, not_and]
    intro hu
    exact (c25_test 0 0 u hu.1 a).2.1
  rw [this]; simp

theorem acceptProb_nonneg (a b : LP) : 0 ≤ acceptProb a b := ENNReal.toReal_nonneg

theorem acceptProb_le_one (a b : LP) : acceptProb a b ≤ 1 := by
  unfold acceptProb
  have : volume {u : ℝ | u ∈ Set.Ico 0 1 ∧ cond a b u} ≤ volume (Set.Ico (0 : ℝ) 1) :=
    measure_mono (fun u hu => hu.1)
  rw [Real.volume_Ico] at this
  have h1 : ENNReal.ofReal (1 - 0) = 1 := by simp
  rw [h1] at this
  simpa using ENNReal.toReal_mono ENNReal.one_ne_top this

/-- The probability weight of a log-probability (`-inf` is weight 0). -/
noncomputable def weight : LP → ℝ
  | .fin r => Real.exp r
  | _ => 0

/-- An ordinary log-probability: a number or `-inf`. -/
def Ordinary : LP → Prop
  | .fin _ => True
  | .ninf => True
  | _ => False

/-- C26, detailed balance, on any state space: with a symmetric proposal density the flow from `x` to `y` is the
flow from `y` to `x`. -/
theorem c26_detailed_balance {X : Type} (lp : X → LP) (hlp : ∀ x, Ordinary (lp x)) (q : X → X → ℝ)
    (hq : ∀ x y, q x y = q y x) (x y : X) :
    weight (lp x) * (q x y * acceptProb (lp x) (lp y)) = weight (lp y) * (q y x * acceptProb (lp y) (lp x)) := by
  have hx := hlp x
  have hy := hlp y
  rw [hq y x]
  cases ex : lp x with
  | nan => rw [ex] at hx; exact hx.elim
  | pinf => rw [ex] at hx; exact hx.elim
  | ninf =>
    cases ey : lp y with
    | nan => rw [ey] at hy; exact hy.elim
    | pinf => rw [ey] at hy; exact hy.elim
    | ninf => simp [weight]
    | fin b => simp [weight, acceptProb_ninf]
  | fin a =>
    cases ey : lp y with
    | nan => rw [ey] at hy; exact hy.elim
    | pinf => rw [ey] at hy; exact hy.elim
    | ninf => simp [weight, acceptProb_ninf]
    | fin b =>
      simp only [weight, c26_probability]
      have pa := Real.exp_pos a
      have pb := Real.exp_pos b
      rcases le_total (Real.exp a) (Real.exp b) with h | h
      · rw [min_eq_left ((one_le_div pa).2 h), min_eq_right ((div_le_one pb).2 h)]
        field_simp
      · rw [min_eq_right ((div_le_one pa).2 h), min_eq_left ((one_le_div pb).2 h)]
        field_simp

/-- The transition probabilities of one Metropolis update of one walker on a finite state space. -/
noncomputable def transition {X : Type} [Fintype X] (lp : X → LP) (q : X → X → ℝ) (x y : X) : ℝ :=
  if x = y then 1 - ∑ z ∈ Finset.univ.erase x, q x z * acceptProb (lp x) (lp z)
  else q x y * acceptProb (lp x) (lp y)

/-- C26, stationarity: for a finite state space, a target without undefined values and a symmetric proposal, the
update is a Markov kernel that leaves the target distribution as it is, and so do any number of updates. -/
theorem c26_stationary {X : Type} [Fintype X] (lp : X → LP) (hlp : ∀ x, Ordinary (lp x)) (q : X → X → ℝ)
    (hq : ∀ x y, q x y = q y x) (hq0 : ∀ x y, 0 ≤ q x y) (hq1 : ∀ x, ∑ y, q x y = 1) :
    (∀ x y, 0 ≤ transition lp q x y) ∧ (∀ x, ∑ y, transition lp q x y = 1) ∧
    (∀ y, ∑ x, weight (lp x) * transition lp q x y = weight (lp y)) := by
  have hrow : ∀ x, ∑ y, transition lp q x y = 1 := by
    intro x
    rw [← Finset.add_sum_erase Finset.univ _ (Finset.mem_univ x)]
    have : ∑ y ∈ Finset.univ.erase x, transition lp q x y
        = ∑ z ∈ Finset.univ.erase x, q x z * acceptProb (lp x) (lp z) := by
      apply Finset.sum_congr rfl
      intro y hy
      unfold transition
      rw [if_neg (Finset.ne_of_mem_erase hy).symm]
    rw [this]
    unfold transition
    simp
  have hsym : ∀ x y, weight (lp x) * transition lp q x y = weight (lp y) * transition lp q y x := by
    intro x y
    by_cases h : x = y
    · rw [h]
    · unfold transition
      rw [if_neg h, if_neg (Ne.symm h)]
      exact c26_detailed_balance lp hlp q hq x y
  refine ⟨?_, hrow, ?_⟩
  · intro x y
    unfold transition
    split
    · have : ∑ z ∈ Finset.univ.erase x, q x z * acceptProb (lp x) (lp z) ≤ ∑ z, q x z := by
        calc _ ≤ ∑ z ∈ Finset.univ.erase x, q x z :=
              Finset.sum_le_sum (fun z _ => mul_le_of_le_one_right (hq0 x z) (acceptProb_le_one _ _))
          _ ≤ ∑ z, q x z := Finset.sum_le_sum_of_subset_of_nonneg (Finset.erase_subset _ _)
              (fun z _ _ => hq0 x z)
      rw [hq1] at this
      linarith
    · exact mul_nonneg (hq0 x y) (acceptProb_nonneg _ _)
  · intro y
    rw [Finset.sum_congr rfl (fun x _ => hsym x y), ← Finset.mul_sum, hrow, mul_one]

/-- C26: kernels that leave a distribution as it is compose, so the sub-steps of one sampling step and the
blocks of a sample plan together leave it as it is. -/
theorem c26_compose {X : Type} [Fintype X] (w : X → ℝ) (P Q : X → X → ℝ)
    (hP : ∀ y, ∑ x, w x * P x y = w y) (hQ : ∀ y, ∑ x, w x * Q x y = w y) (z : X) :
    ∑ x, w x * (∑ y, P x y * Q y z) = w z := by
  have : ∑ x, w x * (∑ y, P x y * Q y z) = ∑ y, (∑ x, w x * P x y) * Q y z := by
    simp only [Finset.mul_sum, Finset.sum_mul]
    rw [Finset.sum_comm]
    apply Finset.sum_congr rfl; intro y _
    apply Finset.sum_congr rfl; intro x _
    ring
  rw [this]
  simp only [hP, hQ]

/-- A target with a state of probability 0 and a symmetric proposal on three states meet the hypotheses. -/
example : ∃ (lp : Fin 3 → LP) (q : Fin 3 → Fin 3 → ℝ), (∀ x, Ordinary (lp x)) ∧ (∀ x y, q x y = q y x) ∧
    (∀ x y, 0 ≤ q x y) ∧ (∀ x, ∑ y, q x y = 1) ∧ lp 0 = .ninf ∧ lp 1 ≠ lp 2 := by
  refine ⟨![.ninf, .fin 0, .fin 1], fun _ _ => 1 / 3, ?_, fun _ _ => rfl, fun _ _ => by norm_num, ?_, rfl, ?_⟩
  · intro x; fin_cases x <;> trivial
  · intro x; simp
  · simp

/-! ### C27 -/

/-- The states the sampler goes through when the acceptance ratios are `ps`. -/
noncomputable def adaptAll (cfg : Cfg) (s : State) (ps : List ℝ) : State := ps.foldl (adapt cfg) s

theorem run_state {d : Nat} (cfg : Cfg) (hs : cfg.steps ≠ 0) (rng : Rng Key n)
    (proposal : ℝ → Key → Batch F n V → Batch F n V) (x : Fin d → Batch F n V) (s : State)
    (ins : List ((Fin d → Batch F n V → Fin n → LP) × (Fin d → Key))) :
    (run cfg rng proposal x s ins).2.2 = adaptAll cfg s (run cfg rng proposal x s ins).2.1 ∧
    (run cfg rng proposal x s ins).2.1.length = ins.length := by
  induction ins generalizing x s with
  | nil => exact ⟨rfl, rfl⟩
  | cons i rest ih =>
    obtain ⟨lp, keys⟩ := i
    simp only [run]
    obtain ⟨h1, h2⟩ := ih (step cfg rng lp proposal x s keys).1 (step cfg rng lp proposal x s keys).2.2
    constructor
    · rw [h1]
      unfold adaptAll
      rw [List.foldl_cons]
      congr 1
      unfold step
      rw [if_neg hs]
    · simp [h2]

theorem run_take {d : Nat} (cfg : Cfg) (rng : Rng Key n)
    (proposal : ℝ → Key → Batch F n V → Batch F n V) (x : Fin d → Batch F n V) (s : State)
    (ins : List ((Fin d → Batch F n V → Fin n → LP) × (Fin d → Key))) (k : Nat) :
    (run cfg rng proposal x s (ins.take k)).2.1 = (run cfg rng proposal x s ins).2.1.take k := by
  induction ins generalizing x s k with
  | nil => simp [run]
  | cons i rest ih =>
    cases k with
    | zero => simp [run]
    | succ k =>
      simp only [List.take_succ_cons, run]
      rw [ih]

theorem adaptAll_inv (cfg : Cfg) (hf : 0 < cfg.adaptFrequency) (ps : List ℝ) :
    (adaptAll cfg (init cfg) ps).counter = ps.length ∧
    (adaptAll cfg (init cfg) ps).pmoves.length = cfg.adaptFrequency ∧
    ∀ j, 1 ≤ j → j ≤ ps.length % cfg.adaptFrequency →
      (adaptAll cfg (init cfg) ps).pmoves[j]?
        = ps[ps.length / cfg.adaptFrequency * cfg.adaptFrequency + j - 1]? := by
  induction ps using List.reverseRecOn with
  | nil =>
    refine ⟨rfl, by simp [adaptAll, init], ?_⟩
    intro j h1 h2
    simp at h2; omega
  | append_singleton ps p ih =>
    obtain ⟨h1, h2, h3⟩ := ih
    have e : adaptAll cfg (init cfg) (ps ++ [p]) = adapt cfg (adaptAll cfg (init cfg) ps) p := by
      unfold adaptAll; rw [List.foldl_append]; rfl
    rw [e]
    refine ⟨?_, ?_, ?_⟩
    · simp [adapt, h1]
    · simp [adapt, h2]
    · intro j hj1 hj2
      simp only [adapt, h1]
      rw [List.length_append, List.length_singleton] at hj2 ⊢
      generalize hfe : cfg.adaptFrequency = f at *
      generalize hm : ps.length = m at *
      have hlt : (m + 1) % f < f := Nat.mod_lt _ hf
      by_cases hr : (m + 1) % f = 0
      · omega
      · have hdiv : (m + 1) / f = m / f := by
          rw [Nat.succ_div]
          rw [if_neg]
          · rfl
          · intro hd; exact hr (Nat.mod_eq_zero_of_dvd hd)
        have hmod : (m + 1) % f = m % f + 1 := by
          have a1 := Nat.div_add_mod (m + 1) f
          have a2 := Nat.div_add_mod m f
          rw [hdiv] at a1
          omega
        have hmm : m / f * f + m % f = m := by rw [Nat.mul_comm]; exact Nat.div_add_mod m f
        rw [hdiv]
        by_cases hje : j = m % f + 1
        · rw [hmod, ← hje, List.getElem?_set_self (by omega)]
          have : m / f * f + j - 1 = m := by omega
          rw [this, ← hm]
          simp
        · rw [hmod, List.getElem?_set_ne (by omega), h3 j hj1 (by omega),
            List.getElem?_append_left (by omega)]

theorem list_ext_take {A : Type} (l m : List A) (hl : l.length = m.length)
    (h : ∀ j, j < l.length → l[j]? = m[j]?) : l = m := by
  apply List.ext_getElem? 
  intro j
  by_cases hj : j < l.length
  · exact h j hj
  · rw [List.getElem?_eq_none (by omega), List.getElem?_eq_none (by omega)]

/-- At the end of a period the history holds the acceptance ratios of that period. -/
theorem adapt_mean (cfg : Cfg) (hf : 0 < cfg.adaptFrequency) (ps : List ℝ) (p : ℝ)
    (hd : cfg.adaptFrequency ∣ ps.length + 1) :
    meanL ((adaptAll cfg (init cfg) ps).pmoves.set ((ps.length + 1) % cfg.adaptFrequency) p)
      = meanL ((ps ++ [p]).drop (ps.length + 1 - cfg.adaptFrequency)) := by
  obtain ⟨_, h2, h3⟩ := adaptAll_inv cfg hf ps
  generalize (adaptAll cfg (init cfg) ps).pmoves = l at *
  generalize hfe : cfg.adaptFrequency = f at *
  generalize hm : ps.length = m at *
  obtain ⟨q, hq⟩ := hd
  have hq1 : 1 ≤ q := by
    rcases Nat.eq_zero_or_pos q with h | h
    · subst h; simp at hq
    · exact h
  have hmeq : m = f * (q - 1) + (f - 1) := by
    obtain ⟨q', rfl⟩ : ∃ q', q = q' + 1 := ⟨q - 1, by omega⟩
    rw [Nat.mul_succ] at hq
    simp only [Nat.add_sub_cancel]
    omega
  have hmodm : m % f = f - 1 := by
    rw [hmeq, Nat.mul_add_mod]
    exact Nat.mod_eq_of_lt (by omega)
  have hdivm : m / f = q - 1 := by
    rw [hmeq, Nat.mul_add_div hf]
    rw [Nat.div_eq_of_lt (by omega)]; rfl
  have hz : (m + 1) % f = 0 := by rw [hq]; exact Nat.mul_mod_right f q
  have hstart : m + 1 - f = f * (q - 1) := by omega
  rw [hz]
  -- the tail of the history
  have hl : l.set 0 p = p :: (ps.drop (f * (q - 1))) := by
    obtain ⟨a, t, rfl⟩ : ∃ a t, l = a :: t := by
      cases l with
      | nil => simp at h2; omega
      | cons a t => exact ⟨a, t, rfl⟩
    simp only [List.set_cons_zero]
    congr 1
    apply list_ext_take
    · rw [List.length_drop, hm]; simp at h2; omega
    · intro j hj
      have hj' : j + 1 < f := by simp at h2; omega
      have := h3 (j + 1) (by omega) (by omega)
      rw [hdivm] at this
      simp only [List.getElem?_cons_succ] at this
      rw [this, List.getElem?_drop]
      congr 1
      rw [Nat.mul_comm]; omega
  rw [hl, hstart, List.drop_append]
  have : (f * (q - 1)) - ps.length = 0 := by omega
  rw [this]
  unfold meanL
  simp only [List.drop_zero, List.sum_cons, List.sum_append, List.sum_nil, List.length_cons, List.length_append,
    List.length_nil]
  rw [add_zero, add_comm]

/-- C27: write `W k` for the width after `k` sampling steps and `ps` for the reported acceptance ratios.  Then
`W 0` is the configured width; the width changes only at multiples of the adaptation period, and there as
prescribed by the mean of the acceptance ratios reported in the period that just ended; and it stays positive.
(`steps > 0`.) -/
theorem c27_width {d : Nat} (cfg : Cfg) (hs : cfg.steps ≠ 0) (hf : 0 < cfg.adaptFrequency) (rng : Rng Key n)
    (proposal : ℝ → Key → Batch F n V → Batch F n V) (x : Fin d → Batch F n V)
    (ins : List ((Fin d → Batch F n V → Fin n → LP) × (Fin d → Key))) :
    let W : Nat → ℝ := fun k => (run cfg rng proposal x (init cfg) (ins.take k)).2.2.stddev
    let ps := (run cfg rng proposal x (init cfg) ins).2.1
    W 0 = cfg.initialWidth ∧
    (∀ k < ins.length, ¬ cfg.adaptFrequency ∣ k + 1 → W (k + 1) = W k) ∧
    (∀ k < ins.length, cfg.adaptFrequency ∣ k + 1 → W (k + 1) = adjusted cfg.pmoveLow cfg.pmoveHigh
      (((ps.take (k + 1)).drop (k + 1 - cfg.adaptFrequency)).sum / cfg.adaptFrequency) (W k)) ∧
    (0 < cfg.initialWidth → ∀ k, 0 < W k) := by
  intro W ps
  have hlen : ps.length = ins.length := (run_state cfg hs rng proposal x (init cfg) ins).2
  have hW : ∀ k, W k = (adaptAll cfg (init cfg) (ps.take k)).stddev := by
    intro k
    show (run cfg rng proposal x (init cfg) (ins.take k)).2.2.stddev = _
    rw [(run_state cfg hs rng proposal x (init cfg) (ins.take k)).1, run_take]
  have hsucc : ∀ k, (hk : k < ps.length) →
      W (k + 1) = (adapt cfg (adaptAll cfg (init cfg) (ps.take k)) (ps[k])).stddev := by
    intro k hk
    rw [hW, List.take_succ_eq_append_getElem hk]
    unfold adaptAll
    rw [List.foldl_append]; rfl
  have h2 : ∀ k < ins.length, ¬ cfg.adaptFrequency ∣ k + 1 → W (k + 1) = W k := by
    intro k hk hd
    have hk' : k < ps.length := by omega
    rw [hsucc k hk', hW k]
    obtain ⟨hc, _⟩ := adaptAll_inv cfg hf (ps.take k)
    simp only [adapt, hc]
    rw [if_neg]
    rw [List.length_take, Nat.min_eq_left (by omega)]
    intro h0; exact hd (Nat.dvd_of_mod_eq_zero h0)
  have h3 : ∀ k < ins.length, cfg.adaptFrequency ∣ k + 1 → W (k + 1) = adjusted cfg.pmoveLow cfg.pmoveHigh
      (((ps.take (k + 1)).drop (k + 1 - cfg.adaptFrequency)).sum / cfg.adaptFrequency) (W k) := by
    intro k hk hd
    have hk' : k < ps.length := by omega
    have hlk : (ps.take k).length = k := by rw [List.length_take]; omega
    rw [hsucc k hk', hW k]
    obtain ⟨hc, _⟩ := adaptAll_inv cfg hf (ps.take k)
    have hm := adapt_mean cfg hf (ps.take k) (ps[k]) (by rw [hlk]; exact hd)
    rw [hlk, ← List.take_succ_eq_append_getElem hk'] at hm
    have hfk : cfg.adaptFrequency ≤ k + 1 := Nat.le_of_dvd (by omega) hd
    have hml : meanL ((ps.take (k + 1)).drop (k + 1 - cfg.adaptFrequency))
        = ((ps.take (k + 1)).drop (k + 1 - cfg.adaptFrequency)).sum / cfg.adaptFrequency := by
      unfold meanL
      congr 2
      rw [List.length_drop, List.length_take]; omega
    rw [hml] at hm
    simp only [adapt, hc, hlk]
    rw [if_pos (Nat.mod_eq_zero_of_dvd hd), hm]
    unfold adjusted
    simp only [gt_iff_lt]
    norm_num
  refine ⟨rfl, h2, h3, ?_⟩
  intro h0 k
  induction k with
  | zero => exact h0
  | succ k ih =>
    by_cases hk : k < ins.length
    · by_cases hd : cfg.adaptFrequency ∣ k + 1
      · rw [h3 k hk hd]
        unfold adjusted
        split
        · positivity
        · split
          · positivity
          · exact ih
      · rw [h2 k hk hd]; exact ih
    · have : W (k + 1) = W k := by
        rw [hW, hW, List.take_of_length_le (by omega), List.take_of_length_le (by omega)]
      rw [this]; exact ih

/-- C27 without sub-steps: nothing moves and the width stays. -/
theorem c27_no_steps {d : Nat} (cfg : Cfg) (hs : cfg.steps = 0) (rng : Rng Key n)
    (logProb : Fin d → Batch F n V → Fin n → LP)
    (proposal : ℝ → Key → Batch F n V → Batch F n V) (x : Fin d → Batch F n V) (s : State) (keys : Fin d → Key) :
    step cfg rng logProb proposal x s keys = (x, 0, s) := by
  unfold step; rw [if_pos hs]

/-! ### C24 -/
section Plan
open Jaqmc.Data
variable {L S T : Type}

theorem lookup_none_of {V : Type} (l : List (String × V)) (k : String) (h : k ∉ l.map Prod.fst) :
    l.lookup k = none := by
  induction l with
  | nil => rfl
  | cons e l ih =>
    have hk : (k == e.1) = false := by
      simp only [beq_eq_false_iff_ne, ne_eq]
      intro he; exact h (by simp [he])
    have hb : l.lookup k = none := ih (fun hm => h (by simp [hm]))
    obtain ⟨a, b⟩ := e
    simp only [List.lookup, hk, hb]

theorem subset_congr {V : Type} (r r' : Record V) (keys : List String) (hf : fieldNames r = fieldNames r')
    (hl : ∀ k ∈ keys, r.lookup k = r'.lookup k) : subset r keys = subset r' keys := by
  unfold subset
  rw [hf]
  have : keys.filterMap (fun k => (r.lookup k).map (fun v => (k, v)))
      = keys.filterMap (fun k => (r'.lookup k).map (fun v => (k, v))) :=
    List.filterMap_congr (fun k hk => by rw [hl k hk])
  rw [this]

theorem lookup_some_of_mem {V : Type} (l : List (String × V)) (k : String) (h : k ∈ l.map Prod.fst) :
    ∃ v, l.lookup k = some v := by
  induction l with
  | nil => simp at h
  | cons e l ih =>
    obtain ⟨a, b⟩ := e
    by_cases hk : (k == a) = true
    · exact ⟨b, by simp only [List.lookup, hk]⟩
    · have hk' : (k == a) = false := by simpa using hk
      have hne : k ≠ a := by simpa using hk
      obtain ⟨v, hv⟩ := ih (by simpa [hne] using h)
      exact ⟨v, by simp only [List.lookup, hk', hv]⟩

theorem plan_lemma (split : Key → Key × Key) (logProb : Record V → L) (original : Record V)
    (hn : (fieldNames original).Nodup) (samplers : List (PlanSampler V Key L S T × S))
    (hdis : samplers.Pairwise (fun a b => ∀ k ∈ a.1.keys, k ∉ b.1.keys))
    (hret : ∀ s ∈ samplers, Returns s.1)
    (hk : ∀ s ∈ samplers, ∀ k ∈ s.1.keys, k ∈ fieldNames original)
    (data : Record V) (hf : fieldNames data = fieldNames original)
    (hl : ∀ s ∈ samplers, ∀ k ∈ s.1.keys, data.lookup k = original.lookup k) (stats : List (String × T)) (key : Key) :
    ∃ d ss sts parts, planLoop split logProb original samplers data stats key = .ok (d, ss, sts) ∧
      InTurn split logProb data samplers key d sts parts ∧ parts.length = samplers.length ∧
      (∀ sp ∈ samplers.zip parts, ∀ k ∈ sp.1.1.keys, d.lookup k = sp.2.lookup k) ∧
      fieldNames d = fieldNames original ∧
      (∀ k, (∀ s ∈ samplers, k ∉ s.1.keys) → d.lookup k = data.lookup k) := by
  induction samplers generalizing data stats key with
  | nil => exact ⟨data, stats, [], [], rfl, .done data key, rfl, by simp, hf, fun _ _ => rfl⟩
  | cons s rest ih =>
    obtain ⟨s, st⟩ := s
    have hsub : subset original s.keys = subset data s.keys :=
      subset_congr _ _ _ hf.symm (fun k hk' => (hl (s, st) (by simp) k hk').symm)
    obtain ⟨part, hpart⟩ : ∃ part, subset data s.keys = .ok part := by
      unfold subset
      rw [if_pos]
      · exact ⟨_, rfl⟩
      · rw [List.all_eq_true]
        intro k hk'
        have := hk (s, st) (by simp) k hk'
        rw [hf]
        simpa using this
    have hpn := ((c15_subset data s.keys).1 part hpart).1
    rcases hst : s.step (fun x => (merge data x).map logProb) part st (split key).2 with ⟨np, stt, st'⟩
    have hnp : np.map Prod.fst = s.keys := by
      have := hret (s, st) (by simp) (fun x => (merge data x).map logProb) part st (split key).2
      rw [hst] at this
      simpa [hpn] using this
    have hdn : (fieldNames data).Nodup := by rw [hf]; exact hn
    obtain ⟨hm1, hm2⟩ := c15_merge data hdn np
    cases hmerge : merge data np with
    | error e =>
      exfalso
      have he : e = .keyError := by
        unfold merge at hmerge
        split at hmerge <;> simp at hmerge
        exact hmerge.symm
      rw [he] at hmerge
      obtain ⟨e', he', hn'⟩ := hm2.2 hmerge
      apply hn'
      rw [hf]
      apply hk (s, st) (by simp)
      show e'.1 ∈ s.keys
      rw [← hnp]
      exact List.mem_map_of_mem he'
    | ok data' =>
      obtain ⟨hf', hl'⟩ := hm1 data' hmerge
      have hlook : ∀ k, k ∉ s.keys → data'.lookup k = data.lookup k := by
        intro k hk'
        by_cases hmem : k ∈ fieldNames data
        · rw [hl' k hmem, lookup_none_of np k (by rw [hnp]; exact hk')]
        · rw [lookup_none_of data k hmem, lookup_none_of data' k (by
            have : data'.map Prod.fst = fieldNames data := hf'
            rw [this]; exact hmem)]
      have hdis' := List.pairwise_cons.1 hdis
      obtain ⟨d, ss, sts, parts, h1, h2, h3, h4, h5, h6⟩ := ih hdis'.2
        (fun x hx => hret x (by simp [hx])) (fun x hx => hk x (by simp [hx])) data' (by rw [hf', hf])
        (fun x hx k hkx => by
          rw [hlook k (fun hks => hdis'.1 x hx k hks hkx)]
          exact hl x (by simp [hx]) k hkx)
        (updateStats stats stt) (split key).1
      refine ⟨d, ss, st' :: sts, np :: parts, ?_, .next hpart hst hmerge h2, by simp [h3], ?_, h5, ?_⟩
      · simp only [planLoop, hsub, hpart, hst, hmerge, h1]
      · intro sp hsp k hk'
        simp only [List.zip_cons_cons, List.mem_cons] at hsp
        rcases hsp with rfl | hsp
        · dsimp only at hk' ⊢
          rw [h6 k (fun x hx hkx => hdis'.1 x hx k hk' hkx)]
          have hmem : k ∈ fieldNames data := by rw [hf]; exact hk (s, st) (by simp) k hk'
          rw [hl' k hmem]
          obtain ⟨v, hv⟩ := lookup_some_of_mem np k (by rw [hnp]; exact hk')
          rw [hv]
        · exact h4 sp hsp k hk'
      · intro k hk'
        rw [h6 k (fun x hx => hk' x (by simp [hx])), hlook k (hk' (s, st) (by simp))]

/-- C24 when no field is assigned to two samplers: one sampling step of the plan runs the samplers one after
the other, each on its fields of the data as the earlier ones left them and scored with the moves of the earlier
ones (`InTurn`), and in the result every field assigned to a sampler has the value that sampler gave it (no move
is lost) and the other fields are as before. -/
theorem c24_in_turn_partial (split : Key → Key × Key) (logProb : Record V → L) (data : Record V)
    (hn : (fieldNames data).Nodup) (samplers : List (PlanSampler V Key L S T × S))
    (hdis : samplers.Pairwise (fun a b => ∀ k ∈ a.1.keys, k ∉ b.1.keys))
    (hret : ∀ s ∈ samplers, Returns s.1)
    (hk : ∀ s ∈ samplers, ∀ k ∈ s.1.keys, k ∈ fieldNames data) (key : Key) :
    ∃ d stats sts parts, planStep split logProb samplers data key = .ok (d, stats, sts) ∧
      InTurn split logProb data samplers key d sts parts ∧ parts.length = samplers.length ∧
      (∀ sp ∈ samplers.zip parts, ∀ k ∈ sp.1.1.keys, d.lookup k = sp.2.lookup k) ∧
      (∀ k, (∀ s ∈ samplers, k ∉ s.1.keys) → d.lookup k = data.lookup k) := by
  obtain ⟨d, ss, sts, parts, h1, h2, h3, h4, _, h6⟩ := plan_lemma split logProb data hn samplers hdis hret hk data rfl
    (fun _ _ _ _ => rfl) [] key
  exact ⟨d, ss, sts, parts, h1, h2, h3, h4, h6⟩

/-- A sampler that adds `n` to each of its fields. -/
def addSampler (keys : List String) (n : Nat) : PlanSampler Nat Unit Nat Unit Nat :=
  ⟨keys, fun _ part _ _ => (part.map (fun e => (e.1, e.2 + n)), [("pmove", n)], ())⟩

/-- C24 fails when a field is assigned to two samplers (`("e",)` and `("e", "p")`): the second sampler starts
from the data before the step, so the first one's accepted moves are thrown away. -/
theorem c24_overlap :
    planStep (fun k => (k, k)) (fun _ => 0) [(addSampler ["e"] 1, ()), (addSampler ["e", "p"] 10, ())]
      [("e", 0), ("p", 0)] () = .ok ([("e", 10), ("p", 10)], [("pmove", 10)], [(), ()]) ∧
    ∃ d, InTurn (fun k => (k, k)) (fun _ => 0) [("e", 0), ("p", 0)]
      [(addSampler ["e"] 1, ()), (addSampler ["e", "p"] 10, ())] () [("e", 11), ("p", 10)] [(), ()] d := by
  constructor
  · rfl
  · refine ⟨[[("e", 1)], [("e", 11), ("p", 10)]], ?_⟩
    exact .next (part := [("e", 0)]) (data' := [("e", 1), ("p", 0)]) rfl rfl rfl
      (.next (part := [("e", 1), ("p", 0)]) rfl rfl rfl (.done _ _))

/-- Two samplers on different fields meet the hypotheses of `c24_in_turn_partial`. -/
example : ([(addSampler ["e"] 1, ()), (addSampler ["p"] 10, ())] : List (PlanSampler Nat Unit Nat Unit Nat × Unit)).Pairwise
      (fun a b => ∀ k ∈ a.1.keys, k ∉ b.1.keys) ∧ Returns (addSampler ["e"] 1) := by
  constructor
  · simp [addSampler]
  · intro f part st key
    simp [addSampler, Function.comp_def]

/-! ### C55: fields moved together -/

/-- C55 fails for the default proposal: it draws the noise of every field with the same key, so two fields of
the same shape assigned to one sampler get the same displacement, and their difference never changes, in any
walker, after any number of updates, whatever the target, the width and the generator. -/
theorem c55_lockstep {Shape : Type} (shape : F → Shape) (normal : Key → Shape → Fin n → ℝ) (stddev : ℝ)
    (rng : Rng Key n) (logProb : Batch F n ℝ → Fin n → LP) (x : Batch F n ℝ) (key : Key) (k : Nat)
    (f g : F) (hfg : shape f = shape g) (i : Fin n) :
    let c := mhLoop rng logProb (gaussianProposal shape normal stddev) k (start logProb x key)
    c.x f i - c.x g i = x f i - x g i := by
  induction k with
  | zero => rfl
  | succ k ih =>
    dsimp only at ih ⊢
    simp only [mhLoop, mhUpdate]
    split
    · rw [← ih]
      unfold gaussianProposal
      rw [hfg]; ring
    · exact ih

/-- Each field by itself is displaced by the drawn noise times the width when its walker's move is accepted
and not otherwise (so for one field per sampler, the usual case, the moves are the documented ones). -/
theorem c55_single_partial {Shape : Type} (shape : F → Shape) (normal : Key → Shape → Fin n → ℝ) (stddev : ℝ)
    (rng : Rng Key n) (logProb : Batch F n ℝ → Fin n → LP) (c : Carry F n ℝ Key) (f : F) (i : Fin n) :
    let c' := mhUpdate rng logProb (gaussianProposal shape normal stddev) c
    let y := gaussianProposal shape normal stddev (rng.split3 c.rngs).2.1 c.x
    c'.x f i = c.x f i + (if cond (c.logProb i) (logProb y i) (rng.uniform (rng.split3 c.rngs).2.2 i)
      then stddev * normal (rng.split3 c.rngs).2.1 (shape f) i else 0) := by
  intro c' y
  show (if cond (c.logProb i) (logProb y i) (rng.uniform (rng.split3 c.rngs).2.2 i) then y f i else c.x f i) = _
  split
  · show c.x f i + _ = _
    ring
  · ring

/-! ### C56: statistics of several samplers -/

theorem lookup_append {A : Type} (l m : List (String × A)) (k : String) :
    (l ++ m).lookup k = (l.lookup k).or (m.lookup k) := by
  induction l with
  | nil => simp
  | cons e l ih =>
    obtain ⟨a, b⟩ := e
    cases h : k == a <;> simp [List.lookup, h, ih]

theorem lookup_filter_isNone {A : Type} (a b : List (String × A)) (k : String) (h : b.lookup k = none) :
    (a.filter (fun e => (b.lookup e.1).isNone)).lookup k = a.lookup k := by
  induction a with
  | nil => rfl
  | cons e a ih =>
    obtain ⟨x, y⟩ := e
    cases hk : k == x
    · rw [List.filter_cons]
      split
      · simp only [List.lookup, hk, ih]
      · simp only [List.lookup, hk, ih]
    · have hx : k = x := by simpa using hk
      rw [List.filter_cons]
      subst hx
      simp [h, List.lookup]

theorem updateStats_lookup {A : Type} (a b : List (String × A)) (k : String) :
    (updateStats a b).lookup k = (b.lookup k).or (a.lookup k) := by
  unfold updateStats
  rw [lookup_append]
  cases h : b.lookup k with
  | none => rw [lookup_filter_isNone a b k h]; simp
  | some v =>
    have : (a.filter (fun e => (b.lookup e.1).isNone)).lookup k = none := by
      apply lookup_none_of
      simp only [List.mem_map, List.mem_filter, not_exists, not_and]
      rintro ⟨x, y⟩ ⟨_, hx⟩ rfl
      rw [h] at hx; simp at hx
    rw [this]; simp

theorem planLoop_stats (split : Key → Key × Key) (logProb : Record V → L) (original : Record V)
    (samplers : List (PlanSampler V Key L S T × S)) (data : Record V) (stats : List (String × T)) (key : Key)
    (d : Record V) (ss : List (String × T)) (sts : List S) (name : String)
    (hno : ∀ s ∈ samplers, ∀ f p st k, (s.1.step f p st k).2.1.lookup name = none)
    (h : planLoop split logProb original samplers data stats key = .ok (d, ss, sts)) :
    ss.lookup name = stats.lookup name := by
  induction samplers generalizing data stats key sts with
  | nil => simp [planLoop] at h; rw [h.2.1]
  | cons s rest ih =>
    obtain ⟨s, st⟩ := s
    simp only [planLoop] at h
    split at h
    · simp at h
    · split at h
      · simp at h
      · split at h
        · simp at h
        · rename_i hrec
          simp only [Except.ok.injEq, Prod.mk.injEq] at h
          obtain ⟨rfl, rfl, _⟩ := h
          have := ih _ _ _ _ (fun x hx => hno x (by simp [hx])) hrec
          rw [this, updateStats_lookup, hno (s, st) (by simp)]
          simp

/-- C56, when the samplers report under different names: the statistics of the step contain what each sampler
reported.  (Stated for the first sampler of any suffix of the list; `before` are the samplers run earlier.) -/
theorem c56_reported_partial (split : Key → Key × Key) (logProb : Record V → L) (original : Record V)
    (s : PlanSampler V Key L S T) (st : S) (rest : List (PlanSampler V Key L S T × S))
    (data : Record V) (stats : List (String × T)) (key : Key)
    (d : Record V) (ss : List (String × T)) (sts : List S) (name : String) (value : T)
    (hother : ∀ s ∈ rest, ∀ f p st k, (s.1.step f p st k).2.1.lookup name = none)
    (part : Record V) (hpart : subset original s.keys = .ok part)
    (hval : (s.step (fun x => (merge data x).map logProb) part st (split key).2).2.1.lookup name = some value)
    (h : planLoop split logProb original ((s, st) :: rest) data stats key = .ok (d, ss, sts)) :
    ss.lookup name = some value := by
  simp only [planLoop] at h
  rw [hpart] at h
  dsimp only at h
  split at h
  · simp at h
  · split at h
    · simp at h
    · rename_i hrec
      simp only [Except.ok.injEq, Prod.mk.injEq] at h
      obtain ⟨rfl, rfl, _⟩ := h
      rw [planLoop_stats split logProb original rest _ _ _ _ _ _ name hother hrec, updateStats_lookup, hval]
      simp

/-- C56 fails for two Metropolis samplers: both report under the name `pmove`, and only the last one's value is
kept. -/
theorem c56_overwritten :
    planStep (fun k => (k, k)) (fun _ => 0) [(addSampler ["e"] 1, ()), (addSampler ["p"] 10, ())]
      [("e", 0), ("p", 0)] () = .ok ([("e", 1), ("p", 10)], [("pmove", 10)], [(), ()]) := rfl

end Plan

end Jaqmc.Sampler.Props
