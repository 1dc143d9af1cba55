import Verif.Spec.DmcBranch
import Verif.Lemmas.DmcBranch
import Mathlib.Logic.Equiv.Fin.Rotate
import Mathlib.Tactic.NormNum
import Mathlib.Tactic.IntervalCases
/-!
# C84, C85: the branching step keeps the total weight, and keeps every weighted average on average
-/
namespace Jaqmc.DmcBranch.Props
open MeasureTheory Jaqmc.DmcBranch
open scoped Classical

variable {N : ℕ} {α : Type*}

theorem branch_eq {w : Fin N → ℝ} {x : Fin N → α} {minT maxT : ℝ} {u : ℕ → ℝ}
    (h : 2 * mergePairs w minT ≤ N) :
    branch w x minT maxT u = some (repeatRows (doBranch h w minT maxT fun j => u j.1).1
      (doBranch h w minT maxT fun j => u j.1).2 x) := by
  unfold branch; rw [dif_pos h]

/-- C84: whatever the draws, the variable-size branching keeps the total weight. -/
theorem c84_weight (w : Fin N → ℝ) (x : Fin N → α) (minT maxT : ℝ) (u : ℕ → ℝ)
    (p : List (ℝ × α)) (hp : branch w x minT maxT u = some p) : total p = ∑ i, w i := by
  by_cases h : 2 * mergePairs w minT ≤ N
  · rw [branch_eq h] at hp
    obtain rfl := Option.some.inj hp
    have := doBranch_sum h w minT maxT (fun j => u j.1) x (fun _ => 1)
    simp only [mul_one] at this
    unfold total
    rw [show (Prod.fst : ℝ × α → ℝ) = fun p => p.1 from rfl, this]
    simp [delta]
  · unfold branch at hp
    rw [dif_neg h] at hp
    cases hp

/-- C84: on average over the draws every weighted sum over the population is unchanged. -/
theorem c84_unbiased (w : Fin N → ℝ) (hw : ∀ i, 0 ≤ w i) (x : Fin N → α) (minT maxT : ℝ)
    (f : α → ℝ) (p : (ℕ → ℝ) → List (ℝ × α)) (hp : ∀ u, branch w x minT maxT u = some (p u)) :
    Integrable (fun u => weighted f (p u)) draws ∧
      ∫ u, weighted f (p u) ∂draws = ∑ i, w i * f (x i) := by
  by_cases h : 2 * mergePairs w minT ≤ N
  · have e : (fun u => weighted f (p u)) = fun u => ∑ i, w i * f (x i) +
        ∑ j : Fin (mergePairs w minT), if w (pairFst h w j) < minT then
          delta (w (pairFst h w j)) (w (pairSnd h w j)) (f (x (pairFst h w j)))
            (f (x (pairSnd h w j))) (u j.1) else 0 := by
      funext u
      have := hp u
      rw [branch_eq h] at this
      rw [← Option.some.inj this]
      exact doBranch_sum h w minT maxT (fun j => u j.1) x f
    have m : ∀ j : Fin (mergePairs w minT), MeasurePreserving (fun u : ℕ → ℝ => u j.1) draws unif :=
      fun j => measurePreserving_eval_infinitePi (fun _ => unif) j.1
    have bd : ∀ k1 k2 ga gb, Integrable (delta k1 k2 ga gb) unif := fun k1 k2 ga gb =>
      Integrable.of_bound (measurable_delta k1 k2 ga gb).aestronglyMeasurable
        (|k2 * (ga - gb)| + |k1 * (gb - ga)|)
        (Filter.Eventually.of_forall fun u => by
          rw [Real.norm_eq_abs]; exact abs_delta k1 k2 ga gb u)
    have ij : ∀ j : Fin (mergePairs w minT), Integrable (fun u : ℕ → ℝ =>
        if w (pairFst h w j) < minT then
          delta (w (pairFst h w j)) (w (pairSnd h w j)) (f (x (pairFst h w j)))
            (f (x (pairSnd h w j))) (u j.1) else 0) draws := by
      intro j
      split
      · exact (m j).integrable_comp_of_integrable (bd _ _ _ _)
      · exact integrable_const 0
    rw [e]
    refine ⟨(integrable_const _).add (integrable_finsetSum _ fun j _ => ij j), ?_⟩
    rw [integral_add (integrable_const _) (integrable_finsetSum _ fun j _ => ij j),
      integral_finsetSum _ (fun j _ => ij j)]
    have z : ∀ j : Fin (mergePairs w minT), ∫ u, (if w (pairFst h w j) < minT then
          delta (w (pairFst h w j)) (w (pairSnd h w j)) (f (x (pairFst h w j)))
            (f (x (pairSnd h w j))) (u j.1) else 0) ∂draws = 0 := by
      intro j
      split
      · rw [(show ∫ u : ℕ → ℝ, delta (w (pairFst h w j)) (w (pairSnd h w j)) (f (x (pairFst h w j)))
            (f (x (pairSnd h w j))) (u j.1) ∂draws = ∫ t, delta (w (pairFst h w j))
              (w (pairSnd h w j)) (f (x (pairFst h w j))) (f (x (pairSnd h w j))) t ∂unif from by
            rw [← (m j).map_eq, integral_map (m j).measurable.aemeasurable]
            exact (measurable_delta _ _ _ _).aestronglyMeasurable)]
        exact integral_delta _ _ _ _ (hw _) (hw _)
      · simp
    simp [z]
  · have := hp 0
    unfold branch at this
    rw [dif_neg h] at this
    cases this

/-- C84: the population never dies out. -/
theorem c84_alive (w : Fin N → ℝ) (x : Fin N → α) (minT maxT : ℝ) (u : ℕ → ℝ)
    (hw : 0 < ∑ i, w i) (p : List (ℝ × α)) (hp : branch w x minT maxT u = some p) : p ≠ [] := by
  rintro rfl
  have := c84_weight w x minT maxT u _ hp
  simp [total] at this
  linarith

/-- C84: every walker of the new population is a copy of a walker of the old one. -/
theorem c84_copies (w : Fin N → ℝ) (x : Fin N → α) (minT maxT : ℝ) (u : ℕ → ℝ)
    (p : List (ℝ × α)) (hp : branch w x minT maxT u = some p) :
    ∀ e ∈ p, ∃ i, e.2 = x i := by
  intro e he
  by_cases h : 2 * mergePairs w minT ≤ N
  · rw [branch_eq h] at hp
    obtain rfl := Option.some.inj hp
    unfold repeatRows at he
    simp only [List.mem_flatMap, List.mem_finRange, true_and] at he
    obtain ⟨i, hi⟩ := he
    exact ⟨i, by rw [List.eq_of_mem_replicate hi]⟩
  · unfold branch at hp
    rw [dif_neg h] at hp
    cases hp

/-- C84: without a small weight nothing is random: a walker of weight above `max_thres` is
replaced by two of half the weight, every other walker stays. -/
theorem c84_split (w : Fin N → ℝ) (x : Fin N → α) (minT maxT : ℝ) (u : ℕ → ℝ)
    (hw : ∀ i, minT ≤ w i) (p : List (ℝ × α)) (hp : branch w x minT maxT u = some p) :
    p = (List.finRange N).flatMap fun i =>
      if maxT < w i then [(w i / 2, x i), (w i / 2, x i)] else [(w i, x i)] := by
  by_cases h : 2 * mergePairs w minT ≤ N
  · rw [branch_eq h] at hp
    obtain rfl := Option.some.inj hp
    have s : ∀ l : List (Fin (mergePairs w minT)), l.foldl (helper h w minT fun j => u j.1)
        (w, fun _ => 1) = (w, fun _ => 1) := by
      intro l
      induction l with
      | nil => rfl
      | cons j l ih =>
        rw [List.foldl_cons]
        have : helper h w minT (fun j => u j.1) (w, fun _ => 1) j = (w, fun _ => 1) := by
          unfold helper
          rw [if_neg (not_lt.mpr (hw _))]
        rw [this, ih]
    unfold repeatRows doBranch
    simp only [s]
    congr 1
    funext i
    split
    · simp [List.replicate]; ring
    · simp
  · unfold branch at hp
    rw [dif_neg h] at hp
    cases hp

/-- C84: the step raises exactly when the rounded number of pairs does not fit. -/
theorem c84_raises (w : Fin N → ℝ) (x : Fin N → α) (minT maxT : ℝ) (u : ℕ → ℝ) :
    branch w x minT maxT u = none ↔ N < 2 * mergePairs w minT := by
  unfold branch
  split
  · simp; omega
  · simp; omega

/-- C84: with at most 19 walkers the step raises when every weight is small; with one walker it
always raises. -/
theorem c84_all_small (w : Fin N → ℝ) (x : Fin N → α) (minT maxT : ℝ) (u : ℕ → ℝ) :
    (N ≤ 19 → (∀ i, w i < minT) → branch w x minT maxT u = none) ∧
    (N = 1 → branch w x minT maxT u = none) := by
  rw [c84_raises]
  have le : ∀ k, k ≤ 10 → roundMergePairs k = k := fun k hk => by simp [roundMergePairs, hk]
  constructor
  · intro hN hs
    have : countBelow w minT = N := by
      unfold countBelow
      rw [Finset.filter_true_of_mem (fun i _ => hs i), Finset.card_univ, Fintype.card_fin]
    unfold mergePairs
    rw [this, le _ (by omega)]
    omega
  · intro h1
    have : countBelow w minT ≤ N := by
      unfold countBelow
      refine (Finset.card_filter_le _ _).trans ?_
      rw [Finset.card_univ, Fintype.card_fin]
    unfold mergePairs
    rw [le _ (by omega)]
    omega

/-- C84: the number of pairs looked at is at most what the small weights need, and keeps its
leading digit: more than half of it. -/
theorem c84_round (n : ℕ) (hn : 0 < n) : roundMergePairs n ≤ n ∧ n < 2 * roundMergePairs n := by
  unfold roundMergePairs
  split
  · omega
  · have h1 := Nat.div_mul_le_self n (10 ^ Nat.log 10 n)
    have h2 : 10 ^ Nat.log 10 n ≤ n := Nat.pow_log_le_self 10 (by omega)
    have h3 : 0 < 10 ^ Nat.log 10 n := by positivity
    have h4 : 1 ≤ n / 10 ^ Nat.log 10 n := (Nat.one_le_div_iff h3).mpr h2
    have h5 := Nat.lt_div_mul_add h3 (a := n)
    refine ⟨h1, ?_⟩
    nlinarith [Nat.mul_le_mul_right (10 ^ Nat.log 10 n) h4]

/-! ### Fixed size -/

theorem fix_some {w : Fin N → ℝ} {x : Fin N → α} {minT maxT : ℝ} {u : ℕ → ℝ}
    {p : (Fin N → ℝ) × (Fin N → α)} (hp : branchFix w x minT maxT u = some p) :
    p = (w, x) ∨ ∃ h : 2 * numToChange w minT maxT ≤ N,
      p = doBranchFix w x (pairFst h w) (pairSnd h w) (largest h w) fun j => u j.1 := by
  unfold branchFix at hp
  split at hp
  · left; exact (Option.some.inj hp).symm
  · split at hp
    · rename_i h
      right; exact ⟨h, (Option.some.inj hp).symm⟩
    · cases hp

theorem largest_inj {n : ℕ} (h : 2 * n ≤ N) (w : Fin N → ℝ) : Function.Injective (largest h w) := by
  intro i j e
  have := (Tuple.sort fun i => -w i).injective e
  simp only [Fin.mk.injEq] at this
  exact Fin.ext this

theorem fix_value {w : Fin N → ℝ} (hd : Function.Injective w) {x : Fin N → α} {minT maxT : ℝ}
    (h : 2 * numToChange w minT maxT ≤ N) (h3 : 3 * numToChange w minT maxT ≤ N) (f : α → ℝ)
    (u : ℕ → ℝ) (hu : ∀ j i k, u j ≠ w i / (w i + w k)) :
    ∑ i, (doBranchFix w x (pairFst h w) (pairSnd h w) (largest h w) fun j => u j.1).1 i *
      f ((doBranchFix w x (pairFst h w) (pairSnd h w) (largest h w) fun j => u j.1).2 i) =
      ∑ i, w i * f (x i) + ∑ j, delta (w (pairFst h w j)) (w (pairSnd h w j))
        (f (x (pairFst h w j))) (f (x (pairSnd h w j))) (u j.1) := by
  refine fix_sum w x _ _ _ _ f (fst_inj h w) (snd_inj h w) (largest_inj h w) (fst_ne_snd h w)
    ?_ ?_ (fun j => hu _ _ _)
  · intro i j
    exact distinct_disjoint h h3 w hd _ _ (by simp) (by simp)
  · intro i j
    exact distinct_disjoint h h3 w hd _ _ (by simp; omega) (by simp)

/-- C85: with distinct weights, room for all the walkers to be changed, and no draw exactly on a
threshold, the fixed-size branching keeps the total weight. -/
theorem c85_weight (w : Fin N → ℝ) (hd : Function.Injective w) (x : Fin N → α) (minT maxT : ℝ)
    (h3 : 3 * numToChange w minT maxT ≤ N) (u : ℕ → ℝ) (hu : ∀ j i k, u j ≠ w i / (w i + w k))
    (p : (Fin N → ℝ) × (Fin N → α)) (hp : branchFix w x minT maxT u = some p) :
    ∑ i, p.1 i = ∑ i, w i := by
  rcases fix_some hp with rfl | ⟨h, rfl⟩
  · rfl
  · have := fix_value hd h h3 (fun _ => 1) u hu (x := x)
    simp only [mul_one] at this
    rw [this]
    simp [delta]

/-- C85: under the same conditions it keeps every weighted sum on average. -/
theorem c85_unbiased (w : Fin N → ℝ) (hd : Function.Injective w) (hw : ∀ i, 0 ≤ w i)
    (x : Fin N → α) (minT maxT : ℝ) (h3 : 3 * numToChange w minT maxT ≤ N) (f : α → ℝ)
    (p : (ℕ → ℝ) → (Fin N → ℝ) × (Fin N → α)) (hp : ∀ u, branchFix w x minT maxT u = some (p u)) :
    Integrable (fun u => ∑ i, (p u).1 i * f ((p u).2 i)) draws ∧
      ∫ u, ∑ i, (p u).1 i * f ((p u).2 i) ∂draws = ∑ i, w i * f (x i) := by
  by_cases h0 : numToChange w minT maxT = 0
  · have : ∀ u, p u = (w, x) := by
      intro u
      have := hp u
      unfold branchFix at this
      rw [if_pos h0] at this
      exact (Option.some.inj this).symm
    simp [this]
  · have h : 2 * numToChange w minT maxT ≤ N := by omega
    have hval : ∀ u, p u = doBranchFix w x (pairFst h w) (pairSnd h w) (largest h w)
        fun j => u j.1 := by
      intro u
      have := hp u
      unfold branchFix at this
      rw [if_neg h0, dif_pos h] at this
      exact (Option.some.inj this).symm
    have m : ∀ j : ℕ, MeasurePreserving (fun u : ℕ → ℝ => u j) draws unif :=
      fun j => measurePreserving_eval_infinitePi (fun _ => unif) j
    have nul : ∀ᵐ u ∂draws, ∀ j i k, u j ≠ w i / (w i + w k) := by
      rw [ae_all_iff]; intro j
      rw [ae_all_iff]; intro i
      rw [ae_all_iff]; intro k
      have : ∀ᵐ t ∂unif, t ≠ w i / (w i + w k) := by
        have : ∀ᵐ t : ℝ ∂volume, t ≠ w i / (w i + w k) := by simp [ae_iff]
        exact ae_restrict_of_ae this
      exact (m j).quasiMeasurePreserving.ae this
    have e : (fun u => ∑ i, (p u).1 i * f ((p u).2 i)) =ᵐ[draws] fun u => ∑ i, w i * f (x i) +
        ∑ j : Fin (numToChange w minT maxT), delta (w (pairFst h w j)) (w (pairSnd h w j))
          (f (x (pairFst h w j))) (f (x (pairSnd h w j))) (u j.1) := by
      filter_upwards [nul] with u hu
      rw [hval u]
      exact fix_value hd h h3 f u hu
    have bd : ∀ k1 k2 ga gb, Integrable (delta k1 k2 ga gb) unif := fun k1 k2 ga gb =>
      Integrable.of_bound (measurable_delta k1 k2 ga gb).aestronglyMeasurable
        (|k2 * (ga - gb)| + |k1 * (gb - ga)|)
        (Filter.Eventually.of_forall fun u => by
          rw [Real.norm_eq_abs]; exact abs_delta k1 k2 ga gb u)
    have ij : ∀ j : Fin (numToChange w minT maxT), Integrable (fun u : ℕ → ℝ =>
          delta (w (pairFst h w j)) (w (pairSnd h w j)) (f (x (pairFst h w j)))
            (f (x (pairSnd h w j))) (u j.1)) draws := fun j =>
      (m j).integrable_comp_of_integrable (bd _ _ _ _)
    have I := (integrable_const (∑ i, w i * f (x i))).add
      (integrable_finsetSum Finset.univ fun j _ => ij j)
    refine ⟨I.congr e.symm, ?_⟩
    rw [integral_congr_ae e, integral_add (integrable_const _) (integrable_finsetSum _ fun j _ => ij j),
      integral_finsetSum _ (fun j _ => ij j)]
    have z : ∀ j : Fin (numToChange w minT maxT), ∫ u : ℕ → ℝ,
          delta (w (pairFst h w j)) (w (pairSnd h w j)) (f (x (pairFst h w j)))
            (f (x (pairSnd h w j))) (u j.1) ∂draws = 0 := by
      intro j
      rw [(show ∫ u : ℕ → ℝ, delta (w (pairFst h w j)) (w (pairSnd h w j)) (f (x (pairFst h w j)))
            (f (x (pairSnd h w j))) (u j.1) ∂draws = ∫ t, delta (w (pairFst h w j))
              (w (pairSnd h w j)) (f (x (pairFst h w j))) (f (x (pairSnd h w j))) t ∂unif from by
            rw [← (m j).map_eq, integral_map (m j).measurable.aemeasurable]
            exact (measurable_delta _ _ _ _).aestronglyMeasurable)]
      exact integral_delta _ _ _ _ (hw _) (hw _)
    simp [z]

/-- C85: every walker of the new population is a copy of a walker of the old one (for all weights
and draws). -/
theorem c85_copies (w : Fin N → ℝ) (x : Fin N → α) (minT maxT : ℝ) (u : ℕ → ℝ)
    (p : (Fin N → ℝ) × (Fin N → α)) (hp : branchFix w x minT maxT u = some p) :
    ∀ i, ∃ k, p.2 i = x k := by
  intro i
  rcases fix_some hp with rfl | ⟨h, rfl⟩
  · exact ⟨i, rfl⟩
  · unfold doBranchFix
    simp only
    by_cases c : ∃ j, removedIdx w (pairFst h w) (pairSnd h w) (fun j => u j.1) j = i
    · obtain ⟨j, rfl⟩ := c
      refine ⟨largest h w j, setAt_on _ ?_ _ _ _⟩
      intro a b e
      unfold removedIdx at e
      split at e <;> split at e
      · exact fst_inj h w e
      · exact absurd e (fst_ne_snd h w _ _)
      · exact absurd e (fst_ne_snd h w _ _).symm
      · exact snd_inj h w e
    · exact ⟨i, setAt_off _ _ _ _ fun j e => c ⟨j, e⟩⟩

/-- C85: the step raises exactly when twice the number of walkers to change exceeds the population,
and does nothing when no weight is outside the thresholds. -/
theorem c85_raises (w : Fin N → ℝ) (x : Fin N → α) (minT maxT : ℝ) (u : ℕ → ℝ) :
    (branchFix w x minT maxT u = none ↔ N < 2 * numToChange w minT maxT) ∧
    ((∀ i, minT ≤ w i ∧ w i ≤ maxT) → branchFix w x minT maxT u = some (w, x)) := by
  constructor
  · unfold branchFix
    split
    · simp; omega
    · split
      · simp; omega
      · simp; omega
  · intro hw
    have : numToChange w minT maxT = 0 := by
      unfold numToChange countBelow countAbove
      rw [Finset.filter_false_of_mem (fun i _ => not_lt.mpr (hw i).1),
        Finset.filter_false_of_mem (fun i _ => not_lt.mpr (hw i).2)]
      simp
    unfold branchFix
    rw [if_pos this]

/-! ### Concrete populations -/

/-- A small population with weights in increasing order. -/
def qEx : Fin 4 → ℚ := ![1 / 10, 1 / 2, 1, 5 / 2]

/-- The same as real numbers. -/
noncomputable def wEx (i : Fin 4) : ℝ := qEx i

theorem wEx0 : wEx 0 = 1 / 10 := by norm_num [wEx, qEx]
theorem wEx1 : wEx 1 = 1 / 2 := by norm_num [wEx, qEx]
theorem wEx2 : wEx 2 = 1 := by simp [wEx, qEx]
theorem wEx3 : wEx 3 = 5 / 2 := by simp [wEx, qEx]

theorem wEx_inj : Function.Injective wEx := by
  intro i j h
  have : ∀ i j, qEx i = qEx j → i = j := by decide +kernel
  unfold wEx at h
  exact this i j (by exact_mod_cast h)

theorem wEx_below : countBelow wEx (3 / 10) = 1 := by
  unfold countBelow
  rw [Finset.card_filter, Fin.sum_univ_four]
  norm_num [wEx0, wEx1, wEx2, wEx3]

theorem wEx_above : countAbove wEx 2 = 1 := by
  unfold countAbove
  rw [Finset.card_filter, Fin.sum_univ_four]
  norm_num [wEx0, wEx1, wEx2, wEx3]

/-- The hypotheses of C84 are met: one merge, one split. -/
example (u : ℕ → ℝ) : ∃ p, branch wEx (id : Fin 4 → Fin 4) (3 / 10) 2 u = some p := by
  have : ¬ branch wEx (id : Fin 4 → Fin 4) (3 / 10) 2 u = none := by
    rw [c84_raises]
    unfold mergePairs
    rw [wEx_below]
    simp [roundMergePairs]
  exact Option.ne_none_iff_exists'.mp this

/-- The hypotheses of C85 are met. -/
example : Function.Injective wEx ∧ 3 * numToChange wEx (3 / 10) 2 ≤ 4 ∧
    (∀ u, ∃ p, branchFix wEx (id : Fin 4 → Fin 4) (3 / 10) 2 u = some p) ∧
    ∃ u : ℕ → ℝ, ∀ j i k, u j ≠ wEx i / (wEx i + wEx k) := by
  have n1 : numToChange wEx (3 / 10) 2 = 1 := by
    unfold numToChange; rw [wEx_below, wEx_above]; rfl
  refine ⟨wEx_inj, by rw [n1]; norm_num, fun u => ?_, fun _ => 0, ?_⟩
  · refine Option.ne_none_iff_exists'.mp ?_
    rw [Ne, (c85_raises _ _ _ _ _).1, n1]
    norm_num
  · intro j i k h
    have pos : ∀ i, 0 < wEx i := fun i => by
      have : ∀ i, 0 < qEx i := by decide +kernel
      unfold wEx
      exact_mod_cast this i
    exact absurd h.symm (div_pos (pos i) (add_pos (pos i) (pos k))).ne'

/-- A population with a tie between the largest weight and the second smallest. -/
def qTie : Fin 4 → ℚ := ![1 / 10, 1, 1, 1]

/-- The same as real numbers. -/
noncomputable def wTie (i : Fin 4) : ℝ := qTie i

theorem wTie0 : wTie 0 = 1 / 10 := by norm_num [wTie, qTie]
theorem wTie1 : wTie 1 = 1 := by norm_num [wTie, qTie]
theorem wTie2 : wTie 2 = 1 := by simp [wTie, qTie]
theorem wTie3 : wTie 3 = 1 := by simp [wTie, qTie]

/-- C85, the tie case: the smallest weight is merged with a walker that is at the same time
the one to be split, and the total weight changes from 3.1 to 3.6. -/
theorem c85_tie : ∃ p, branchFix wTie (id : Fin 4 → Fin 4) (3 / 10) 2 (fun _ => 0) = some p ∧
    ∑ i, wTie i = 31 / 10 ∧ ∑ i, p.1 i = 36 / 10 := by
  have b : countBelow wTie (3 / 10) = 1 := by
    unfold countBelow
    rw [Finset.card_filter, Fin.sum_univ_four]
    norm_num [wTie0, wTie1, wTie2, wTie3]
  have a : countAbove wTie 2 = 0 := by
    unfold countAbove
    rw [Finset.card_filter, Fin.sum_univ_four]
    norm_num [wTie0, wTie1, wTie2, wTie3]
  have n1 : numToChange wTie (3 / 10) 2 = 1 := by
    unfold numToChange; rw [b, a]; rfl
  have s1 : Tuple.sort wTie = Equiv.refl _ := by
    rw [Tuple.sort_eq_refl_iff_monotone]
    have : ∀ i j, i ≤ j → qTie i ≤ qTie j := by decide +kernel
    intro i j h
    unfold wTie
    exact_mod_cast this i j h
  have s2 : finRotate 4 = Tuple.sort fun i => -wTie i := by
    rw [Tuple.eq_sort_iff]
    constructor
    · have : ∀ i j : Fin 4, i ≤ j → -qTie (finRotate 4 i) ≤ -qTie (finRotate 4 j) := by decide +kernel
      intro i j h
      simp only [Function.comp, wTie]
      exact_mod_cast this i j h
    · have : ∀ i j : Fin 4, i < j → -qTie (finRotate 4 i) = -qTie (finRotate 4 j) → finRotate 4 i < finRotate 4 j := by decide +kernel
      intro i j hij h
      refine this i j hij ?_
      simp only [wTie] at h
      exact_mod_cast h
  have h : 2 * numToChange wTie (3 / 10) 2 ≤ 4 := by rw [n1]; norm_num
  refine ⟨_, by unfold branchFix; rw [if_neg (by omega), dif_pos h], ?_, ?_⟩
  · rw [Fin.sum_univ_four]; norm_num [wTie0, wTie1, wTie2, wTie3]
  · have key : ∀ (n : ℕ) (h : 2 * n ≤ 4), n = 1 →
        ∑ i, (doBranchFix wTie (id : Fin 4 → Fin 4) (pairFst h wTie) (pairSnd h wTie)
          (largest h wTie) fun _ => 0).1 i = 36 / 10 := by
      rintro n h rfl
      have f0 : pairFst h wTie (0 : Fin 1) = 0 := by
        unfold pairFst ascending; rw [s1]; rfl
      have f1 : pairSnd h wTie (0 : Fin 1) = 1 := by
        unfold pairSnd ascending; rw [s1]; rfl
      have f2 : largest h wTie (0 : Fin 1) = 1 := by
        unfold largest descending; rw [← s2]; rfl
      have kp : keptIdx wTie (pairFst h wTie) (pairSnd h wTie) (fun _ => 0) (0 : Fin 1) = 0 := by
        unfold keptIdx; rw [f0, f1, if_pos]
        norm_num [wTie0, wTie1, wTie2, wTie3]
      have rm : removedIdx wTie (pairFst h wTie) (pairSnd h wTie) (fun _ => 0) (0 : Fin 1) = 1 := by
        unfold removedIdx; rw [f0, f1, if_neg]
        norm_num [wTie0, wTie1, wTie2, wTie3]
      have fr : List.finRange 1 = [0] := rfl
      simp only [doBranchFix, setAt, addAt, fr, List.foldl_cons, List.foldl_nil, kp, rm, f2,
        Fin.sum_univ_four]
      simp only [Function.update_apply, show (2 : Fin 4) ≠ 1 by decide, show (2 : Fin 4) ≠ 0 by decide,
        show (3 : Fin 4) ≠ 1 by decide, show (3 : Fin 4) ≠ 0 by decide, show (2 : Fin 4) ≠ 3 by decide,
        show (0 : Fin 4) ≠ 1 by decide, show (1 : Fin 4) ≠ 0 by decide, show (0 : Fin 4) ≠ 3 by decide,
        show (1 : Fin 4) ≠ 3 by decide, if_true, if_false]
      norm_num [wTie0, wTie1, wTie2, wTie3]
    exact key _ h n1

/-- C85, the boundary draw: a draw equal to the threshold keeps and removes the same walker,
and the total weight changes from 4.1 to 3.6. -/
theorem c85_boundary : ∃ p, branchFix wEx (id : Fin 4 → Fin 4) (3 / 10) 2 (fun _ => 1 / 6) = some p ∧
    ∑ i, wEx i = 41 / 10 ∧ ∑ i, p.1 i = 41 / 10 - 1 / 2 := by
  have n1 : numToChange wEx (3 / 10) 2 = 1 := by
    unfold numToChange; rw [wEx_below, wEx_above]; rfl
  have s1 : Tuple.sort wEx = Equiv.refl _ := by
    rw [Tuple.sort_eq_refl_iff_monotone]
    have : ∀ i j, i ≤ j → qEx i ≤ qEx j := by decide +kernel
    intro i j h
    unfold wEx
    exact_mod_cast this i j h
  have s2 : Fin.revPerm = Tuple.sort fun i => -wEx i := by
    rw [Tuple.eq_sort_iff]
    constructor
    · have : ∀ i j : Fin 4, i ≤ j → -qEx (Fin.revPerm i) ≤ -qEx (Fin.revPerm j) := by decide +kernel
      intro i j h
      simp only [Function.comp, wEx]
      exact_mod_cast this i j h
    · have : ∀ i j : Fin 4, i < j → -qEx (Fin.revPerm i) = -qEx (Fin.revPerm j) → Fin.revPerm i < Fin.revPerm j := by decide +kernel
      intro i j hij h
      refine this i j hij ?_
      simp only [wEx] at h
      exact_mod_cast h
  have h : 2 * numToChange wEx (3 / 10) 2 ≤ 4 := by rw [n1]; norm_num
  refine ⟨_, by unfold branchFix; rw [if_neg (by omega), dif_pos h], ?_, ?_⟩
  · rw [Fin.sum_univ_four]; norm_num [wEx0, wEx1, wEx2, wEx3]
  · have key : ∀ (n : ℕ) (h : 2 * n ≤ 4), n = 1 →
        ∑ i, (doBranchFix wEx (id : Fin 4 → Fin 4) (pairFst h wEx) (pairSnd h wEx)
          (largest h wEx) fun _ => 1 / 6).1 i = 41 / 10 - 1 / 2 := by
      rintro n h rfl
      have f0 : pairFst h wEx (0 : Fin 1) = 0 := by
        unfold pairFst ascending; rw [s1]; rfl
      have f1 : pairSnd h wEx (0 : Fin 1) = 1 := by
        unfold pairSnd ascending; rw [s1]; rfl
      have f2 : largest h wEx (0 : Fin 1) = 3 := by
        unfold largest descending; rw [← s2]; rfl
      have kp : keptIdx wEx (pairFst h wEx) (pairSnd h wEx) (fun _ => 1 / 6) (0 : Fin 1) = 1 := by
        unfold keptIdx; rw [f0, f1, if_neg]
        norm_num [wEx0, wEx1, wEx2, wEx3]
      have rm : removedIdx wEx (pairFst h wEx) (pairSnd h wEx) (fun _ => 1 / 6) (0 : Fin 1) = 1 := by
        unfold removedIdx; rw [f0, f1, if_neg]
        norm_num [wEx0, wEx1, wEx2, wEx3]
      have fr : List.finRange 1 = [0] := rfl
      simp only [doBranchFix, setAt, addAt, fr, List.foldl_cons, List.foldl_nil, kp, rm, f2,
        Fin.sum_univ_four]
      simp only [Function.update_apply, show (2 : Fin 4) ≠ 1 by decide, show (2 : Fin 4) ≠ 0 by decide,
        show (3 : Fin 4) ≠ 1 by decide, show (3 : Fin 4) ≠ 0 by decide, show (2 : Fin 4) ≠ 3 by decide,
        show (0 : Fin 4) ≠ 1 by decide, show (1 : Fin 4) ≠ 0 by decide, show (0 : Fin 4) ≠ 3 by decide,
        show (1 : Fin 4) ≠ 3 by decide, if_true, if_false]
      norm_num [wEx0, wEx1, wEx2, wEx3]
    exact key _ h n1

end Jaqmc.DmcBranch.Props
