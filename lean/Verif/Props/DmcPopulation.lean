import Verif.Spec.DmcEnergy
import Mathlib.Analysis.SpecialFunctions.Pow.Real
import Mathlib.Analysis.SpecialFunctions.Log.Basic
import Mathlib.Algebra.BigOperators.Group.List.Basic
import Mathlib.Algebra.Order.BigOperators.Group.List
import Mathlib.Algebra.BigOperators.Ring.List
import Mathlib.Tactic.FieldSimp
import Mathlib.Tactic.Ring
import Mathlib.Tactic.Linarith
import Mathlib.Tactic.NormNum
/-!
# C88, C90: weights and population control of the DMC, and padding to the devices
-/
namespace Jaqmc.DmcEnergy.Props
open Jaqmc.DmcEnergy

/-! ### C88: weights and population control -/

theorem sign_min (x c : ℝ) (hc : 0 ≤ c) : |((SignType.sign x : ℝ) * min c (|x|))| ≤ c := by
  rcases lt_trichotomy x 0 with h | h | h
  · rw [sign_neg h, abs_mul]
    simp only [SignType.coe_neg_one, abs_neg, abs_one, one_mul]
    rw [abs_of_nonneg (le_min hc (abs_nonneg _))]
    exact min_le_left _ _
  · subst h; simpa using hc
  · rw [sign_pos h, abs_mul]
    simp only [SignType.coe_one, abs_one, one_mul]
    rw [abs_of_nonneg (le_min hc (abs_nonneg _))]
    exact min_le_left _ _

/-- C88: with a cutoff the branching value stays within the cutoff around `offset - estimator`;
below the cutoff it is `offset - energy` exactly. -/
theorem c88_cutoff (alpha : ℝ) (ha : 0 ≤ alpha) (electrons : ℕ) (timeStep v vc offset mixed e : ℝ) :
    |branchVal alpha none electrons timeStep v vc offset mixed e - (offset - mixed)| ≤
      alpha * Real.sqrt (electrons / timeStep) ∧
    (|mixed - e| ≤ alpha * Real.sqrt (electrons / timeStep) →
      branchVal alpha none electrons timeStep v vc offset mixed e = offset - e) ∧
    (e ≤ mixed → offset - mixed ≤ branchVal alpha none electrons timeStep v vc offset mixed e) ∧
    (mixed ≤ e → branchVal alpha none electrons timeStep v vc offset mixed e ≤ offset - mixed) := by
  unfold branchVal
  simp only [clipPair, if_neg (not_lt.mpr ha)]
  have hc : 0 ≤ alpha * Real.sqrt (electrons / timeStep) := mul_nonneg ha (Real.sqrt_nonneg _)
  refine ⟨?_, ?_, ?_, ?_⟩
  · rw [add_sub_cancel_left]
    exact sign_min _ _ hc
  · intro h
    rw [min_eq_right h, sign_mul_abs]
    ring
  · intro h
    have : 0 ≤ (SignType.sign (mixed - e) : ℝ) := by
      rcases eq_or_lt_of_le (sub_nonneg.mpr h) with c | c
      · rw [← c]; simp
      · rw [sign_pos c]; simp
    linarith [mul_nonneg this (le_min hc (abs_nonneg (mixed - e)))]
  · intro h
    have : (SignType.sign (mixed - e) : ℝ) ≤ 0 := by
      rcases eq_or_lt_of_le (sub_nonpos.mpr h) with c | c
      · rw [c]; simp
      · rw [sign_neg c]; simp
    linarith [mul_nonpos_of_nonpos_of_nonneg this (le_min hc (abs_nonneg (mixed - e)))]

/-- C88: clipping the local energy first changes nothing but the energy used. -/
theorem c88_clip (alpha lo hi : ℝ) (h : lo ≤ hi) (electrons : ℕ) (timeStep v vc offset mixed e : ℝ) :
    ∃ e', lo ≤ e' ∧ e' ≤ hi ∧ (lo ≤ e → e ≤ hi → e' = e) ∧
      branchVal alpha (some (lo, hi)) electrons timeStep v vc offset mixed e =
        branchVal alpha none electrons timeStep v vc offset mixed e' := by
  refine ⟨clip lo hi e, ?_, min_le_right _ _, ?_, rfl⟩
  · exact le_min (le_max_right _ _) h
  · intro h1 h2
    unfold clip
    rw [max_eq_left h1, min_eq_left h2]

/-- C88: without a cutoff (`energy_cutoff_alpha < 0`) the energy difference is scaled by the ratio of
the clipped to the full velocity. -/
theorem c88_uncut (alpha : ℝ) (ha : alpha < 0) (electrons : ℕ) (timeStep v vc offset mixed e : ℝ) :
    branchVal alpha none electrons timeStep v vc offset mixed e =
      offset - mixed + vc / v * (mixed - e) := by
  unfold branchVal
  simp only [clipPair, if_pos ha]
  ring

/-- C88: one move multiplies a positive weight by a positive factor, at most
`exp (τ_eff (|offset - estimator| + cutoff))` and at least its inverse. -/
theorem c88_growth (alpha : ℝ) (ha : 0 ≤ alpha) (electrons : ℕ)
    (timeStep tauEff v vc v' vc' offset mixed e e' rate w : ℝ) (ht : 0 ≤ tauEff)
    (hr : 0 ≤ rate ∧ rate ≤ 1) (hw : 0 < w) :
    let d := weightDeltaLog rate (branchVal alpha none electrons timeStep v vc offset mixed e)
      (branchVal alpha none electrons timeStep v' vc' offset mixed e')
    let B := |offset - mixed| + alpha * Real.sqrt (electrons / timeStep)
    0 < newWeight w tauEff d ∧ newWeight w tauEff d ≤ w * Real.exp (tauEff * B) ∧
      w * Real.exp (-(tauEff * B)) ≤ newWeight w tauEff d := by
  intro d B
  have b1 := (c88_cutoff alpha ha electrons timeStep v vc offset mixed e).1
  have b2 := (c88_cutoff alpha ha electrons timeStep v' vc' offset mixed e').1
  set x := branchVal alpha none electrons timeStep v vc offset mixed e
  set y := branchVal alpha none electrons timeStep v' vc' offset mixed e'
  have hd : d = (1 - rate / 2) * x + rate / 2 * y := by simp only [d, weightDeltaLog]; ring
  rw [abs_le] at b1 b2
  have o1 := le_abs_self (offset - mixed)
  have o2 := neg_abs_le (offset - mixed)
  have x1 : x ≤ B := by simp only [B]; linarith
  have x2 : -B ≤ x := by simp only [B]; linarith
  have y1 : y ≤ B := by simp only [B]; linarith
  have y2 : -B ≤ y := by simp only [B]; linarith
  have r1 : 0 ≤ 1 - rate / 2 := by linarith
  have r2 : 0 ≤ rate / 2 := by linarith
  have d1 : d ≤ B := by
    rw [hd]; nlinarith [mul_le_mul_of_nonneg_left x1 r1, mul_le_mul_of_nonneg_left y1 r2]
  have d2 : -B ≤ d := by
    rw [hd]; nlinarith [mul_le_mul_of_nonneg_left x2 r1, mul_le_mul_of_nonneg_left y2 r2]
  unfold newWeight
  refine ⟨mul_pos hw (Real.exp_pos _), ?_, ?_⟩
  · exact mul_le_mul_of_nonneg_left (Real.exp_le_exp.mpr (mul_le_mul_of_nonneg_left d1 ht)) hw.le
  · refine mul_le_mul_of_nonneg_left (Real.exp_le_exp.mpr ?_) hw.le
    rw [← mul_neg]
    exact mul_le_mul_of_nonneg_left d2 ht

/-- C88: the offset is below the estimator exactly when the population is above its target, above
it exactly when below the target. -/
theorem c88_offset (estimator amplitude total target : ℝ) (ha : 0 < amplitude) (ht : 0 < total)
    (hg : 0 < target) :
    (updateOffset estimator amplitude total target < estimator ↔ target < total) ∧
    (estimator < updateOffset estimator amplitude total target ↔ total < target) ∧
    updateOffset estimator amplitude target target = estimator := by
  unfold updateOffset
  have e : Real.log (total / target) = Real.log total - Real.log target :=
    Real.log_div ht.ne' hg.ne'
  refine ⟨?_, ?_, ?_⟩
  · rw [sub_lt_self_iff, mul_pos_iff_of_pos_left ha, e, sub_pos, Real.log_lt_log_iff hg ht]
  · rw [lt_sub_iff_add_lt, add_lt_iff_neg_left, ← neg_pos, ← mul_neg, mul_pos_iff_of_pos_left ha,
      e, neg_sub, sub_pos, Real.log_lt_log_iff ht hg]
  · rw [div_self hg.ne', Real.log_one]; ring

/-- C88: after an update of the offset the factor common to all weights in the next step,
`exp (τ_eff (offset - estimator))`, is `(target / total) ^ (amplitude * τ)`: the control strength
does not depend on the effective time step. -/
theorem c88_control (index interval : ℕ) (hi : index % interval = 0)
    (amplitude timeStep tauEff mixed total target old : ℝ) (ht : 0 < tauEff) (hw : 0 < total)
    (hg : 0 < target) :
    Real.exp (tauEff * (nextOffset index interval amplitude timeStep tauEff mixed total target old
      - mixed)) = (target / total) ^ (amplitude * timeStep) := by
  unfold nextOffset updateOffset
  rw [if_pos hi, Real.rpow_def_of_pos (div_pos hg hw)]
  congr 1
  rw [Real.log_div hw.ne' hg.ne', Real.log_div hg.ne' hw.ne']
  field_simp
  ring

/-- C88: between updates the offset is kept. -/
theorem c88_keep (index interval : ℕ) (hi : index % interval ≠ 0)
    (amplitude timeStep tauEff mixed total target old : ℝ) :
    nextOffset index interval amplitude timeStep tauEff mixed total target old = old := by
  unfold nextOffset; rw [if_neg hi]

/-- C88: an energy is an outlier exactly when rejection is on and it deviates from the anchor by
more than the threshold times the anchor's size (whatever the sign of the anchor). -/
theorem c88_outlier (threshold energy anchor : ℝ) :
    isOutlier threshold energy anchor ↔
      0 < threshold ∧ threshold * |anchor| < |energy - anchor| := by
  unfold isOutlier
  rw [not_le]
  refine and_congr_right fun ht => ?_
  have e1 : min (anchor * (1 - threshold)) (anchor * (1 + threshold)) = anchor - threshold * |anchor| := by
    rcases le_total 0 anchor with h | h
    · rw [abs_of_nonneg h, min_eq_left (by nlinarith)]; ring
    · rw [abs_of_nonpos h, min_eq_right (by nlinarith)]; ring
  have e2 : max (anchor * (1 - threshold)) (anchor * (1 + threshold)) = anchor + threshold * |anchor| := by
    rcases le_total 0 anchor with h | h
    · rw [abs_of_nonneg h, max_eq_right (by nlinarith)]; ring
    · rw [abs_of_nonpos h, max_eq_left (by nlinarith)]; ring
  rw [e1, e2, lt_abs]
  constructor
  · rintro (h | h)
    · right; linarith
    · left; linarith
  · rintro (h | h)
    · right; show anchor + threshold * |anchor| < energy; linarith
    · left; linarith

theorem avg_eq (pair : Option (ℝ × ℝ)) (l : List (ℝ × ℝ)) :
    averageEnergy pair l =
      (l.map fun e => e.2 * clipPair pair e.1).sum / (l.map Prod.snd).sum := by
  unfold averageEnergy
  generalize (l.map Prod.snd).sum = S
  induction l with
  | nil => simp
  | cons a l ih => rw [List.map_cons, List.sum_cons, ih, List.map_cons, List.sum_cons]; ring

/-- C88: the average energy is the weighted mean of the (clipped) energies, and lies between the
bounds of the clipped energies. -/
theorem c88_average (pair : Option (ℝ × ℝ)) (l : List (ℝ × ℝ)) (hw : ∀ e ∈ l, 0 ≤ e.2)
    (hs : 0 < (l.map Prod.snd).sum) (lo hi : ℝ)
    (hE : ∀ e ∈ l, lo ≤ clipPair pair e.1 ∧ clipPair pair e.1 ≤ hi) :
    averageEnergy pair l = (l.map fun e => e.2 * clipPair pair e.1).sum / (l.map Prod.snd).sum ∧
    lo ≤ averageEnergy pair l ∧ averageEnergy pair l ≤ hi := by
  refine ⟨avg_eq pair l, ?_, ?_⟩
  · rw [avg_eq, le_div_iff₀ hs, ← List.sum_map_mul_left]
    refine List.sum_le_sum fun e he => ?_
    rw [mul_comm]
    exact mul_le_mul_of_nonneg_left (hE e he).1 (hw e he)
  · rw [avg_eq, div_le_iff₀ hs, ← List.sum_map_mul_left]
    refine List.sum_le_sum fun e he => ?_
    rw [mul_comm hi]
    exact mul_le_mul_of_nonneg_left (hE e he).2 (hw e he)

/-- C88: with a clip pair the average energy always lies in the clip range. -/
theorem c88_average_clip (lo hi : ℝ) (h : lo ≤ hi) (l : List (ℝ × ℝ)) (hw : ∀ e ∈ l, 0 ≤ e.2)
    (hs : 0 < (l.map Prod.snd).sum) :
    lo ≤ averageEnergy (some (lo, hi)) l ∧ averageEnergy (some (lo, hi)) l ≤ hi :=
  (c88_average (some (lo, hi)) l hw hs lo hi fun _ _ =>
    ⟨le_min (le_max_right _ _) h, min_le_right _ _⟩).2

/-- Concrete values: two electrons, time step 1/2, cutoff factor 1/5: an energy far above the
estimator is cut, one near it is not. -/
example : branchVal (1 / 5) none 2 (1 / 2) 1 1 (-3) (-3) 100 = -2 / 5 ∧
    branchVal (1 / 5) none 2 (1 / 2) 1 1 (-3) (-3) (-31 / 10) = 1 / 10 ∧
    isOutlier (1 / 2) (-5) (-3) ∧ ¬ isOutlier (1 / 2) (-4) (-3) := by
  have s : Real.sqrt (((2 : ℕ) : ℝ) / (1 / 2)) = 2 := by
    rw [show (((2 : ℕ) : ℝ) / (1 / 2)) = 2 ^ 2 by norm_num]
    exact Real.sqrt_sq (by norm_num)
  refine ⟨?_, ?_, ?_, ?_⟩
  · unfold branchVal
    simp only [s, clipPair]
    rw [if_neg (by norm_num), sign_neg (by norm_num)]
    norm_num
  · rw [(c88_cutoff _ (by norm_num) _ _ _ _ _ _ _).2.1 (by rw [s]; norm_num)]
    norm_num
  · rw [c88_outlier]; norm_num
  · rw [c88_outlier]; norm_num

/-! ### C90: padding -/

/-- C90: the padded number of walkers per device holds all walkers with room to spare, by at most
a tenth more than the least possible number. -/
theorem c90_target (walkers devices : ℕ) (hd : 0 < devices) (h : 9 * devices ≤ walkers) :
    walkers < padTarget walkers devices * devices ∧
    walkers + padNum walkers devices = padTarget walkers devices * devices ∧
    0 < padNum walkers devices ∧
    10 * padTarget walkers devices ≤ 11 * (walkers / devices + 1) := by
  have l10 : 10 ≤ walkers / devices + 1 := by
    have := (Nat.le_div_iff_mul_le hd).mpr h
    omega
  set least := walkers / devices + 1 with hl
  set p := 10 ^ (Nat.log 10 least - 1) with hp
  have pp : 0 < p := by positivity
  have big : least < padTarget walkers devices := by
    unfold padTarget
    simp only [← hl, ← hp]
    have := Nat.lt_div_mul_add pp (a := least)
    rw [add_mul, one_mul]; exact this
  have lt : walkers < least * devices := by
    rw [hl]
    have h1 := Nat.div_add_mod walkers devices
    have h2 := Nat.mod_lt walkers hd
    rw [Nat.add_mul, one_mul, mul_comm]
    omega
  have lt2 : walkers < padTarget walkers devices * devices :=
    lt.trans_le (Nat.mul_le_mul_right _ big.le)
  refine ⟨lt2, ?_, ?_, ?_⟩
  · unfold padNum; omega
  · unfold padNum; omega
  · have h1 : 1 ≤ Nat.log 10 least := Nat.le_log_of_pow_le (by norm_num) (by simpa using l10)
    have h2 : 10 * p ≤ least := by
      have : 10 * p = 10 ^ Nat.log 10 least := by
        rw [hp, ← pow_succ']
        congr 1
        omega
      rw [this]
      exact Nat.pow_log_le_self 10 (by omega)
    have h3 : padTarget walkers devices ≤ least + p := by
      unfold padTarget
      simp only [← hl, ← hp]
      rw [add_mul, one_mul]
      exact Nat.add_le_add_right (Nat.div_mul_le_self _ _) _
    omega

theorem chunks_flatten {α : Type*} (len r : ℕ) (l : List α) :
    (chunks len r l).flatten = l.take (len * r) := by
  induction r generalizing l with
  | zero => simp [chunks]
  | succ r ih =>
    rw [chunks, List.flatten_cons, ih, Nat.mul_succ, Nat.add_comm, List.take_add]

theorem chunks_zip {α κ β : Type*} (f : ℕ → α → κ → β) (len r : ℕ) (m : List ℕ) (a : List α)
    (k : List κ) (hm : m.length = len * r) (ha : a.length = len * r) (hk : k.length = len * r) :
    (List.zipWith (fun m (p : List α × List κ) =>
      List.zipWith (fun m (q : α × κ) => f m q.1 q.2) m (List.zip p.1 p.2))
      (chunks len r m) (List.zip (chunks len r a) (chunks len r k))).flatten =
      List.zipWith (fun m (q : α × κ) => f m q.1 q.2) m (List.zip a k) := by
  induction r generalizing m a k with
  | zero =>
    rw [Nat.mul_zero] at hm
    rw [List.eq_nil_of_length_eq_zero hm]
    simp [chunks]
  | succ r ih =>
    rw [Nat.mul_succ] at hm ha hk
    rw [chunks, chunks, chunks, List.zip_cons_cons, List.zipWith_cons_cons, List.flatten_cons,
      ih _ _ _ (by simp; omega) (by simp; omega) (by simp; omega)]
    conv_rhs => rw [← List.take_append_drop len m, ← List.take_append_drop len a,
      ← List.take_append_drop len k]
    rw [List.zip_append (by simp; omega), List.zipWith_append (by simp; omega)]

/-- C90: a step with padding returns, for every walker in order, what the walker function gives for
that walker with its own key: padding, reshaping to the devices and removing the padded walkers
leave no trace. -/
theorem c90_step {α β κ : Type*} (zero : α) (walk : ℕ → α → κ → β) (keys : ℕ → List κ)
    (hk : ∀ n, (keys n).length = n) (devices : ℕ) (hd : 0 < devices) (walkers : List α)
    (h : 9 * devices ≤ walkers.length) :
    stepRun zero walk keys devices walkers =
      List.zipWith (walk 1) walkers (keys (padTarget walkers.length devices * devices)) := by
  obtain ⟨t1, t2, -, -⟩ := c90_target walkers.length devices hd h
  unfold stepRun
  simp only
  set pad := padNum walkers.length devices
  set per := padTarget walkers.length devices
  have lk := hk (per * devices)
  rw [chunks_zip walk per devices _ _ _ (by simp; omega) (by simp; omega) lk, chunks_flatten,
    List.take_of_length_le (by simp; omega)]
  generalize hks : keys (per * devices) = ks at *
  have split : ks = ks.take walkers.length ++ ks.drop walkers.length :=
    (List.take_append_drop _ _).symm
  have l1 : (ks.take walkers.length).length = walkers.length := by simp; omega
  have l2 : (ks.drop walkers.length).length = pad := by simp; omega
  have key1 : ∀ (a : List α) (k : List κ), a.length = k.length →
      unmask (List.zipWith (fun m (q : α × κ) => walk m q.1 q.2) (List.replicate a.length 1)
        (List.zip a k)) (List.replicate a.length 1) = List.zipWith (walk 1) a k := by
    intro a
    induction a with
    | nil => intro k hk; simp [unmask]
    | cons x a ih =>
      intro k hk
      cases k with
      | nil => cases hk
      | cons y k =>
        have := ih k (by simpa using hk)
        unfold unmask at this ⊢
        simp only [List.length_cons, List.replicate_succ, List.zip_cons_cons,
          List.zipWith_cons_cons, List.flatten_cons, List.replicate_zero, this]
        rfl
  have key0 : ∀ (r : List β) (n : ℕ), unmask r (List.replicate n 0) = [] := by
    intro r
    induction r with
    | nil => intro n; simp [unmask]
    | cons b r ih =>
      intro n
      cases n with
      | zero => simp [unmask]
      | succ n =>
        have := ih n
        unfold unmask at this ⊢
        simp [List.replicate_succ, this]
  have app : ∀ (r r' : List β) (m m' : List ℕ), r.length = m.length →
      unmask (r ++ r') (m ++ m') = unmask r m ++ unmask r' m' := by
    intro r r' m m' hl
    unfold unmask
    rw [List.zipWith_append hl, List.flatten_append]
  rw [split, List.zip_append l1.symm, List.zipWith_append (by simp [l1]),
    app _ _ _ _ (by simp [l1]), key1 _ _ l1.symm, key0, List.append_nil]
  have : ∀ (a : List α) (k k' : List κ), a.length = k.length →
      List.zipWith (walk 1) a (k ++ k') = List.zipWith (walk 1) a k := by
    intro a
    induction a with
    | nil => intro k k' _; simp
    | cons x a ih =>
      intro k k' hk
      cases k with
      | nil => cases hk
      | cons y k => simp [ih k k' (by simpa using hk)]
  rw [this _ _ _ l1.symm]

/-- 1000 walkers on 8 devices: 125 per device would do, 126 is the least target, 130 is used. -/
example : padTarget 1000 8 = 130 ∧ padNum 1000 8 = 40 := by
  have : Nat.log 10 126 = 2 := by rw [Nat.log_eq_iff] <;> norm_num
  constructor <;> norm_num [padTarget, padNum, this]

end Jaqmc.DmcEnergy.Props
