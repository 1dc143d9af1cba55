import Verif.Spec.DmcEnergy
import Mathlib.Data.List.Intervals
import Mathlib.Algebra.BigOperators.Field
import Mathlib.Algebra.BigOperators.Group.List.Basic
import Mathlib.Algebra.Order.BigOperators.Group.List
import Mathlib.Analysis.SpecialFunctions.Pow.Real
import Mathlib.Tactic.FieldSimp
import Mathlib.Tactic.Ring
import Mathlib.Tactic.Linarith
import Mathlib.Tactic.NormNum
/-!
# C86-C88, C90: DMC energy estimator, effective time step, population control, padding
-/
namespace Jaqmc.DmcEnergy.Props
open Jaqmc.DmcEnergy

/-! ### C86: the mixed estimator -/

theorem push_window {α : Type*} (K n : ℕ) (f : ℕ → α) :
    push K ((List.Ico (n - K) n).map f) (f n) = (List.Ico (n + 1 - K) (n + 1)).map f := by
  unfold push
  rw [show (List.Ico (n - K) n).map f ++ [f n] = (List.Ico (n - K) (n + 1)).map f by
    rw [List.Ico.succ_top (by omega), List.map_append]; rfl]
  rw [List.length_map, List.Ico.length]
  by_cases h : K ≤ n
  · rw [show n - (n - K) + 1 - K = 1 by omega, List.Ico.eq_cons (show n - K < n + 1 by omega),
      show n + 1 - K = n - K + 1 by omega]
    rfl
  · rw [show n - (n - K) + 1 - K = 0 by omega, show n - K = n + 1 - K by omega]
    rfl

theorem sum_Ico (f : ℕ → ℝ) (a b : ℕ) : ((List.Ico a b).map f).sum = ∑ i ∈ Finset.Ico a b, f i :=
  rfl

/-- The log correction of call `i`. -/
noncomputable def corrLog (T : ℕ) (a : ℕ → Call) (i : ℕ) : ℝ :=
  -(a i).timeStep * ∑ k ∈ Finset.Ico (i + 1 - T) (i + 1), (a k).offset

theorem before_eq (K T : ℕ) (a : ℕ → Call) (n : ℕ) :
    Calc.before K T a n = ⟨(List.Ico (n - K) n).map fun i => (a i).energy,
      (List.Ico (n - K) n).map (corrLog T a), (List.Ico (n - K) n).map fun i => (a i).weight,
      (List.Ico (n - T) n).map fun i => (a i).offset⟩ := by
  induction n with
  | zero => simp [Calc.before, Calc.init]
  | succ n ih =>
    rw [Calc.before, ih]
    unfold Calc.run
    simp only [push_window K n fun i => (a i).energy, push_window K n fun i => (a i).weight,
      push_window T n fun i => (a i).offset, sum_Ico]
    congr 1
    exact push_window K n (corrLog T a)

theorem zip3 (L : List ℕ) (f g h : ℕ → ℝ) :
    List.zipWith (· * ·) (List.zipWith (· * ·) (L.map f) (L.map g)) (L.map h) =
      L.map fun i => f i * g i * h i := by
  induction L with
  | nil => rfl
  | cons a L ih => simp [ih]

theorem zip2 (L : List ℕ) (f g : ℕ → ℝ) :
    List.zipWith (· * ·) (L.map f) (L.map g) = L.map fun i => f i * g i := by
  induction L with
  | nil => rfl
  | cons a L ih => simp [ih]

/-- C86: after any sequence of calls the returned energy is the average of the energies of the last
`K` calls, with weights `total weight × correction`. -/
theorem c86_value (K T : ℕ) (a : ℕ → Call) (n : ℕ) :
    Calc.result K T a n =
      (∑ i ∈ window K n, (a i).weight * correction T a i * (a i).energy) /
        ∑ i ∈ window K n, (a i).weight * correction T a i := by
  unfold Calc.result
  rw [before_eq]
  unfold Calc.run
  simp only [push_window K n fun i => (a i).energy, push_window K n fun i => (a i).weight,
    push_window T n fun i => (a i).offset, sum_Ico]
  rw [show push K ((List.Ico (n - K) n).map (corrLog T a))
    (-(a n).timeStep * ∑ i ∈ Finset.Ico (n + 1 - T) (n + 1), (a i).offset) = _ from
    push_window K n (corrLog T a)]
  generalize listMax _ = m
  rw [List.map_map, zip3, zip2, sum_Ico, sum_Ico]
  have e : ∀ i, ((fun l => Real.exp (l - m)) ∘ corrLog T a) i = Real.exp (-m) * correction T a i := by
    intro i
    simp only [Function.comp, correction, corrLog]
    rw [← Real.exp_add]
    congr 1
    ring
  simp only [e]
  unfold window
  rw [show (∑ i ∈ Finset.Ico (n + 1 - K) (n + 1),
      (a i).energy * (Real.exp (-m) * correction T a i) * (a i).weight) = Real.exp (-m) *
        ∑ i ∈ Finset.Ico (n + 1 - K) (n + 1), (a i).weight * correction T a i * (a i).energy by
    rw [Finset.mul_sum]; exact Finset.sum_congr rfl fun i _ => by ring]
  rw [show (∑ i ∈ Finset.Ico (n + 1 - K) (n + 1),
      (a i).weight * (Real.exp (-m) * correction T a i)) = Real.exp (-m) *
        ∑ i ∈ Finset.Ico (n + 1 - K) (n + 1), (a i).weight * correction T a i by
    rw [Finset.mul_sum]; exact Finset.sum_congr rfl fun i _ => by ring]
  rw [mul_div_mul_left _ _ (Real.exp_pos _).ne']

/-- C86: with a window of at least one call and positive total weights, the returned energy lies
between the smallest and the largest energy of the window. -/
theorem c86_between (K T : ℕ) (hK : 0 < K) (a : ℕ → Call) (n : ℕ) (lo hi : ℝ)
    (hw : ∀ i ∈ window K n, 0 < (a i).weight)
    (hE : ∀ i ∈ window K n, lo ≤ (a i).energy ∧ (a i).energy ≤ hi) :
    lo ≤ Calc.result K T a n ∧ Calc.result K T a n ≤ hi := by
  rw [c86_value]
  have pos : ∀ i ∈ window K n, 0 < (a i).weight * correction T a i := fun i hi =>
    mul_pos (hw i hi) (Real.exp_pos _)
  have ne : (window K n).Nonempty := ⟨n, by simp [window]; omega⟩
  have D := Finset.sum_pos pos ne
  constructor
  · rw [le_div_iff₀ D, Finset.mul_sum]
    refine Finset.sum_le_sum fun i hi => ?_
    rw [mul_comm]
    exact mul_le_mul_of_nonneg_left (hE i hi).1 (pos i hi).le
  · rw [div_le_iff₀ D, Finset.mul_sum]
    refine Finset.sum_le_sum fun i h' => ?_
    rw [mul_comm hi]
    exact mul_le_mul_of_nonneg_left (hE i h').2 (pos i h').le

/-- C86: with equal offsets and time steps, and `T` offsets behind every call of the window, the
corrections drop out: the result is the weighted mean of the energies of the window. -/
theorem c86_constant_offset (K T : ℕ) (a : ℕ → Call) (n : ℕ) (o t : ℝ)
    (h : ∀ i, (a i).offset = o ∧ (a i).timeStep = t) (hT : ∀ i ∈ window K n, T ≤ i + 1) :
    Calc.result K T a n =
      (∑ i ∈ window K n, (a i).weight * (a i).energy) / ∑ i ∈ window K n, (a i).weight := by
  rw [c86_value]
  have c : ∀ i ∈ window K n, correction T a i = Real.exp (-t * (T * o)) := by
    intro i hi
    unfold correction
    simp only [(h _).1, (h _).2, Finset.sum_const, Nat.card_Ico, nsmul_eq_mul]
    rw [show i + 1 - (i + 1 - T) = T by have := hT i hi; omega]
  rw [Finset.sum_congr rfl fun i hi => by rw [c i hi],
    Finset.sum_congr (f := fun i => (a i).weight * correction T a i) rfl fun i hi => by rw [c i hi]]
  rw [show (∑ i ∈ window K n, (a i).weight * Real.exp (-t * (T * o)) * (a i).energy) =
    Real.exp (-t * (T * o)) * ∑ i ∈ window K n, (a i).weight * (a i).energy by
      rw [Finset.mul_sum]; exact Finset.sum_congr rfl fun i _ => by ring,
    ← Finset.sum_mul, mul_comm _ (Real.exp _), mul_div_mul_left _ _ (Real.exp_pos _).ne']

/-- The hypotheses are met by three calls with a window of two. -/
example : ∃ a : ℕ → Call, (∀ i ∈ window 2 2, 0 < (a i).weight) ∧
    (∀ i ∈ window 2 2, (0 : ℝ) ≤ (a i).energy ∧ (a i).energy ≤ 2) ∧ window 2 2 = {1, 2} :=
  ⟨fun i => ⟨i, i, 1, 1⟩, fun _ _ => by norm_num, fun i hi => by
    simp only [window, Finset.mem_Ico] at hi
    have : (i : ℝ) ≤ 2 := by exact_mod_cast (show i ≤ 2 by omega)
    exact ⟨Nat.cast_nonneg i, this⟩, rfl⟩

/-! ### C87: the effective time step -/

theorem wsum_append (h : List (List Walk)) (l : List Walk) (x : Walk → ℝ) :
    wsum (h ++ [l]) x = wsum h x + (l.map fun e => e.weight * x e).sum := by
  simp [wsum, walks]

theorem update_inv (h : List (List Walk)) (hp : ∀ l ∈ h, 0 < (l.map Walk.weight).sum) :
    (h.foldl TStep.update TStep.init).total = wsum h (fun _ => 1) ∧
    0 ≤ (h.foldl TStep.update TStep.init).total ∧
    (h ≠ [] → 0 < (h.foldl TStep.update TStep.init).total) ∧
    (h.foldl TStep.update TStep.init).total * (h.foldl TStep.update TStep.init).den =
      wsum h (fun e => e.dist ^ 2) ∧
    (h.foldl TStep.update TStep.init).total * (h.foldl TStep.update TStep.init).num =
      wsum h (fun e => e.rate * e.dist ^ 2) := by
  induction h using List.reverseRecOn with
  | nil => simp [TStep.init, wsum, walks]
  | append_singleton h l ih =>
    obtain ⟨i1, i2, -, i3, i4⟩ := ih fun l hl => hp l (by simp [hl])
    have np := hp l (by simp)
    simp only [List.foldl_append, List.foldl_cons, List.foldl_nil, wsum_append]
    set s := h.foldl TStep.update TStep.init
    have tp : 0 < s.total + (l.map Walk.weight).sum := by linarith
    unfold TStep.update aggMean
    simp only [mul_one]
    refine ⟨by rw [i1], tp.le, fun _ => tp, ?_, ?_⟩
    · rw [← i3]
      simp only [mul_comm _ (Walk.weight _)]
      field_simp
    · rw [← i4]
      simp only [mul_comm _ (Walk.weight _)]
      field_simp

theorem expLog {a b : ℝ} (ha : 0 < a) (hb : 0 < b) : Real.exp (Real.log a - Real.log b) = a / b := by
  rw [Real.exp_sub, Real.exp_log ha, Real.exp_log hb]

/-- C87: after any sequence of updates the effective time step is the time step times the ratio of
the accepted to the proposed mean square displacement over all walkers of all updates. -/
theorem c87_value (timeStep : ℝ) (h : List (List Walk))
    (hp : ∀ l ∈ h, 0 < (l.map Walk.weight).sum)
    (hw : ∀ l ∈ h, ∀ e ∈ l, 0 ≤ e.weight ∧ 0 ≤ e.rate)
    (hd : 0 < wsum h (fun e => e.dist ^ 2)) :
    (h.foldl TStep.update TStep.init).run timeStep =
      timeStep * wsum h (fun e => e.rate * e.dist ^ 2) / wsum h (fun e => e.dist ^ 2) := by
  obtain ⟨-, -, tp, i3, i4⟩ := update_inv h hp
  set s := h.foldl TStep.update TStep.init
  have ne : h ≠ [] := by
    rintro rfl
    simp [wsum, walks] at hd
  have tp := tp ne
  have dp : 0 < s.den := by
    rw [← i3] at hd
    exact (mul_pos_iff_of_pos_left tp).mp hd
  have nn : 0 ≤ wsum h (fun e => e.rate * e.dist ^ 2) := by
    unfold wsum
    refine List.sum_nonneg fun x hx => ?_
    simp only [List.mem_map, walks, List.mem_flatten] at hx
    obtain ⟨e, ⟨l, hl, he⟩, rfl⟩ := hx
    have := hw l hl e he
    exact mul_nonneg this.1 (mul_nonneg this.2 (sq_nonneg _))
  have np : 0 ≤ s.num := by
    rw [← i4] at nn
    exact (mul_nonneg_iff_of_pos_left tp).mp nn
  unfold TStep.run
  rw [if_neg (by rintro (c | c) <;> linarith)]
  rw [← i3, ← i4, mul_div_assoc, mul_div_mul_left _ _ tp.ne']
  congr 1
  split
  · rename_i c; rw [c, zero_div]
  · rename_i c
    exact expLog (lt_of_le_of_ne np (Ne.symm c)) dp

/-- C87: with acceptance rates in [0, 1] it lies between zero and the time step; before any update,
or when nothing was proposed, it is the time step. -/
theorem c87_bounds (timeStep : ℝ) (ht : 0 ≤ timeStep) (h : List (List Walk))
    (hp : ∀ l ∈ h, 0 < (l.map Walk.weight).sum)
    (hw : ∀ l ∈ h, ∀ e ∈ l, 0 ≤ e.weight ∧ 0 ≤ e.rate ∧ e.rate ≤ 1) :
    0 ≤ (h.foldl TStep.update TStep.init).run timeStep ∧
    (h.foldl TStep.update TStep.init).run timeStep ≤ timeStep ∧
    (wsum h (fun e => e.dist ^ 2) = 0 →
      (h.foldl TStep.update TStep.init).run timeStep = timeStep) := by
  have dn : 0 ≤ wsum h (fun e => e.dist ^ 2) := by
    unfold wsum
    refine List.sum_nonneg fun x hx => ?_
    simp only [List.mem_map, walks, List.mem_flatten] at hx
    obtain ⟨e, ⟨l, hl, he⟩, rfl⟩ := hx
    exact mul_nonneg (hw l hl e he).1 (sq_nonneg _)
  rcases eq_or_lt_of_le dn with z | z
  · have : (h.foldl TStep.update TStep.init).run timeStep = timeStep := by
      obtain ⟨-, t0, -, i3, -⟩ := update_inv h hp
      rw [← z] at i3
      unfold TStep.run
      rw [if_pos (mul_eq_zero.mp i3)]
    rw [this]
    exact ⟨ht, le_refl _, fun _ => rfl⟩
  · rw [c87_value timeStep h hp (fun l hl e he => ⟨(hw l hl e he).1, (hw l hl e he).2.1⟩) z]
    have nn : 0 ≤ wsum h (fun e => e.rate * e.dist ^ 2) := by
      unfold wsum
      refine List.sum_nonneg fun x hx => ?_
      simp only [List.mem_map, walks, List.mem_flatten] at hx
      obtain ⟨e, ⟨l, hl, he⟩, rfl⟩ := hx
      have := hw l hl e he
      exact mul_nonneg this.1 (mul_nonneg this.2.1 (sq_nonneg _))
    have le : wsum h (fun e => e.rate * e.dist ^ 2) ≤ wsum h (fun e => e.dist ^ 2) := by
      unfold wsum
      refine List.sum_le_sum fun e he => ?_
      simp only [walks, List.mem_flatten] at he
      obtain ⟨l, hl, he⟩ := he
      have := hw l hl e he
      exact mul_le_mul_of_nonneg_left (mul_le_of_le_one_left (sq_nonneg _) this.2.2) this.1
    refine ⟨div_nonneg (mul_nonneg ht nn) dn, ?_, fun c => absurd c z.ne'⟩
    rw [mul_div_assoc]
    exact mul_le_of_le_one_right ht ((div_le_one z).mpr le)

/-- C87, electron-by-electron moves: the effective time step is the weighted mean of the walkers'
effective time steps over all updates. -/
theorem c87_ebye (timeStep : ℝ) (ht : 0 < timeStep) (h : List (List EWalk))
    (hp : 0 < (h.flatten.map EWalk.weight).sum)
    (hw : ∀ e ∈ h.flatten, 0 ≤ e.weight ∧ 0 ≤ e.step) :
    (h.foldl (TStep.updateEbye timeStep) TStep.init).run timeStep =
      (h.flatten.map fun e => e.step * e.weight).sum / (h.flatten.map EWalk.weight).sum := by
  have inv : ∀ h : List (List EWalk), h ≠ [] →
      h.foldl (TStep.updateEbye timeStep) TStep.init =
      ⟨(h.flatten.map EWalk.weight).sum, (h.flatten.map EWalk.weight).sum * timeStep,
        (h.flatten.map fun e => e.step * e.weight).sum⟩ := by
    intro h
    induction h using List.reverseRecOn with
    | nil => intro c; exact absurd rfl c
    | append_singleton h l ih =>
      intro _
      rcases eq_or_ne h [] with rfl | hn
      · simp [TStep.updateEbye, TStep.init]
      · rw [List.foldl_append, ih hn]
        simp [TStep.updateEbye]
  have ne : h ≠ [] := by rintro rfl; simp at hp
  rw [inv h ne]
  have nn : 0 ≤ (h.flatten.map fun e => e.step * e.weight).sum := by
    refine List.sum_nonneg fun x hx => ?_
    simp only [List.mem_map] at hx
    obtain ⟨e, he, rfl⟩ := hx
    exact mul_nonneg (hw e he).2 (hw e he).1
  unfold TStep.run
  simp only
  rw [if_neg (by
    rintro (c | c)
    · exact hp.ne' c
    · exact (mul_pos hp ht).ne' c)]
  split
  · rename_i c; rw [c]; simp
  · rename_i c
    rw [expLog (lt_of_le_of_ne nn (Ne.symm c)) (mul_pos hp ht)]
    field_simp

/-- The hypotheses are met by two updates. -/
example : ∃ h : List (List Walk), (∀ l ∈ h, 0 < (l.map Walk.weight).sum) ∧
    (∀ l ∈ h, ∀ e ∈ l, 0 ≤ e.weight ∧ 0 ≤ e.rate ∧ e.rate ≤ 1) ∧
    0 < wsum h (fun e => e.dist ^ 2) ∧ (h.foldl TStep.update TStep.init).run 1 = 1 / 5 := by
  have a : ∀ l ∈ [[⟨1, 1, 1⟩], [⟨1, 2, 0⟩]], 0 < (l.map Walk.weight).sum := by
    intro l hl; simp at hl; rcases hl with rfl | rfl <;> norm_num
  have b : ∀ l ∈ [[(⟨1, 1, 1⟩ : Walk)], [⟨1, 2, 0⟩]], ∀ e ∈ l, 0 ≤ e.weight ∧ 0 ≤ e.rate ∧ e.rate ≤ 1 := by
    intro l hl e he; simp at hl; rcases hl with rfl | rfl <;> simp at he <;> subst he <;> norm_num
  have c : 0 < wsum [[⟨1, 1, 1⟩], [⟨1, 2, 0⟩]] (fun e => e.dist ^ 2) := by
    norm_num [wsum, walks]
  refine ⟨_, a, b, c, ?_⟩
  rw [c87_value 1 _ a (fun l hl e he => ⟨(b l hl e he).1, (b l hl e he).2.1⟩) c]
  norm_num [wsum, walks]

end Jaqmc.DmcEnergy.Props
