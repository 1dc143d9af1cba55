import Verif.Spec.LegacyLoss
import Verif.Lemmas.LossGrad
import Mathlib.Tactic.Linarith
import Mathlib.Tactic.FieldSimp
/-! C102, C103: energy and energy gradient of `jaqmc_legacy.loss.vmc`. -/
namespace Jaqmc.LegacyLoss.Props
open Jaqmc.LegacyLoss Jaqmc.LegacyLoss.Spec Jaqmc.Stats.Spec Jaqmc.LossGrad

attribute [local instance] Classical.propDecidable

/-- The values the mask keeps. -/
def live (x : List (List (ℝ × Bool))) : List ℝ := (x.flatten.filter (·.2)).map (·.1)

theorem sum_mask (l : List (ℝ × Bool)) : (l.map fun p => p.1 * (if p.2 then 1 else 0 : ℝ)).sum = ((l.filter (·.2)).map (·.1)).sum := by
  induction l with
  | nil => rfl
  | cons p l ih => obtain ⟨v, b⟩ := p; cases b <;> simp_all

theorem count_mask (l : List (ℝ × Bool)) : (l.map fun p => (if p.2 then 1 else 0 : ℝ)).sum = ((l.filter (·.2)).length : ℝ) := by
  induction l with
  | nil => simp
  | cons p l ih => obtain ⟨v, b⟩ := p; cases b <;> simp_all <;> ring

theorem sum_flatten_map {A : Type} (f : A → ℝ) (x : List (List A)) : (x.map fun s => (s.map f).sum).sum = (x.flatten.map f).sum := by
  induction x with
  | nil => rfl
  | cons s x ih => simp [ih]

theorem pmean_eq (x : List (List (ℝ × Bool))) : pmeanMask x = meanOrNan (live x) := by
  have h1 := sum_flatten_map (fun p : ℝ × Bool => p.1 * (if p.2 then 1 else 0 : ℝ)) x
  have h2 := sum_flatten_map (fun p : ℝ × Bool => (if p.2 then 1 else 0 : ℝ)) x
  unfold pmeanMask meanOrNan
  dsimp only
  rw [h1, h2, sum_mask, count_mask]
  simp only [live, globalMean, List.length_map, List.map_eq_nil_iff]
  by_cases h : x.flatten.filter (·.2) = []
  · simp [h]
  · have : ((x.flatten.filter (·.2)).length : ℝ) ≠ 0 := by
      rw [Nat.cast_ne_zero]; exact fun h0 => h (List.length_eq_zero_iff.1 h0)
    rw [if_neg this, if_neg h]

theorem live_onValues (f : ℝ → ℝ) (x : List (List (ℝ × Bool))) : live (onValues f x) = (live x).map f := by
  unfold live onValues
  rw [← List.map_flatten, List.filter_map]
  simp [Function.comp_def]

theorem live_finite (big : ℝ) (els : List (List F)) : live (finiteMask big els) = finite els.flatten := by
  unfold live finiteMask finite
  rw [← List.map_flatten]
  induction els.flatten with
  | nil => rfl
  | cons e l ih => cases e <;> simp_all [F.isFinite, F.nanToNum]

theorem meanOrNan_map (f : ℝ → ℝ) (l : List ℝ) (h : l ≠ []) : meanOrNan (l.map f) = some (globalMean (l.map f)) := by
  simp [meanOrNan, h]

theorem live_vmcMask (rm : Bool) (width : ℝ) (x : List (List (ℝ × Bool))) : live (vmcMask rm width x) = kept rm width (live x) := by
  unfold vmcMask kept
  by_cases hr : rm ∧ width > 0
  · rw [if_pos hr, if_pos hr, pmean_eq]
    by_cases h0 : live x = []
    · simp only [meanOrNan, h0, if_true, List.filter_nil]
      simp [live, ← List.map_flatten, List.filter_map, Function.comp_def]
    · simp only [meanOrNan, if_neg h0]
      rw [pmean_eq, live_onValues, meanOrNan_map _ _ h0]
      dsimp only
      change live (x.map (List.map _)) = _
      have hd : globalMean ((live x).map fun e => |e - globalMean (live x)|) = absDev (live x) := rfl
      rw [hd]
      generalize hm : globalMean (live x) = m
      generalize hdd : absDev (live x) = d
      have hN : ∀ y, Near width (live x) y ↔ (m - width * d < y ∧ m + width * d > y) := by
        intro y; unfold Near; rw [hm, hdd, abs_lt]; constructor <;> rintro ⟨h1, h2⟩ <;> constructor <;> linarith
      simp only [hN]
      unfold live
      rw [← List.map_flatten]
      induction x.flatten with
      | nil => rfl
      | cons p l ih =>
        obtain ⟨v, b⟩ := p
        cases b
        · simpa using ih
        · by_cases h1 : m - width * d < v <;> by_cases h2 : m + width * d > v <;> simp_all
  · rw [if_neg hr, if_neg hr]

theorem live_total (big : ℝ) (rm : Bool) (width : ℝ) (els : List (List F)) :
    live (totalEnergy big rm width els).masked = kept rm width (finite els.flatten) := by
  unfold totalEnergy
  dsimp only
  rw [live_vmcMask, live_finite]

/-- C102: loss and variance are mean and variance, over all walkers of all devices, of the local energies that are real numbers and,
if outliers are removed, lie near the mean; NaN exactly if none is left. What infinities are replaced by does not matter. -/
theorem c102_loss (big : ℝ) (rm : Bool) (width : ℝ) (els : List (List F)) :
    (totalEnergy big rm width els).loss = meanOrNan (kept rm width (finite els.flatten)) ∧
    (totalEnergy big rm width els).variance =
      if kept rm width (finite els.flatten) = [] then none else some (globalVar (kept rm width (finite els.flatten))) := by
  have hl : (totalEnergy big rm width els).loss = meanOrNan (kept rm width (finite els.flatten)) := by
    rw [← live_total big rm width els, ← pmean_eq]; rfl
  refine ⟨hl, ?_⟩
  have hv : (totalEnergy big rm width els).variance = (totalEnergy big rm width els).loss.bind fun l =>
      pmeanMask (onValues (fun e => (e - l) ^ 2) (totalEnergy big rm width els).masked) := rfl
  rw [hv, hl]
  unfold meanOrNan
  split
  · rfl
  · rename_i h
    rw [Option.bind_some, pmean_eq, live_onValues, live_total, meanOrNan_map _ _ h]
    simp [globalMean, globalVar]

/-- Nothing is lost or invented on the way: the mean of a permuted or differently distributed batch is the same. -/
theorem finite_perm {xs ys : List F} (h : xs.Perm ys) : (finite xs).Perm (finite ys) := h.filterMap _

theorem mean_perm {xs ys : List ℝ} (h : xs.Perm ys) : globalMean xs = globalMean ys := by
  unfold globalMean; rw [h.sum_eq, h.length_eq]

theorem kept_perm (rm : Bool) (width : ℝ) {xs ys : List ℝ} (h : xs.Perm ys) : (kept rm width xs).Perm (kept rm width ys) := by
  unfold kept
  split
  · have hN : ∀ x, Near width xs x ↔ Near width ys x := by
      intro x
      unfold Near absDev
      rw [mean_perm h, mean_perm (h.map _)]
    have he : (fun x => decide (Near width xs x)) = fun x => decide (Near width ys x) := by funext x; exact decide_eq_decide.2 (hN x)
    rw [he]
    exact h.filter _
  · exact h

/-- C102: the loss and the variance do not depend on how the walkers are distributed over the devices, nor on their order. -/
theorem c102_distribution (big big' : ℝ) (rm : Bool) (width : ℝ) (els els' : List (List F)) (h : els.flatten.Perm els'.flatten) :
    (totalEnergy big rm width els).loss = (totalEnergy big' rm width els').loss ∧
    (totalEnergy big rm width els).variance = (totalEnergy big' rm width els').variance := by
  have hk := kept_perm rm width (finite_perm h)
  rw [(c102_loss big rm width els).1, (c102_loss big rm width els).2, (c102_loss big' rm width els').1, (c102_loss big' rm width els').2]
  have he : kept rm width (finite els.flatten) = [] ↔ kept rm width (finite els'.flatten) = [] :=
    ⟨fun h0 => List.perm_nil.1 (h0 ▸ hk.symm), fun h0 => List.perm_nil.1 (h0 ▸ hk)⟩
  unfold meanOrNan globalVar
  simp only [he, mean_perm hk, hk.length_eq, (hk.map fun x => (x - globalMean (kept rm width (finite els'.flatten))) ^ 2).sum_eq]
  exact ⟨trivial, trivial⟩

/-- C102: if all energies are equal real numbers - the wavefunction is an exact eigenfunction - and outliers are removed, nothing is
left: the reported energy is NaN. -/
theorem c102_eigenfunction_nan (big width E : ℝ) (hw : width > 0) (els : List (List F)) (h : ∀ e ∈ els.flatten, e = .num E) :
    (totalEnergy big true width els).loss = none := by
  rw [(c102_loss big true width els).1]
  have hf : ∀ x ∈ finite els.flatten, x = E := by
    intro x hx
    obtain ⟨e, he, hx⟩ := List.mem_filterMap.1 hx
    rw [h e he] at hx
    simpa using hx.symm
  obtain ⟨n, hn⟩ : ∃ n, finite els.flatten = List.replicate n E := ⟨_, List.eq_replicate_iff.2 ⟨rfl, hf⟩⟩
  have hk : kept true width (finite els.flatten) = [] := by
    rw [hn]
    unfold kept
    rw [if_pos ⟨rfl, hw⟩, List.filter_eq_nil_iff]
    intro x hx
    rw [List.eq_of_mem_replicate hx]
    rcases Nat.eq_zero_or_pos n with h0 | h0
    · subst h0; simp at hx
    · have hn0 : (n : ℝ) ≠ 0 := by exact_mod_cast h0.ne'
      have hm : globalMean (List.replicate n E) = E := by simp [globalMean, hn0]
      simp [Near, absDev, hm]
      simp [globalMean]
  simp [meanOrNan, hk]

/-- C102: with outliers removed at a width above one, something is left exactly if the finite energies are not all equal. -/
theorem c102_outliers_left (big width : ℝ) (hw : width > 1) (els : List (List F)) :
    (totalEnergy big true width els).loss ≠ none ↔ ∃ x ∈ finite els.flatten, ∃ y ∈ finite els.flatten, x ≠ y := by
  rw [(c102_loss big true width els).1]
  have hw0 : width > 0 := by linarith
  generalize finite els.flatten = xs
  have hk : kept true width xs = xs.filter (fun x => decide (Near width xs x)) := by unfold kept; rw [if_pos ⟨rfl, hw0⟩]
  rw [hk]
  unfold meanOrNan
  constructor
  · intro h
    have hne : xs.filter (fun x => decide (Near width xs x)) ≠ [] := by intro h0; rw [h0] at h; simp at h
    obtain ⟨x, hx⟩ := List.exists_mem_of_ne_nil _ hne
    rw [List.mem_filter] at hx
    by_contra hall
    push Not at hall
    have heq : ∀ y ∈ xs, y = x := fun y hy => (hall x hx.1 y hy).symm
    obtain ⟨n, hn⟩ : ∃ n, xs = List.replicate n x := ⟨_, List.eq_replicate_iff.2 ⟨rfl, heq⟩⟩
    have h0 : 0 < n := by
      rcases Nat.eq_zero_or_pos n with h0 | h0
      · subst h0; rw [hn] at hx; simp at hx
      · exact h0
    have hn0 : (n : ℝ) ≠ 0 := by exact_mod_cast h0.ne'
    have hm : globalMean xs = x := by rw [hn]; simp [globalMean, hn0]
    have hN := hx.2
    simp only [Near, absDev, hm] at hN
    rw [hn] at hN
    simp [globalMean] at hN
  · rintro ⟨x, hx, y, hy, hxy⟩
    intro h
    have hnil : xs.filter (fun x => decide (Near width xs x)) = [] := by
      by_contra h0; rw [if_neg h0] at h; exact absurd h (by simp)
    rw [List.filter_eq_nil_iff] at hnil
    have hfar : ∀ z ∈ xs, width * absDev xs ≤ |z - globalMean xs| := by
      intro z hz
      have := hnil z hz
      rw [decide_eq_true_eq] at this
      exact not_lt.1 this
    have hlen : 0 < (xs.length : ℝ) := by exact_mod_cast List.length_pos_of_mem hx
    -- the deviation is positive
    have hpos : 0 < absDev xs := by
      have hnn : 0 ≤ absDev xs := by
        unfold absDev globalMean
        refine div_nonneg (List.sum_nonneg ?_) (by simp)
        intro a ha
        obtain ⟨b, _, rfl⟩ := List.mem_map.1 ha
        exact abs_nonneg _
      rcases hnn.lt_or_eq with h | h
      · exact h
      · exfalso
        have hs : (xs.map fun z => |z - globalMean xs|).sum = 0 := by
          have : absDev xs = (xs.map fun z => |z - globalMean xs|).sum / xs.length := by simp [absDev, globalMean]
          rw [this] at h
          field_simp at h
          linarith
        have hz : ∀ z ∈ xs, |z - globalMean xs| = 0 := by
          intro z hz
          have hle := List.single_le_sum (l := xs.map fun z => |z - globalMean xs|)
            (by intro a ha; obtain ⟨b, _, rfl⟩ := List.mem_map.1 ha; exact abs_nonneg _) _ (List.mem_map_of_mem hz)
          exact le_antisymm (hs ▸ hle) (abs_nonneg _)
        have h1 := abs_eq_zero.1 (hz x hx)
        have h2 := abs_eq_zero.1 (hz y hy)
        exact hxy (by linarith)
    -- the mean of numbers at least width * d is at least that
    have hle : width * absDev xs ≤ absDev xs := by
      have hb : ∀ a ∈ xs.map (fun z => |z - globalMean xs|), width * absDev xs ≤ a := by
        intro a ha; obtain ⟨b, hb, rfl⟩ := List.mem_map.1 ha; exact hfar b hb
      have hsum := List.card_nsmul_le_sum _ _ hb
      rw [List.length_map, nsmul_eq_mul] at hsum
      have : absDev xs = (xs.map fun z => |z - globalMean xs|).sum / xs.length := by simp [absDev, globalMean]
      conv_rhs => rw [this]
      rw [le_div_iff₀ hlen]
      linarith
    nlinarith

theorem range_pieces {A : Type} (xs : List A) (m k : ℕ) (h : xs.length = k * m) :
    ((List.range k).map fun i => (xs.drop (i * m)).take m).flatten = xs := by
  induction k generalizing xs with
  | zero => simp at h; simp [h]
  | succ k ih =>
    rw [List.range_succ_eq_map]
    simp only [List.map_cons, List.map_map, List.flatten_cons, Function.comp_def, zero_mul, List.drop_zero]
    have h2 : (xs.drop m).length = k * m := by rw [List.length_drop, h, Nat.succ_mul]; omega
    have h3 := ih (xs.drop m) h2
    simp only [List.drop_drop] at h3
    have : (fun i => (xs.drop ((i + 1) * m)).take m) = fun i => (xs.drop (m + i * m)).take m := by
      funext i; congr 2; ring
    simp only [Nat.succ_eq_add_one, this]
    rw [h3, List.take_append_drop]

theorem zip_pieces {A B C : Type} (f : A → B → C) (xs : List A) (ys : List B) (hl : xs.length = ys.length) (m k : ℕ) (h : xs.length = k * m) :
    (List.zipWith (List.zipWith f) ((List.range k).map fun i => (xs.drop (i * m)).take m)
      ((List.range k).map fun i => (ys.drop (i * m)).take m)).flatten = List.zipWith f xs ys := by
  rw [List.zipWith_map, List.zipWith_self]
  have : ∀ i, List.zipWith f ((xs.drop (i * m)).take m) ((ys.drop (i * m)).take m) = ((List.zipWith f xs ys).drop (i * m)).take m := by
    intro i; rw [List.drop_zipWith, List.take_zipWith]
  simp only [this]
  exact range_pieces _ m k (by rw [List.length_zipWith, hl, Nat.min_self, ← hl, h])

/-- C102: evaluating the local energies in pieces gives the same energies, with the same key for each walker; it fails exactly if the
number of walkers is not divisible by the number of pieces. -/
theorem c102_partition {K W : Type} (el : K → W → F) (k : ℕ) (keys : List K) (data : List W) (hl : keys.length = data.length) :
    localEnergies el k keys data = if k ≤ 1 ∨ data.length % k = 0 then some (List.zipWith el keys data) else none := by
  unfold localEnergies reshapeParts batchLocalEnergy
  by_cases hk : k > 1
  · have hk0 : k ≠ 0 := by omega
    have hk1 : ¬ k ≤ 1 := by omega
    by_cases hd : data.length % k = 0
    · have hm : data.length = k * (data.length / k) := (Nat.mul_div_cancel' (Nat.dvd_of_mod_eq_zero hd)).symm
      simp only [hk, if_true, hl, hk0, hd, ne_eq, not_false_eq_true, and_self, or_true]
      simp only [Option.bind_eq_bind, Option.bind_some, Option.pure_def, Option.some.injEq]
      exact zip_pieces el keys data hl _ k (by rw [hl]; exact hm)
    · simp [hk, hl, hd, hk1]
  · have hk1 : k ≤ 1 := by omega
    simp [hk, hk1]

end Jaqmc.LegacyLoss.Props
