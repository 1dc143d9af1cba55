import Verif.Props.LegacyVmcGrad
import Verif.Props.LegacySpin
/-! C105: the estimate of the spin penalty. -/
namespace Jaqmc.LegacyLoss.Props
open Jaqmc.LegacyLoss Jaqmc.LegacyLoss.Spec Jaqmc.Stats.Spec Jaqmc.LossGrad

attribute [local instance] Classical.propDecidable

/-- C105: the mask is undefined - the call fails - exactly if outliers are to be removed and the settings describe no window: deviation
without a positive width, percentiles starting at 0 or ending at 100, or another schema. -/
theorem c105_unbound (big : ℝ) (rm : Bool) (schema : String) (width : ℝ) (bound : ℝ × ℝ) (vals : List (List F)) :
    localValueMask big rm schema width bound vals = .error .unboundLocal ↔
      rm = true ∧ ¬ (schema = "deviation" ∧ 0 < width) ∧ ¬ (schema = "percentile" ∧ bound.1 ≠ 0 ∧ bound.2 ≠ 100) := by
  unfold localValueMask
  dsimp only
  cases rm with
  | false => simp
  | true =>
    rw [if_pos rfl]
    by_cases h1 : schema = "deviation" ∧ width > 0
    · rw [if_pos h1]
      constructor
      · intro h
        exfalso
        revert h
        split
        · simp
        · split <;> simp
      · rintro ⟨_, h, _⟩; exact absurd h1 h
    · rw [if_neg h1]
      by_cases h2 : schema = "percentile" ∧ bound.1 ≠ 0 ∧ bound.2 ≠ 100
      · rw [if_pos h2]
        constructor
        · intro h
          exfalso
          revert h
          split <;> simp
        · rintro ⟨_, _, h⟩; exact absurd h2 h
      · rw [if_neg h2]
        exact ⟨fun _ => ⟨rfl, h1, h2⟩, fun _ => rfl⟩

/-- C105: without outlier removal, penalty, estimate and variance come from the local values that are real numbers, of all devices. -/
theorem c105_plain (big : ℝ) (cfg : SpinCfg) (hrm : cfg.rmOutlier = false) (nu nd : ℕ) (locals : List (List F)) :
    ∃ aux, spinPenalty big cfg nu nd locals = .ok aux ∧ aux.penalty = meanOrNan (finite locals.flatten) ∧
      aux.estimator = (meanOrNan (finite locals.flatten)).map (fun p => |(nu : ℝ) - nd| / 2 * (|(nu : ℝ) - nd| / 2 + 1) + p) ∧
      aux.variance = if finite locals.flatten = [] then none else some (globalVar (finite locals.flatten)) := by
  have hm : localValueMask big cfg.rmOutlier cfg.outlierSchema cfg.outlierWidth cfg.outlierBound locals = .ok (finiteMask big locals) := by
    rw [hrm]; rfl
  have hp : pmeanMask (finiteMask big locals) = meanOrNan (finite locals.flatten) := by rw [pmean_eq, live_finite]
  unfold spinPenalty
  rw [hm]
  refine ⟨_, rfl, hp, ?_, ?_⟩
  · dsimp only
    rw [hp]
    congr 1
    funext p
    ring
  · dsimp only
    rw [hp]
    unfold meanOrNan
    split
    · rfl
    · rename_i h
      rw [Option.bind_some, pmean_eq, live_onValues, live_finite, meanOrNan_map _ _ h]
      simp [globalMean, globalVar]

theorem pmeanMean_equal (v : List (List ℝ)) (n : ℕ) (hn : 0 < n) (hD : v ≠ []) (hlen : ∀ s ∈ v, s.length = n) :
    pmeanMean v = some (globalMean v.flatten) := by
  unfold pmeanMean
  rw [if_neg]
  · congr 1
    have h1 : (v.map fun s => s.sum / (s.length : ℝ)) = v.map fun s => s.sum * (n : ℝ)⁻¹ := by
      refine List.map_congr_left fun s hs => ?_; rw [hlen s hs, div_eq_mul_inv]
    have h2 : v.flatten.length = v.length * n := by
      rw [List.length_flatten]
      have : v.map List.length = List.replicate v.length n := by
        rw [List.eq_replicate_iff]; simpa using hlen
      rw [this]; simp
    have hD' : (v.length : ℝ) ≠ 0 := by rw [Nat.cast_ne_zero]; exact fun h' => hD (List.length_eq_zero_iff.1 h')
    have hn' : (n : ℝ) ≠ 0 := by exact_mod_cast hn.ne'
    rw [h1, List.sum_map_mul_right, globalMean, h2, List.sum_flatten]
    push_cast
    field_simp
  · rintro (h | h)
    · exact hD h
    · have := hlen [] h; simp at this; omega

/-- C105: with outliers removed by deviation, on devices of equal size, the local values that are real numbers count if they lie near the
mean of all values - where infinities and NaN enter as huge numbers and 0. -/
theorem c105_deviation (big width : ℝ) (hw : 0 < width) (bound : ℝ × ℝ) (vals : List (List F)) (n : ℕ) (hn : 0 < n) (hD : vals ≠ [])
    (hlen : ∀ s ∈ vals, s.length = n) :
    ∃ masked, localValueMask big true "deviation" width bound vals = .ok masked ∧
      live masked = (finite vals.flatten).filter fun x => decide (Near width (vals.flatten.map (F.nanToNum big)) x) := by
  have hv : (finiteMask big vals).map (List.map Prod.fst) = vals.map (List.map (F.nanToNum big)) := by
    unfold finiteMask; rw [List.map_map]; refine List.map_congr_left fun s _ => ?_; simp [Function.comp_def]
  have hm := pmeanMean_equal (vals.map (List.map (F.nanToNum big))) n hn (by simpa using hD) (by
    intro s hs; obtain ⟨s', hs', rfl⟩ := List.mem_map.1 hs; simpa using hlen s' hs')
  rw [← List.map_flatten] at hm
  set m := globalMean (vals.flatten.map (F.nanToNum big)) with hmdef
  have hd := pmeanMean_equal ((vals.map (List.map (F.nanToNum big))).map (List.map fun y => |y - m|)) n hn (by simpa using hD) (by
    intro s hs; obtain ⟨s', hs', rfl⟩ := List.mem_map.1 hs; obtain ⟨s'', hs'', rfl⟩ := List.mem_map.1 hs'; simpa using hlen s'' hs'')
  rw [← List.map_flatten, ← List.map_flatten] at hd
  have hd' : globalMean ((vals.flatten.map (F.nanToNum big)).map fun y => |y - m|) = absDev (vals.flatten.map (F.nanToNum big)) := rfl
  rw [hd'] at hd
  set d := absDev (vals.flatten.map (F.nanToNum big)) with hddef
  refine ⟨(finiteMask big vals).map (List.map fun p => (p.1, decide (m - width * d < p.1) && decide (m + width * d > p.1) && p.2)), ?_, ?_⟩
  · unfold localValueMask
    dsimp only
    rw [if_pos rfl, if_pos ⟨rfl, hw⟩, hv, hm]
    dsimp only
    rw [hd]
  · unfold live finiteMask finite Near
    rw [← List.map_flatten, ← List.map_flatten, ← hmdef, ← hddef]
    clear hm hd hd' hv hlen hD
    clear_value m d
    induction vals.flatten with
    | nil => rfl
    | cons e l ih =>
      cases e with
      | num x =>
        have hx : (|x - m| < width * d) ↔ (m - width * d < x ∧ m + width * d > x) := by
          rw [abs_lt]; constructor <;> rintro ⟨h1, h2⟩ <;> constructor <;> linarith
        by_cases h1 : m - width * d < x <;> by_cases h2 : m + width * d > x <;> simp_all [F.isFinite, F.nanToNum]
      | _ => simpa [F.isFinite, F.nanToNum] using ih

/-- The mean over the devices of equal numbers is that number. -/
theorem pmeanMean_const (v : List (List ℝ)) (c : ℝ) (h : ∀ x ∈ v.flatten, x = c) : pmeanMean v = none ∨ pmeanMean v = some c := by
  unfold pmeanMean
  by_cases h0 : v = [] ∨ [] ∈ v
  · left; rw [if_pos h0]
  · right
    rw [if_neg h0]
    push Not at h0
    congr 1
    have h1 : (v.map fun s => s.sum / (s.length : ℝ)) = List.replicate v.length c := by
      rw [List.eq_replicate_iff]
      refine ⟨by simp, fun x hx => ?_⟩
      obtain ⟨s, hs, rfl⟩ := List.mem_map.1 hx
      have hsc : s = List.replicate s.length c := List.eq_replicate_iff.2 ⟨rfl, fun y hy => h y (List.mem_flatten.2 ⟨s, hs, hy⟩)⟩
      have hsn : (s.length : ℝ) ≠ 0 := by
        rw [Nat.cast_ne_zero]; intro h'; exact h0.2 (List.length_eq_zero_iff.1 h' ▸ hs)
      rw [hsc]
      simp only [List.sum_replicate, List.length_replicate, nsmul_eq_mul]
      field_simp
    have hv : (v.length : ℝ) ≠ 0 := by rw [Nat.cast_ne_zero]; exact fun h' => h0.1 (List.length_eq_zero_iff.1 h')
    rw [h1]
    simp only [List.sum_replicate, nsmul_eq_mul]
    field_simp

theorem quantile_const' {q : ℝ} (h0 : 0 ≤ q) (h1 : q ≤ 1) (c : ℝ) (xs : List ℝ) (hc : ∀ x ∈ xs, x = c) :
    nanquantile q (xs.map some) = none ∨ nanquantile q (xs.map some) = some c := by
  rcases eq_or_ne xs [] with rfl | hne
  · left; simp [nanquantile]
  · right
    have hfm : (xs.map some).filterMap id = xs := by rw [List.filterMap_map]; exact List.filterMap_some
    have hq := nanquantile_eq q h0 h1 (xs.map some) (by rw [hfm]; exact hne)
    rw [hq]
    obtain ⟨s, hs1, hs2, i, t, a, b, ht0, ht1, _, ha, hb, hm⟩ := isQuantile_of hq h0 h1
    rw [hfm] at hs1
    have hcs : ∀ x ∈ s, x = c := fun x hx => hc x (hs1.mem_iff.1 hx)
    rw [hm]
    have hac := hcs a (List.mem_of_getElem? ha)
    by_cases ht : t = 0
    · rw [ht, hac]; simp
    · rw [hac, hcs b (List.mem_of_getElem? (hb ht))]; simp; ring

/-- C105: if all local values are one and the same real number - the wavefunction is an exact spin eigenfunction - outlier removal
leaves nothing, by deviation as well as by percentiles: estimate, penalty and gradient are NaN. -/
theorem c105_equal_nan (big : ℝ) (cfg : SpinCfg) (hrm : cfg.rmOutlier = true)
    (hs : (cfg.outlierSchema = "deviation" ∧ 0 < cfg.outlierWidth) ∨ (cfg.outlierSchema = "percentile" ∧ 0 < cfg.outlierBound.1 ∧
      cfg.outlierBound.1 ≤ 100 ∧ 0 ≤ cfg.outlierBound.2 ∧ cfg.outlierBound.2 < 100))
    (nu nd : ℕ) (P : ℝ) (locals logGrads localGrads : List (List F)) (hP : ∀ e ∈ locals.flatten, e = .num P) :
    ∃ aux, spinPenalty big cfg nu nd locals = .ok aux ∧ aux.estimator = none ∧ aux.penalty = none ∧
      spinGrad big cfg aux logGrads localGrads = none := by
  set v := (finiteMask big locals).map (List.map Prod.fst) with hvdef
  have hvflat : ∀ x ∈ v.flatten, x = P := by
    intro x hx
    rw [hvdef] at hx
    unfold finiteMask at hx
    rw [← List.map_flatten, ← List.map_flatten, List.map_map] at hx
    obtain ⟨e, he, rfl⟩ := List.mem_map.1 hx
    rw [hP e he]; rfl
  have hfst : ∀ s ∈ finiteMask big locals, ∀ p ∈ s, p.1 = P := by
    intro s hs p hp
    exact hvflat p.1 (List.mem_flatten.2 ⟨s.map Prod.fst, List.mem_map_of_mem hs, List.mem_map_of_mem hp⟩)
  obtain ⟨masked, hmask, hlive⟩ : ∃ masked, localValueMask big cfg.rmOutlier cfg.outlierSchema cfg.outlierWidth cfg.outlierBound locals =
      .ok masked ∧ live masked = [] := by
    have hnone : live ((finiteMask big locals).map (List.map fun p => (p.1, false))) = [] := by
      simp [live, ← List.map_flatten, List.filter_map, Function.comp_def]
    have hfalse : ∀ f : ℝ → Bool, f P = false → live ((finiteMask big locals).map (List.map fun p => (p.1, f p.1 && p.2))) = [] := by
      intro f hf
      have : (finiteMask big locals).map (List.map fun p => (p.1, f p.1 && p.2)) = (finiteMask big locals).map (List.map fun p => (p.1, false)) := by
        refine List.map_congr_left fun s hs => List.map_congr_left fun p hp => ?_
        rw [hfst s hs p hp, hf]; rfl
      rw [this, hnone]
    unfold localValueMask
    dsimp only
    rw [hrm, if_pos rfl, ← hvdef]
    rcases hs with ⟨h1, h2⟩ | ⟨h1, h2, h3, h4, h5⟩
    · rw [if_pos ⟨h1, h2⟩]
      rcases pmeanMean_const v P hvflat with h | h
      · rw [h]; exact ⟨_, rfl, hnone⟩
      · rw [h]
        dsimp only
        have hz : ∀ x ∈ (v.map (List.map fun y => |y - P|)).flatten, x = 0 := by
          intro x hx
          rw [← List.map_flatten] at hx
          obtain ⟨y, hy, rfl⟩ := List.mem_map.1 hx
          rw [hvflat y hy]; simp
        rcases pmeanMean_const _ 0 hz with h' | h'
        · rw [h']; exact ⟨_, rfl, hnone⟩
        · rw [h']
          refine ⟨_, rfl, ?_⟩
          exact hfalse (fun x => decide (P - cfg.outlierWidth * 0 < x) && decide (P + cfg.outlierWidth * 0 > x)) (by simp)
    · have hnd : ¬ (cfg.outlierSchema = "deviation" ∧ cfg.outlierWidth > 0) := by rw [h1]; rintro ⟨h, _⟩; exact absurd h (by decide)
      rw [if_neg hnd, if_pos ⟨h1, h2.ne', h5.ne⟩]
      unfold percentile
      rcases quantile_const' (q := cfg.outlierBound.1 / 100) (by positivity) (by linarith) P v.flatten hvflat with h | h
      · rw [h]; exact ⟨_, rfl, hnone⟩
      · rw [h]
        rcases quantile_const' (q := cfg.outlierBound.2 / 100) (by positivity) (by linarith) P v.flatten hvflat with h' | h'
        · rw [h']; exact ⟨_, rfl, hnone⟩
        · rw [h']
          refine ⟨_, rfl, ?_⟩
          exact hfalse (fun x => decide (x > P) && decide (x < P)) (by simp)
  have hpen : pmeanMask masked = none := by rw [pmean_eq, hlive]; rfl
  unfold spinPenalty
  rw [hmask]
  refine ⟨_, rfl, ?_, hpen, ?_⟩
  · dsimp only; rw [hpen]; rfl
  · unfold spinGrad
    dsimp only
    rw [hpen]
    simp only [Option.bind_eq_bind, Option.bind_none, Option.bind_fun_none]

open Jaqmc.SpinSquared Jaqmc.SpinSquared.Spec in
/-- C105: with the default settings of the outlier removal and the `square` schema, the spin estimate of an exact spin eigenfunction is
NaN, whatever the walkers (off the nodes) and the devices. -/
theorem c105_eigenfunction_nan {nu nd : ℕ} {X : Type} (big : ℝ) (Φ : State X (nu + nd)) (hΦ : Antisymmetric Φ)
    (wf : (Fin (nu + nd) → X) → ℝ × ℝ) (hwf : ∀ r, ((value wf r : ℝ) : ℂ) = Φ r (upFirst nu nd)) (S : ℝ)
    (hS : ∀ r s, spinSquared Φ r s = (S * (S + 1) : ℝ) * Φ r s) (shards : List (List (Fin (nu + nd) → X)))
    (hsign : ∀ r ∈ shards.flatten, |(wf r).1| = 1) :
    ∃ aux, spinPenalty big defaultSpinCfg nu nd (shards.map (List.map fun r => .num (fullPermute wf r))) = .ok aux ∧ aux.estimator = none := by
  obtain ⟨aux, h1, h2, _⟩ := c105_equal_nan big defaultSpinCfg rfl (Or.inl ⟨rfl, by norm_num [defaultSpinCfg]⟩) nu nd
    (S * (S + 1) - |(nu : ℝ) - nd| * 0.5 * (|(nu : ℝ) - nd| * 0.5 + 1)) (shards.map (List.map fun r => .num (fullPermute wf r))) [] [] (by
      intro e he
      rw [← List.map_flatten] at he
      obtain ⟨r, hr, rfl⟩ := List.mem_map.1 he
      have h := c104_eigenfunction Φ hΦ wf hwf S hS r (hsign r hr)
      unfold spinSquare at h
      dsimp only at h
      rw [← h]
      congr 1
      ring)
  exact ⟨aux, h1, h2⟩

/-- C105: the documentation says the step is updated by the penalty; it is returned as it came, so feeding the state back always
exchanges the same electron. -/
theorem c105_step_unchanged (big : ℝ) (cfg : SpinCfg) (withGrad : Option Bool) (nu nd step : ℕ) (locals logGrads localGrads : List (List F))
    (out : ℝ × ℕ × SpinAux × Option ℝ) (h : spinLoss big cfg withGrad nu nd step locals logGrads localGrads = .ok out) :
    out.2.1 = step ∧ out.1 = 0 := by
  unfold spinLoss at h
  split at h
  · simp at h
  · injection h with h; rw [← h]; exact ⟨rfl, rfl⟩

/-! Concrete cases. -/

example (big : ℝ) : ∃ aux, spinPenalty big ⟨2, false, "deviation", 10, (1, 99), "deviation", 5, (0, 100)⟩ 2 1 [[.num 1, .nan], [.num 3]] = .ok aux ∧
    aux.penalty = some 2 ∧ aux.estimator = some (11 / 4) := by
  obtain ⟨aux, h1, h2, h3, _⟩ := c105_plain big ⟨2, false, "deviation", 10, (1, 99), "deviation", 5, (0, 100)⟩ rfl 2 1 [[.num 1, .nan], [.num 3]]
  refine ⟨aux, h1, ?_, ?_⟩
  · rw [h2]; simp [meanOrNan, finite, globalMean]; norm_num
  · rw [h3]; simp [meanOrNan, finite, globalMean]; norm_num

example (big : ℝ) : localValueMask big true "percentile" 10 (0, 99) [[.num 1]] = .error .unboundLocal :=
  (c105_unbound ..).2 ⟨rfl, by simp, by simp⟩

/-- Two electrons of opposite spin in a symmetric orbital product: a singlet, whose spin estimate is NaN with the defaults. -/
example (big : ℝ) (shards : List (List (Fin (1 + 1) → ℝ))) :
    ∃ aux, spinPenalty big defaultSpinCfg 1 1 (shards.map (List.map fun r => .num (fullPermute (fun r => (1, r 0 + r 1)) r))) = .ok aux ∧
      aux.estimator = none := by
  obtain ⟨aux, h1, h2, _⟩ := c105_equal_nan big defaultSpinCfg rfl (Or.inl ⟨rfl, by norm_num [defaultSpinCfg]⟩) 1 1 0
    (shards.map (List.map fun r => .num (fullPermute (fun r : Fin (1 + 1) → ℝ => ((1 : ℝ), r 0 + r 1)) r))) [] [] (by
      intro e he
      rw [← List.map_flatten] at he
      obtain ⟨r, _, rfl⟩ := List.mem_map.1 he
      congr 1
      have hmin : idxMinor 1 1 = [0] := by decide
      have hmaj : idxMajor 1 1 = [1] := by decide
      unfold fullPermute
      rw [hmin]
      simp only [List.map_cons, List.map_nil, List.sum_cons, List.sum_nil, side_eq, hmaj, Function.comp]
      simp [add_comm])
  exact ⟨aux, h1, h2⟩

end Jaqmc.LegacyLoss.Props
