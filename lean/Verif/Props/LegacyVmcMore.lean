import Verif.Props.LegacyVmcGrad
/-! C102, C103: relation to the new estimator, concrete cases and counterexamples. -/
namespace Jaqmc.LegacyLoss.Props
open Jaqmc.LegacyLoss Jaqmc.LegacyLoss.Spec Jaqmc.Stats.Spec Jaqmc.LossGrad Jaqmc.LossGrad.Props

attribute [local instance] Classical.propDecidable

/-- Walkers with finite energies. -/
def finiteWalkers (shards : List (List (ℝ × ℝ))) : List (List (ℝ × F)) := shards.map (List.map fun w => (w.1, .num w.2))

/-- The same walkers for the new estimator. -/
noncomputable def complexWalkers (shards : List (List (ℝ × ℝ))) : List (List (ℂ × ℂ)) := shards.map (List.map fun w => ((w.1 : ℂ), (w.2 : ℂ)))

theorem mean_ofReal (l : List ℝ) : globalMean (l.map fun x : ℝ => (x : ℂ)) = ((globalMean l : ℝ) : ℂ) := by
  unfold globalMean
  rw [List.length_map]
  push_cast
  congr 1
  induction l with
  | nil => simp
  | cons a l ih => simp [ih]

/-- C103: for finite energies, without outlier removal and clipping, the legacy gradient is half the gradient `LossAndGrad` reports for
the same walkers, for every distribution over devices of equal size; the losses agree. -/
theorem c103_half (big scale width : ℝ) (shards : List (List (ℝ × ℝ))) (n : ℕ) (hn : 0 < n) (hD : shards ≠ [])
    (hlen : ∀ s ∈ shards, s.length = n) :
    ∃ E g : ℝ, lossAndGrad "none" scale [Jaqmc.LossGrad.Spec.walkers (complexWalkers shards)] = .ok (some (E : ℂ), some (2 * g)) ∧
      (totalEnergy big false width (energies (finiteWalkers shards))).loss = some E ∧
      deviceMean (vmcJvp 0 (totalEnergy big false width (energies (finiteWalkers shards))) (logDerivs (finiteWalkers shards))) = some g := by
  have hfl : (finiteWalkers shards).flatten = shards.flatten.map fun w => (w.1, F.num w.2) := by unfold finiteWalkers; rw [List.map_flatten]
  have hcfl : (complexWalkers shards).flatten = shards.flatten.map fun w => ((w.1 : ℂ), (w.2 : ℂ)) := by unfold complexWalkers; rw [List.map_flatten]
  have hne : shards.flatten ≠ [] := by
    obtain ⟨s, hs⟩ := List.exists_mem_of_ne_nil _ hD
    have : s ≠ [] := by intro h; have := hlen s hs; rw [h] at this; simp at this; omega
    obtain ⟨p, hp⟩ := List.exists_mem_of_ne_nil _ this
    exact List.ne_nil_of_mem (List.mem_flatten.2 ⟨s, hs, hp⟩)
  have hkp : keptPairs false width (finiteWalkers shards).flatten = shards.flatten := by
    rw [hfl]
    unfold keptPairs finitePairs
    simp only [List.filterMap_map]
    rw [if_neg (by simp)]
    exact List.filterMap_some
  have h22 := c22_covariance (complexWalkers shards) (by unfold complexWalkers; simpa using hD) n hn (by
    intro s hs; unfold complexWalkers at hs; obtain ⟨s', hs', rfl⟩ := List.mem_map.1 hs; simpa using hlen s' hs') scale
  have hg := c103_gradient big 0 le_rfl false width (finiteWalkers shards) n hn (by unfold finiteWalkers; simpa using hD) (by
    intro s hs; unfold finiteWalkers at hs; obtain ⟨s', hs', rfl⟩ := List.mem_map.1 hs; simpa using hlen s' hs') (by rw [hkp]; exact hne)
  rw [hkp] at hg
  have hl0 : (shards.flatten.length : ℝ) ≠ 0 := by
    rw [Nat.cast_ne_zero]; exact fun h' => hne (List.length_eq_zero_iff.1 h')
  rw [hfl, List.length_map, div_self hl0, one_mul] at hg
  refine ⟨globalMean (shards.flatten.map Prod.snd), cov shards.flatten, ?_, ?_, hg⟩
  · rw [h22, hcfl, List.map_map]
    have h1 : globalMean (shards.flatten.map (Prod.snd ∘ fun w => ((w.1 : ℂ), (w.2 : ℂ)))) = ((globalMean (shards.flatten.map Prod.snd) : ℝ) : ℂ) := by
      rw [← mean_ofReal, List.map_map]; rfl
    have h2 : globalMean (shards.flatten.map (Prod.fst ∘ fun w => ((w.1 : ℂ), (w.2 : ℂ)))) = ((globalMean (shards.flatten.map Prod.fst) : ℝ) : ℂ) := by
      rw [← mean_ofReal, List.map_map]; rfl
    rw [h1]
    congr 3
    unfold Jaqmc.LossGrad.Spec.covarianceGradient cov
    dsimp only
    rw [List.map_map, List.map_map, List.map_map, h1, h2]
    rw [Complex.ofReal_im, Complex.ofReal_im, mul_zero, add_zero]
    congr 2
    refine List.map_congr_left fun w _ => ?_
    simp only [Function.comp, ← Complex.ofReal_sub, Complex.conj_ofReal, ← Complex.ofReal_mul, Complex.ofReal_re]
  · rw [(c102_loss big false width _).1, energies_flatten, ← kept_snd, hkp, meanOrNan, if_neg (by simpa using hne)]

/-! Concrete cases and counterexamples. -/

/-- A concrete case of the hypotheses of `c103_gradient`, and the gradient is not that of the walkers that count: two walkers out of
three count, their covariance is 1, the gradient 2/3. -/
theorem c103_masked_shrinks (big : ℝ) :
    deviceMean (vmcJvp 0 (totalEnergy big false 0 (energies [[(1, .num 1), (-1, .num (-1)), (0, .nan)]]))
      (logDerivs [[(1, .num 1), (-1, .num (-1)), (0, .nan)]])) = some (2 / 3) ∧
    cov (keptPairs false 0 [[(1, .num 1), (-1, .num (-1)), (0, .nan)]].flatten) = 1 := by
  have hk : keptPairs false 0 [[((1 : ℝ), F.num 1), (-1, F.num (-1)), (0, F.nan)]].flatten = [(1, 1), (-1, -1)] := by
    simp [keptPairs, finitePairs]
  have hc : cov [((1 : ℝ), (1 : ℝ)), (-1, -1)] = 1 := by simp [cov, globalMean]
  rw [c103_gradient big 0 le_rfl false 0 _ 3 (by norm_num) (by simp) (by simp) (by rw [hk]; simp), hk, hc]
  norm_num

theorem sort4 : ([3, 0, 0, 0] : List ℝ).insertionSort (· ≤ ·) = [0, 0, 0, 3] := by
  norm_num [List.insertionSort, List.orderedInsert]

/-- C103: with clipping and unevenly many walkers kept on the devices, the averaged gradient is not the covariance: here 1 instead of
2/3 (no energy is actually clipped). -/
theorem c103_uneven (big : ℝ) :
    deviceMean (vmcJvp 100 (totalEnergy big false 0 (energies [[(1, .num 3), (0, .nan)], [(0, .num 0), (0, .num 0)]]))
      (logDerivs [[(1, .num 3), (0, .nan)], [(0, .num 0), (0, .num 0)]])) = some 1 ∧
    cov (keptPairs false 0 [[(1, .num 3), (0, .nan)], [(0, .num 0), (0, .num 0)]].flatten) = 2 / 3 := by
  constructor
  · have hm : nanquantile (1 / 2) [some (3 : ℝ), some 0, some 0, some 0] = some 0 := by
      unfold nanquantile
      simp only [List.filterMap_cons, id, List.filterMap_nil, sort4]
      have h1 : (1 / 2 : ℝ) * ((([0, 0, 0, 3] : List ℝ).length : ℝ) - 1) = 3 / 2 := by norm_num
      rw [h1]
      have h2 : ⌊(3 / 2 : ℝ)⌋₊ = 1 := by rw [Nat.floor_eq_iff (by norm_num)]; norm_num
      have h3 : ⌈(3 / 2 : ℝ)⌉₊ = 2 := by rw [Nat.ceil_eq_iff (by norm_num)]; norm_num
      rw [h2, h3]
      simp
    have hd : vmcDiff 100 (totalEnergy big false 0 (energies [[((1 : ℝ), .num 3), (0, .nan)], [(0, .num 0), (0, .num 0)]])) =
        some fun e => min (max e (-100)) 100 - 1 := by
      unfold vmcDiff
      rw [if_pos (by norm_num)]
      simp only [energies, totalEnergy, vmcMask, finiteMask, List.map_cons, List.map_nil, F.nanToNum, F.isFinite,
        Bool.false_eq_true, false_and, if_false]
      simp only [List.flatten_cons, List.flatten_nil, List.append_nil, List.cons_append, List.nil_append, List.map_cons, List.map_nil]
      norm_num [hm, pmeanMask, onValues]
    simp only [vmcJvp, hd]
    simp only [energies, logDerivs, totalEnergy, vmcMask, finiteMask, List.map_cons, List.map_nil, F.nanToNum, F.isFinite,
        Bool.false_eq_true, false_and, if_false]
    norm_num [deviceBatchSize, deviceMean, globalMean]
    simp
  · simp [keptPairs, finitePairs, cov, globalMean]; norm_num

theorem sort3 : ([1, 2, 9] : List ℝ).insertionSort (· ≤ ·) = [1, 2, 9] := by
  norm_num [List.insertionSort, List.orderedInsert]

theorem sort4' : ([1, 2, 9, 0] : List ℝ).insertionSort (· ≤ ·) = [0, 1, 2, 9] := by
  norm_num [List.insertionSort, List.orderedInsert]

/-- C103: a walker with energy NaN is not thrown away when clipping: it enters the median as 0 and changes the gradient. -/
theorem c103_nan_matters (big : ℝ) :
    deviceMean (vmcJvp 1 (totalEnergy big false 0 (energies [[(0, .num 1), (0, .num 2), (1, .num 9)]]))
      (logDerivs [[(0, .num 1), (0, .num 2), (1, .num 9)]])) = some (19 / 27) ∧
    deviceMean (vmcJvp 1 (totalEnergy big false 0 (energies [[(0, .num 1), (0, .num 2), (1, .num 9), (0, .nan)]]))
      (logDerivs [[(0, .num 1), (0, .num 2), (1, .num 9), (0, .nan)]])) = some (17 / 27) := by
  constructor
  · have hm : nanquantile (1 / 2) [some (1 : ℝ), some 2, some 9] = some 2 := by
      unfold nanquantile
      simp only [List.filterMap_cons, id, List.filterMap_nil, sort3]
      norm_num
      simp
    have hd : vmcDiff 1 (totalEnergy big false 0 (energies [[((0 : ℝ), .num 1), (0, .num 2), (1, .num 9)]])) =
        some fun e => min (max e (2 - 8 / 3)) (2 + 8 / 3) - 23 / 9 := by
      unfold vmcDiff
      rw [if_pos (by norm_num)]
      simp only [energies, totalEnergy, vmcMask, finiteMask, List.map_cons, List.map_nil, F.nanToNum, F.isFinite,
        Bool.false_eq_true, false_and, if_false]
      simp only [List.flatten_cons, List.flatten_nil, List.append_nil, List.map_cons, List.map_nil]
      norm_num [hm, pmeanMask, onValues]
    simp only [vmcJvp, hd]
    simp only [energies, logDerivs, totalEnergy, vmcMask, finiteMask, List.map_cons, List.map_nil, F.nanToNum, F.isFinite,
        Bool.false_eq_true, false_and, if_false]
    norm_num [deviceBatchSize, deviceMean, globalMean]
    simp
  · have hm : nanquantile (1 / 2) [some (1 : ℝ), some 2, some 9, some 0] = some (3 / 2) := by
      unfold nanquantile
      simp only [List.filterMap_cons, id, List.filterMap_nil, sort4']
      have h1 : (1 / 2 : ℝ) * ((([0, 1, 2, 9] : List ℝ).length : ℝ) - 1) = 3 / 2 := by norm_num
      rw [h1]
      have h2 : ⌊(3 / 2 : ℝ)⌋₊ = 1 := by rw [Nat.floor_eq_iff (by norm_num)]; norm_num
      have h3 : ⌈(3 / 2 : ℝ)⌉₊ = 2 := by rw [Nat.ceil_eq_iff (by norm_num)]; norm_num
      rw [h2, h3]
      norm_num
      simp
    have hd : vmcDiff 1 (totalEnergy big false 0 (energies [[((0 : ℝ), .num 1), (0, .num 2), (1, .num 9), (0, .nan)]])) =
        some fun e => min (max e (3 / 2 - 17 / 6)) (3 / 2 + 17 / 6) - 22 / 9 := by
      unfold vmcDiff
      rw [if_pos (by norm_num)]
      simp only [energies, totalEnergy, vmcMask, finiteMask, List.map_cons, List.map_nil, F.nanToNum, F.isFinite,
        Bool.false_eq_true, false_and, if_false]
      simp only [List.flatten_cons, List.flatten_nil, List.append_nil, List.map_cons, List.map_nil]
      norm_num [hm, pmeanMask, onValues]
    simp only [vmcJvp, hd]
    simp only [energies, logDerivs, totalEnergy, vmcMask, finiteMask, List.map_cons, List.map_nil, F.nanToNum, F.isFinite,
        Bool.false_eq_true, false_and, if_false]
    norm_num [deviceBatchSize, deviceMean, globalMean]
    simp

/-- Concrete cases of the hypotheses: energies kept and dropped with outlier removal, on two devices. -/
example (big : ℝ) : (totalEnergy big true 3 [[.num 1, .nan], [.num 2, .inf]]).loss = some (3 / 2) := by
  rw [(c102_loss _ _ _ _).1]
  simp [finite, kept, Near, absDev, globalMean, meanOrNan]
  norm_num

example (big : ℝ) : (totalEnergy big true 5 [[.num 1, .num 1], [.num 1]]).loss = none :=
  c102_eigenfunction_nan big 5 1 (by norm_num) _ (by simp)

example (big : ℝ) : (totalEnergy big true 5 [[.num 1, .num 1], [.num 2]]).loss ≠ none :=
  (c102_outliers_left big 5 (by norm_num) _).2 ⟨1, by simp [finite], 2, by simp [finite], by norm_num⟩

/-- At width 1 everything can be removed although the energies differ. -/
example (big : ℝ) : (totalEnergy big true 1 [[.num 1, .num (-1)]]).loss = none := by
  rw [(c102_loss _ _ _ _).1]
  simp [finite, kept, Near, absDev, globalMean, meanOrNan]

example : localEnergies (fun (k : ℕ) (w : ℕ) => F.num (k * w)) 2 [1, 2, 3, 4] [5, 6, 7, 8] =
    some [.num ((1 : ℕ) * (5 : ℕ)), .num ((2 : ℕ) * (6 : ℕ)), .num ((3 : ℕ) * (7 : ℕ)), .num ((4 : ℕ) * (8 : ℕ))] := by
  rw [c102_partition _ _ [1, 2, 3, 4] [5, 6, 7, 8] rfl]; simp

end Jaqmc.LegacyLoss.Props
