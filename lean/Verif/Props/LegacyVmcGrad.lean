import Verif.Props.LegacyVmc
import Verif.Props.LossGrad
/-! C103: the energy gradient of `jaqmc_legacy.loss.vmc`. -/
namespace Jaqmc.LegacyLoss.Props
open Jaqmc.LegacyLoss Jaqmc.LegacyLoss.Spec Jaqmc.Stats.Spec Jaqmc.LossGrad

attribute [local instance] Classical.propDecidable

/-- Whether a value is kept, given the finite values. -/
noncomputable def keepF (rm : Bool) (width : ℝ) (xs : List ℝ) : F → Bool
  | .num x => decide (rm ∧ width > 0 → Near width xs x)
  | _ => false

theorem masked_eq (big : ℝ) (rm : Bool) (width : ℝ) (els : List (List F)) :
    (totalEnergy big rm width els).masked = els.map (List.map fun e => (e.nanToNum big, keepF rm width (finite els.flatten) e)) := by
  have h0 : (totalEnergy big rm width els).masked = vmcMask rm width (finiteMask big els) := rfl
  rw [h0]
  unfold vmcMask
  by_cases hr : rm ∧ width > 0
  · rw [if_pos hr, pmean_eq, live_finite]
    by_cases hn : finite els.flatten = []
    · simp only [meanOrNan, if_pos hn]
      unfold finiteMask
      rw [List.map_map]
      refine List.map_congr_left fun s hs => ?_
      simp only [Function.comp, List.map_map]
      refine List.map_congr_left fun e he => ?_
      have : e.isFinite = false := by
        by_contra hf
        cases e with
        | num x =>
          have : x ∈ finite els.flatten := List.mem_filterMap.2 ⟨.num x, List.mem_flatten.2 ⟨s, hs, he⟩, rfl⟩
          rw [hn] at this; simp at this
        | _ => exact hf rfl
      cases e <;> simp_all [keepF, F.isFinite]
    · simp only [meanOrNan, if_neg hn]
      rw [pmean_eq, live_onValues, live_finite, meanOrNan_map _ _ hn]
      dsimp only
      have hd : globalMean ((finite els.flatten).map fun e => |e - globalMean (finite els.flatten)|) = absDev (finite els.flatten) := rfl
      rw [hd]
      unfold finiteMask
      rw [List.map_map]
      refine List.map_congr_left fun s _ => ?_
      simp only [Function.comp, List.map_map]
      refine List.map_congr_left fun e _ => ?_
      cases e with
      | num x =>
        have hke : keepF rm width (finite els.flatten) (.num x) = decide (Near width (finite els.flatten) x) :=
          decide_eq_decide.2 ⟨fun h => h hr, fun h _ => h⟩
        rw [hke]
        refine Prod.ext rfl ?_
        change (decide (globalMean (finite els.flatten) - width * absDev (finite els.flatten) < x) &&
          decide (globalMean (finite els.flatten) + width * absDev (finite els.flatten) > x) && true) = decide (Near width (finite els.flatten) x)
        rw [Bool.and_true, Bool.eq_iff_iff, Bool.and_eq_true, decide_eq_true_eq, decide_eq_true_eq, decide_eq_true_eq, Near, abs_lt]
        constructor
        · rintro ⟨h1, h2⟩; constructor <;> linarith
        · rintro ⟨h1, h2⟩; constructor <;> linarith
      | _ => simp [keepF, F.isFinite]
  · rw [if_neg hr]
    unfold finiteMask
    refine List.map_congr_left fun s _ => List.map_congr_left fun e _ => ?_
    cases e with
    | num x => simp only [F.isFinite, keepF, Prod.mk.injEq, true_and]; rw [eq_comm, decide_eq_true_eq]; exact fun h => absurd h hr
    | _ => rfl

/-- The walkers of one device that count. -/
noncomputable def pairsOf (keep : F → Bool) (s : List (ℝ × F)) : List (ℝ × ℝ) :=
  s.filterMap fun
    | (t, .num e) => if keep (.num e) then some (t, e) else none
    | _ => none

theorem keptPairs_eq (rm : Bool) (width : ℝ) (ws : List (ℝ × F)) :
    keptPairs rm width ws = pairsOf (keepF rm width (finite (ws.map Prod.snd))) ws := by
  have hs : (finitePairs ws).map Prod.snd = finite (ws.map Prod.snd) := by
    unfold finitePairs finite
    induction ws with
    | nil => rfl
    | cons w ws ih => obtain ⟨t, e⟩ := w; cases e <;> simp_all
  unfold keptPairs
  dsimp only
  rw [hs]
  clear hs
  generalize finite (ws.map Prod.snd) = xs
  unfold pairsOf finitePairs
  by_cases hr : rm ∧ width > 0
  · rw [if_pos hr]
    induction ws with
    | nil => rfl
    | cons w ws ih =>
      obtain ⟨t, e⟩ := w
      cases e with
      | num x =>
        by_cases hx : Near width xs x <;> simp_all [keepF]
      | _ => simpa using ih
  · rw [if_neg hr]
    induction ws with
    | nil => rfl
    | cons w ws ih =>
      obtain ⟨t, e⟩ := w
      cases e with
      | num x =>
        have : keepF rm width xs (.num x) = true := decide_eq_true fun h => absurd h hr
        simp only [List.filterMap_cons, this, if_true]
        rw [ih]
      | _ => simpa using ih

theorem pairsOf_flatten (keep : F → Bool) (shards : List (List (ℝ × F))) :
    pairsOf keep shards.flatten = (shards.map (pairsOf keep)).flatten := by
  induction shards with
  | nil => rfl
  | cons s l ih => rw [List.flatten_cons, List.map_cons, List.flatten_cons, ← ih]; unfold pairsOf; rw [List.filterMap_append]

theorem sum_pairs (big : ℝ) (keep : F → Bool) (hk : ∀ e, keep e = true → e.isFinite = true) (diff : ℝ → ℝ) (s : List (ℝ × F)) :
    (List.zipWith (fun t p => t * (diff p.1 * (if p.2 then 1 else 0 : ℝ))) (s.map Prod.fst)
      ((s.map Prod.snd).map fun e => (e.nanToNum big, keep e))).sum = ((pairsOf keep s).map fun w => w.1 * diff w.2).sum := by
  induction s with
  | nil => rfl
  | cons w s ih =>
    obtain ⟨t, e⟩ := w
    have h := hk e
    by_cases hke : keep e = true
    · cases e with
      | num x => simp_all [pairsOf, F.nanToNum]
      | _ => exact absurd (h hke) (by simp [F.isFinite])
    · cases e <;> simp_all [pairsOf]

theorem count_pairs (big : ℝ) (keep : F → Bool) (hk : ∀ e, keep e = true → e.isFinite = true) (s : List (ℝ × F)) :
    (((s.map Prod.snd).map fun e => (e.nanToNum big, keep e)).map fun p => (if p.2 then 1 else 0 : ℝ)).sum = ((pairsOf keep s).length : ℝ) := by
  induction s with
  | nil => simp [pairsOf]
  | cons w s ih =>
    obtain ⟨t, e⟩ := w
    have h := hk e
    by_cases hke : keep e = true
    · cases e with
      | num x => simp_all [pairsOf]; ring
      | _ => exact absurd (h hke) (by simp [F.isFinite])
    · cases e <;> simp_all [pairsOf]

theorem keepF_finite (rm : Bool) (width : ℝ) (xs : List ℝ) (e : F) (h : keepF rm width xs e = true) : e.isFinite = true := by
  cases e <;> simp_all [keepF, F.isFinite]

/-- The local energies of a batch of walkers. -/
def energies (shards : List (List (ℝ × F))) : List (List F) := shards.map (List.map Prod.snd)

/-- The log-derivatives of a batch of walkers. -/
def logDerivs (shards : List (List (ℝ × F))) : List (List ℝ) := shards.map (List.map Prod.fst)

theorem energies_flatten (shards : List (List (ℝ × F))) : (energies shards).flatten = shards.flatten.map Prod.snd := by
  unfold energies; rw [List.map_flatten]

theorem jvp_form (big clip : ℝ) (rm : Bool) (width : ℝ) (shards : List (List (ℝ × F))) (diff : ℝ → ℝ)
    (hd : vmcDiff clip (totalEnergy big rm width (energies shards)) = some diff) :
    let keep := keepF rm width (finite (shards.flatten.map Prod.snd))
    vmcJvp clip (totalEnergy big rm width (energies shards)) (logDerivs shards) = shards.map fun s =>
      let size : ℝ := if clip > 0 then ((pairsOf keep s).length : ℝ) else (s.length : ℝ)
      if size = 0 then none else some (((pairsOf keep s).map fun w => w.1 * diff w.2).sum / size) := by
  intro keep
  have hk : ∀ e, keep e = true → e.isFinite = true := keepF_finite rm width _
  unfold vmcJvp
  rw [hd, masked_eq, energies_flatten]
  unfold logDerivs energies
  rw [List.map_map, List.zipWith_map, List.zipWith_self]
  refine List.map_congr_left fun s _ => ?_
  have hsize : deviceBatchSize clip ((s.map Prod.snd).map fun e => (e.nanToNum big, keep e)) =
      if clip > 0 then ((pairsOf keep s).length : ℝ) else (s.length : ℝ) := by
    unfold deviceBatchSize
    rw [count_pairs big keep hk]
    simp
  change (if deviceBatchSize clip ((s.map Prod.snd).map fun e => (e.nanToNum big, keep e)) = 0 then none else
    some ((List.zipWith (fun t p => t * (diff p.1 * (if p.2 then 1 else 0 : ℝ))) (s.map Prod.fst)
      ((s.map Prod.snd).map fun e => (e.nanToNum big, keep e))).sum / deviceBatchSize clip ((s.map Prod.snd).map fun e => (e.nanToNum big, keep e)))) = _
  rw [hsize, sum_pairs big keep hk]

theorem deviceMean_some {A : Type} (l : List A) (hl : l ≠ []) (f : A → ℝ) :
    deviceMean (l.map fun a => some (f a)) = some (globalMean (l.map f)) := by
  unfold deviceMean
  rw [if_neg]
  · congr 2
    rw [List.filterMap_map]
    induction l with
    | nil => rfl
    | cons a l ih =>
      rcases l with _ | ⟨b, l⟩
      · rfl
      · have := ih (by simp)
        simp_all
  · rintro (h | h)
    · exact hl (List.map_eq_nil_iff.1 h)
    · simp at h

theorem sum_sub_mean (l : List ℝ) : (l.map fun x => x - globalMean l).sum = 0 := by
  rcases eq_or_ne l [] with rfl | h
  · rfl
  · have h0 : (l.length : ℝ) ≠ 0 := by
      rw [Nat.cast_ne_zero]; exact fun h' => h (List.length_eq_zero_iff.1 h')
    have hs : ∀ (c : ℝ) (l : List ℝ), (l.map fun x => x - c).sum = l.sum - l.length * c := by
      intro c l
      induction l with
      | nil => simp
      | cons a l ih => simp only [List.map_cons, List.sum_cons, ih, List.length_cons]; push_cast; ring
    rw [hs, globalMean]; field_simp; ring

theorem cov_sum (ws : List (ℝ × ℝ)) : (ws.map fun w => w.1 * (w.2 - globalMean (ws.map Prod.snd))).sum = ws.length * cov ws := by
  rcases eq_or_ne ws [] with rfl | h
  · simp
  · have h0 : (ws.length : ℝ) ≠ 0 := by
      rw [Nat.cast_ne_zero]; exact fun h' => h (List.length_eq_zero_iff.1 h')
    have h1 := sum_sub_mean (ws.map Prod.snd)
    rw [List.map_map] at h1
    have h2 : ∀ (a b : ℝ) (l : List (ℝ × ℝ)), (l.map fun w => (w.1 - a) * (w.2 - b)).sum =
        (l.map fun w => w.1 * (w.2 - b)).sum - a * (l.map ((fun x => x - b) ∘ Prod.snd)).sum := by
      intro a b l
      induction l with
      | nil => simp
      | cons w l ih => simp only [List.map_cons, List.sum_cons, ih, Function.comp]; ring
    unfold cov
    rw [show globalMean (ws.map fun w => (w.1 - globalMean (ws.map Prod.fst)) * (w.2 - globalMean (ws.map Prod.snd))) =
      (ws.map fun w => (w.1 - globalMean (ws.map Prod.fst)) * (w.2 - globalMean (ws.map Prod.snd))).sum / ws.length from by simp [globalMean]]
    rw [h2, h1]
    field_simp
    ring

theorem kept_snd (rm : Bool) (width : ℝ) (ws : List (ℝ × F)) : (keptPairs rm width ws).map Prod.snd = kept rm width (finite (ws.map Prod.snd)) := by
  rw [keptPairs_eq]
  generalize hx : finite (ws.map Prod.snd) = xs
  have hk : kept rm width xs = xs.filter fun x => decide (rm ∧ width > 0 → Near width xs x) := by
    unfold kept
    by_cases hr : rm ∧ width > 0
    · rw [if_pos hr]; refine List.filter_congr fun x _ => ?_; simp [hr]
    · rw [if_neg hr, List.filter_eq_self.2]
      intro x _
      simp only [decide_eq_true_eq]
      exact fun h => absurd h hr
  rw [hk]
  have : ∀ P : ℝ → Bool, (pairsOf (fun | .num x => P x | _ => false) ws).map Prod.snd = (finite (ws.map Prod.snd)).filter P := by
    intro P
    unfold pairsOf finite
    clear hx hk
    induction ws with
    | nil => rfl
    | cons w ws ih =>
      obtain ⟨t, e⟩ := w
      cases e with
      | num x => cases hP : P x <;> simp_all
      | _ => simpa using ih
  rw [← hx] at *
  have h2 := this fun x => decide (rm ∧ width > 0 → Near width (finite (ws.map Prod.snd)) x)
  rw [← h2]
  congr 2

theorem sum_shards {A : Type} (f : A → ℝ) (pieces : List (List A)) : (pieces.map fun s => (s.map f).sum).sum = (pieces.flatten.map f).sum :=
  sum_flatten_map f pieces

/-- C103: without clipping, the gradient averaged over devices of equal size is the covariance of log-derivative and local energy over
the walkers that count, scaled down by the fraction of walkers that count. -/
theorem c103_gradient (big clip : ℝ) (hc : clip ≤ 0) (rm : Bool) (width : ℝ) (shards : List (List (ℝ × F))) (n : ℕ) (hn : 0 < n)
    (hD : shards ≠ []) (hlen : ∀ s ∈ shards, s.length = n) (hk : keptPairs rm width shards.flatten ≠ []) :
    deviceMean (vmcJvp clip (totalEnergy big rm width (energies shards)) (logDerivs shards)) =
      some (((keptPairs rm width shards.flatten).length : ℝ) / (shards.flatten.length : ℝ) * cov (keptPairs rm width shards.flatten)) := by
  have hloss := (c102_loss big rm width (energies shards)).1
  rw [energies_flatten, ← kept_snd] at hloss
  have hs0 : (keptPairs rm width shards.flatten).map Prod.snd ≠ [] := by simpa using hk
  rw [meanOrNan, if_neg hs0] at hloss
  have hd : vmcDiff clip (totalEnergy big rm width (energies shards)) =
      some fun e => e - globalMean ((keptPairs rm width shards.flatten).map Prod.snd) := by
    unfold vmcDiff
    rw [if_neg (not_lt.2 hc), hloss]
    rfl
  have hj := jvp_form big clip rm width shards _ hd
  dsimp only at hj
  rw [hj]
  rw [keptPairs_eq]
  set keep := keepF rm width (finite (shards.flatten.map Prod.snd)) with hkeep
  have hn0 : (n : ℝ) ≠ 0 := by exact_mod_cast hn.ne'
  set m := globalMean ((pairsOf keep shards.flatten).map Prod.snd) with hm
  have h1 : (shards.map fun s => if (if clip > 0 then ((pairsOf keep s).length : ℝ) else (s.length : ℝ)) = 0 then none else
      some (((pairsOf keep s).map fun w => w.1 * (w.2 - m)).sum / (if clip > 0 then ((pairsOf keep s).length : ℝ) else (s.length : ℝ)))) =
      shards.map fun s => some (((pairsOf keep s).map fun w => w.1 * (w.2 - m)).sum / n) := by
    refine List.map_congr_left fun s hs => ?_
    rw [if_neg (not_lt.2 hc), hlen s hs, if_neg hn0]
  rw [h1, deviceMean_some _ hD]
  congr 1
  have hflat : (shards.flatten.length : ℝ) = shards.length * n := by
    rw [List.length_flatten]
    have : shards.map List.length = List.replicate shards.length n := by
      rw [List.eq_replicate_iff]; simpa using hlen
    rw [this]; simp
  have hDl : (shards.length : ℝ) ≠ 0 := by
    rw [Nat.cast_ne_zero]; exact fun h' => hD (List.length_eq_zero_iff.1 h')
  rw [globalMean, List.length_map, hflat, div_mul_eq_mul_div, ← cov_sum, ← hm]
  have h2 : (shards.map fun s => ((pairsOf keep s).map fun w => w.1 * (w.2 - m)).sum / n).sum =
      ((pairsOf keep shards.flatten).map fun w => w.1 * (w.2 - m)).sum / n := by
    have h3 := sum_flatten_map (fun w : ℝ × ℝ => w.1 * (w.2 - m)) (shards.map (pairsOf keep))
    rw [pairsOf_flatten, ← h3, List.map_map]
    simp only [div_eq_mul_inv]
    rw [List.sum_map_mul_right]
    rfl
  rw [h2]
  field_simp

/-- The limits of the energy in the gradient. -/
noncomputable def clipAt (c med tv e : ℝ) : ℝ := min (max e (med - c * tv)) (med + c * tv)

/-- C103: with clipping, and with equally many walkers kept on every device, the gradient averaged over the devices is the covariance
of log-derivative and clipped energy over the walkers that count. The window is centred at the median of all energies, those that are
not finite replaced by 0 or a huge number, its half width is a multiple of the mean distance of the energies that count from it. -/
theorem c103_clipped (big clip : ℝ) (hc : 0 < clip) (rm : Bool) (width : ℝ) (shards : List (List (ℝ × F))) (k : ℕ) (hk0 : 0 < k)
    (hD : shards ≠ []) (hlen : ∀ s ∈ shards, (pairsOf (keepF rm width (finite (shards.flatten.map Prod.snd))) s).length = k) :
    ∃ med, Jaqmc.LossGrad.Spec.IsQuantile (1 / 2) (shards.flatten.map fun w => w.2.nanToNum big) med ∧
      deviceMean (vmcJvp clip (totalEnergy big rm width (energies shards)) (logDerivs shards)) =
        some (cov ((keptPairs rm width shards.flatten).map fun w =>
          (w.1, clipAt clip med (globalMean ((keptPairs rm width shards.flatten).map fun w => |w.2 - med|)) w.2))) := by
  set keep := keepF rm width (finite (shards.flatten.map Prod.snd)) with hkeep
  have hkp : keptPairs rm width shards.flatten = pairsOf keep shards.flatten := keptPairs_eq rm width _
  have hne : keptPairs rm width shards.flatten ≠ [] := by
    rw [hkp, pairsOf_flatten]
    obtain ⟨s, hs⟩ := List.exists_mem_of_ne_nil _ hD
    have h1 : pairsOf keep s ≠ [] := by
      intro h; have := hlen s hs; rw [h] at this; simp at this; omega
    obtain ⟨p, hp⟩ := List.exists_mem_of_ne_nil _ h1
    exact List.ne_nil_of_mem (List.mem_flatten.2 ⟨_, List.mem_map_of_mem hs, hp⟩)
  have hlive : live (totalEnergy big rm width (energies shards)).masked = (keptPairs rm width shards.flatten).map Prod.snd := by
    rw [live_total, energies_flatten, kept_snd]
  have hall : ((totalEnergy big rm width (energies shards)).masked.flatten.map fun p => some p.1) =
      (shards.flatten.map fun w => w.2.nanToNum big).map some := by
    rw [masked_eq]
    unfold energies
    rw [← List.map_flatten, ← List.map_flatten, List.map_map, List.map_map, List.map_map]
    rfl
  have hwn : shards.flatten ≠ [] := by
    intro h; rw [h] at hne; exact hne (by rw [keptPairs_eq]; rfl)
  have hfm : ((shards.flatten.map fun w => w.2.nanToNum big).map some).filterMap id = shards.flatten.map fun w => w.2.nanToNum big := by
    rw [List.filterMap_map]; exact List.filterMap_some
  obtain ⟨med, hq⟩ : ∃ med, nanquantile (1 / 2) ((shards.flatten.map fun w => w.2.nanToNum big).map some) = some med :=
    ⟨_, nanquantile_eq (1 / 2) (by norm_num) (by norm_num) _ (by rw [hfm]; simpa using hwn)⟩
  have hmed := isQuantile_of hq (by norm_num) (by norm_num)
  rw [hfm] at hmed
  refine ⟨med, hmed, ?_⟩
  set K := keptPairs rm width shards.flatten with hK
  have htv : pmeanMask (onValues (fun e => |e - med|) (totalEnergy big rm width (energies shards)).masked) =
      some (globalMean (K.map fun w => |w.2 - med|)) := by
    rw [pmean_eq, live_onValues, hlive, List.map_map, meanOrNan, if_neg (by simpa using hne)]; rfl
  set tv := globalMean (K.map fun w => |w.2 - med|) with htv'
  have hcm : pmeanMask (onValues (clipAt clip med tv) (totalEnergy big rm width (energies shards)).masked) =
      some (globalMean (K.map fun w => clipAt clip med tv w.2)) := by
    rw [pmean_eq, live_onValues, hlive, List.map_map, meanOrNan, if_neg (by simpa using hne)]; rfl
  have hd : vmcDiff clip (totalEnergy big rm width (energies shards)) =
      some fun e => clipAt clip med tv e - globalMean (K.map fun w => clipAt clip med tv w.2) := by
    unfold vmcDiff
    rw [if_pos hc, hall, hq]
    simp only [Option.bind_eq_bind, Option.bind_some, htv]
    have : (fun e => min (max e (med - clip * tv)) (med + clip * tv)) = clipAt clip med tv := rfl
    rw [this, hcm]
    rfl
  have hj := jvp_form big clip rm width shards _ hd
  dsimp only at hj
  rw [hj]
  have hk1 : (k : ℝ) ≠ 0 := by exact_mod_cast hk0.ne'
  set m := globalMean (K.map fun w => clipAt clip med tv w.2) with hm
  have h1 : (shards.map fun s => if (if clip > 0 then ((pairsOf keep s).length : ℝ) else (s.length : ℝ)) = 0 then none else
      some (((pairsOf keep s).map fun w => w.1 * (clipAt clip med tv w.2 - m)).sum / (if clip > 0 then ((pairsOf keep s).length : ℝ) else (s.length : ℝ)))) =
      shards.map fun s => some (((pairsOf keep s).map fun w => w.1 * (clipAt clip med tv w.2 - m)).sum / k) := by
    refine List.map_congr_left fun s hs => ?_
    rw [if_pos hc, hlen s hs, if_neg hk1]
  rw [h1, deviceMean_some _ hD]
  congr 1
  have hKl : (K.length : ℝ) = shards.length * k := by
    rw [hkp, pairsOf_flatten, List.length_flatten, List.map_map]
    have : shards.map (List.length ∘ pairsOf keep) = List.replicate shards.length k := by
      rw [List.eq_replicate_iff]; simpa using hlen
    rw [this]; simp
  have hDl : (shards.length : ℝ) ≠ 0 := by
    rw [Nat.cast_ne_zero]; exact fun h' => hD (List.length_eq_zero_iff.1 h')
  have hKn : (K.length : ℝ) ≠ 0 := by rw [hKl]; exact mul_ne_zero hDl hk1
  have h2 : (shards.map fun s => ((pairsOf keep s).map fun w => w.1 * (clipAt clip med tv w.2 - m)).sum / k).sum =
      (K.map fun w => w.1 * (clipAt clip med tv w.2 - m)).sum / k := by
    have h3 := sum_flatten_map (fun w : ℝ × ℝ => w.1 * (clipAt clip med tv w.2 - m)) (shards.map (pairsOf keep))
    rw [hkp, pairsOf_flatten, ← h3, List.map_map]
    simp only [div_eq_mul_inv]
    rw [List.sum_map_mul_right]
    rfl
  have h4 := cov_sum (K.map fun w => (w.1, clipAt clip med tv w.2))
  rw [List.map_map, List.map_map, List.length_map] at h4
  have h5 : (K.map fun w => w.1 * (clipAt clip med tv w.2 - m)).sum = K.length * cov (K.map fun w => (w.1, clipAt clip med tv w.2)) := by
    rw [← h4]; rfl
  rw [globalMean, List.length_map, h2, h5, hKl]
  field_simp

/-- C103: with clipping, one device without a walker that counts makes the whole gradient NaN. -/
theorem c103_empty_device_nan (big clip : ℝ) (hc : 0 < clip) (rm : Bool) (width : ℝ) (shards : List (List (ℝ × F)))
    (s : List (ℝ × F)) (hs : s ∈ shards) (h : pairsOf (keepF rm width (finite (shards.flatten.map Prod.snd))) s = []) :
    deviceMean (vmcJvp clip (totalEnergy big rm width (energies shards)) (logDerivs shards)) = none := by
  have hmem : none ∈ vmcJvp clip (totalEnergy big rm width (energies shards)) (logDerivs shards) := by
    cases hd : vmcDiff clip (totalEnergy big rm width (energies shards)) with
    | none =>
      unfold vmcJvp
      rw [hd, masked_eq]
      unfold logDerivs energies
      rw [List.map_map, List.zipWith_map, List.zipWith_self]
      exact List.mem_map.2 ⟨s, hs, rfl⟩
    | some diff =>
      have hj := jvp_form big clip rm width shards _ hd
      dsimp only at hj
      rw [hj]
      refine List.mem_map.2 ⟨s, hs, ?_⟩
      rw [if_pos hc, h]
      simp
  unfold deviceMean
  rw [if_pos (Or.inr hmem)]

end Jaqmc.LegacyLoss.Props
