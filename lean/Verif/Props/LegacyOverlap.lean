import Verif.Props.LegacySpinGrad
import Mathlib.MeasureTheory.Function.L2Space
/-! C107: the overlap penalty. -/
namespace Jaqmc.LegacyLoss.Props
open Jaqmc.LegacyLoss Jaqmc.LegacyLoss.Spec Jaqmc.Stats.Spec Jaqmc.LossGrad MeasureTheory

attribute [local instance] Classical.propDecidable

/-- The ratios of two wavefunctions, given as sign and logarithm, where the logarithm is a real number. -/
noncomputable def ratios (vals : List (ℝ × F)) : List ℝ := vals.filterMap fun
  | (s, .num d) => some (s * Real.exp d)
  | _ => none

/-- A ratio with the flag whether it counts. -/
noncomputable def ratioMask (v : ℝ × F) : ℝ × Bool :=
  match v with
  | (s, .num d) => (s * Real.exp d, true)
  | (s, _) => (s, false)

theorem live_ratio (vals : List (List (ℝ × F))) : live (vals.map (List.map ratioMask)) = ratios vals.flatten := by
  unfold live ratios
  rw [← List.map_flatten]
  induction vals.flatten with
  | nil => rfl
  | cons v l ih =>
    obtain ⟨s, f⟩ := v
    cases f <;> simp_all [ratioMask]

theorem pmean_scale (c : ℝ) (x : List (List (ℝ × Bool))) : (pmeanMask x).map (· * c) = pmeanMask (onValues (· * c) x) := by
  rw [pmean_eq, pmean_eq, live_onValues]
  unfold meanOrNan
  by_cases h : live x = []
  · simp [h]
  · rw [if_neg h, if_neg (by simpa using h)]
    simp only [Option.map_some, globalMean, List.length_map]
    rw [List.sum_map_mul_right, List.map_id']
    congr 1
    ring

/-- The quotients in terms of the clipped logarithms, whatever the largest of them. -/
theorem div_form (big : ℝ) (bound : ℝ × ℝ) (vals : List (List (ℝ × F))) (f : ℝ → ℝ)
    (h : localValueClip "percentile" 5 bound ((finiteMask big (vals.map (List.map Prod.snd))).map (List.map fun p => (p.1 * (if p.2 then 1 else 0 : ℝ), p.2))) =
      some (onValues f ((finiteMask big (vals.map (List.map Prod.snd))).map (List.map fun p => (p.1 * (if p.2 then 1 else 0 : ℝ), p.2))))) :
    divInDist big bound vals =
      (pmeanMask (vals.map (List.map fun v => (v.1 * Real.exp (f (v.2.nanToNum big * (if v.2.isFinite then 1 else 0 : ℝ))), v.2.isFinite))),
       some (vals.map (List.map fun v => (v.1 * Real.exp (f (v.2.nanToNum big * (if v.2.isFinite then 1 else 0 : ℝ))), v.2.isFinite)))) := by
  unfold divInDist
  simp only [h]
  generalize maxOf _ = M
  have hz : onValues (· * Real.exp M) (List.zipWith (List.zipWith fun (v : ℝ × F) (p : ℝ × Bool) => (v.1 * Real.exp (p.1 - M), p.2)) vals
      (onValues f ((finiteMask big (vals.map (List.map Prod.snd))).map (List.map fun p => (p.1 * (if p.2 then 1 else 0 : ℝ), p.2))))) =
      vals.map (List.map fun v => (v.1 * Real.exp (f (v.2.nanToNum big * (if v.2.isFinite then 1 else 0 : ℝ))), v.2.isFinite)) := by
    unfold onValues finiteMask
    simp only [List.map_map]
    rw [List.zipWith_map_right, List.zipWith_self, List.map_map]
    refine List.map_congr_left fun s _ => ?_
    simp only [Function.comp, List.map_map]
    rw [List.zipWith_map_right, List.zipWith_self, List.map_map]
    refine List.map_congr_left fun v _ => ?_
    simp only [Function.comp]
    rw [mul_assoc, ← Real.exp_add, sub_add_cancel]
  rw [pmean_scale, hz]

/-- C107: without percentile clipping the quotients are sign times exponential of the difference of the logarithms; where that difference is not
a real number the walker does not count. -/
theorem c107_div (big : ℝ) (vals : List (List (ℝ × F))) :
    divInDist big (0, 100) vals = (meanOrNan (ratios vals.flatten), some (vals.map (List.map ratioMask))) := by
  have hm : (vals.map (List.map fun v : ℝ × F => (v.1 * Real.exp (v.2.nanToNum big * (if v.2.isFinite then 1 else 0 : ℝ)), v.2.isFinite))) =
      vals.map (List.map ratioMask) := by
    refine List.map_congr_left fun s _ => List.map_congr_left fun v _ => ?_
    obtain ⟨s, f⟩ := v
    cases f <;> simp [ratioMask, F.nanToNum, F.isFinite]
  rw [div_form big (0, 100) vals (fun x => x) (by simp [localValueClip, onValues]), hm, pmean_eq, live_ratio]

/-- C107: with percentile clipping the logarithm of a quotient is brought between the two percentiles of all logarithms (0 for those that are
not real numbers) before the exponential is taken. -/
theorem c107_div_clipped (big lo hi : ℝ) (bound : ℝ × ℝ) (hb : ¬ (bound.1 = 0 ∧ bound.2 = 100)) (vals : List (List (ℝ × F)))
    (hlo : percentile bound.1 (vals.map (List.map fun v => match v.2 with | .num d => d | _ => 0)) = some lo)
    (hhi : percentile bound.2 (vals.map (List.map fun v => match v.2 with | .num d => d | _ => 0)) = some hi) :
    (divInDist big bound vals).1 = meanOrNan (vals.flatten.filterMap fun v => match v.2 with
      | .num d => some (v.1 * Real.exp (min (max d lo) hi))
      | _ => none) := by
  have hv : ((finiteMask big (vals.map (List.map Prod.snd))).map (List.map fun p => (p.1 * (if p.2 then 1 else 0 : ℝ), p.2))).map (List.map Prod.fst) =
      vals.map (List.map fun v => match v.2 with | .num d => d | _ => 0) := by
    unfold finiteMask
    simp only [List.map_map]
    refine List.map_congr_left fun s _ => ?_
    simp only [Function.comp, List.map_map]
    refine List.map_congr_left fun v _ => ?_
    obtain ⟨s, f⟩ := v
    cases f <;> simp [F.nanToNum, F.isFinite]
  rw [div_form big bound vals (fun y => min (max y lo) hi) (by
    unfold localValueClip
    dsimp only
    rw [hv, hlo, hhi]
    simp only [String.reduceEq, if_false, if_true, if_neg hb, Option.bind_eq_bind, Option.bind_some]
    rfl)]
  dsimp only
  rw [pmean_eq]
  refine congrArg meanOrNan ?_
  unfold live
  rw [← List.map_flatten]
  clear hv hlo hhi
  induction vals.flatten with
  | nil => rfl
  | cons v l ih =>
    obtain ⟨s, f⟩ := v
    rw [List.map_cons, List.filter_cons, List.filterMap_cons]
    cases f with
    | num d =>
      rw [if_pos (by rfl), List.map_cons, ih]
      simp [F.nanToNum, F.isFinite]
    | nan => exact ih
    | inf => exact ih
    | ninf => exact ih

section Batch
variable {X : Type}

/-- Sign and logarithm of the modulus of a wavefunction that is not 0 at the walker. -/
noncomputable def signedLog (ψ : ℝ) : ℝ × F := (SignType.sign ψ, if ψ = 0 then .ninf else .num (Real.log |ψ|))

theorem ratio_eq (a b : ℝ) (ha : a ≠ 0) (hb : b ≠ 0) : ratioMask (logRatio (signedLog a) (signedLog b)) = (a / b, true) := by
  unfold signedLog logRatio ratioMask
  simp only [if_neg ha, if_neg hb]
  rw [Real.exp_sub, Real.exp_log (abs_pos.mpr ha), Real.exp_log (abs_pos.mpr hb)]
  refine Prod.ext ?_ rfl
  rcases lt_or_gt_of_ne ha with h1 | h1 <;> rcases lt_or_gt_of_ne hb with h2 | h2 <;>
    simp [sign_neg, sign_pos, h1, h2, abs_of_neg, abs_of_pos, neg_div, div_neg]

/-- The quotients of two wavefunctions on the walkers. -/
noncomputable def quotients (a b : X → ℝ) (shards : List (List X)) : List (List (ℝ × F)) :=
  shards.map (List.map fun x => logRatio (signedLog (a x)) (signedLog (b x)))

theorem quotient_mask (a b : X → ℝ) (shards : List (List X)) (h : ∀ x ∈ shards.flatten, a x ≠ 0 ∧ b x ≠ 0) :
    (quotients a b shards).map (List.map ratioMask) = shards.map (List.map fun x => (a x / b x, true)) := by
  unfold quotients
  rw [List.map_map]
  refine List.map_congr_left fun s hs => ?_
  simp only [Function.comp, List.map_map]
  refine List.map_congr_left fun x hx => ?_
  obtain ⟨h1, h2⟩ := h x (List.mem_flatten.mpr ⟨s, hs, hx⟩)
  exact ratio_eq _ _ h1 h2

theorem live_true (f : X → ℝ) (shards : List (List X)) : live (shards.map (List.map fun x => (f x, true))) = shards.flatten.map f := by
  unfold live
  rw [← List.map_flatten, List.filter_map, List.map_map]
  simp [Function.comp_def]

theorem div_walkers (big : ℝ) (a b : X → ℝ) (shards : List (List X)) (hne : shards.flatten ≠ []) (h : ∀ x ∈ shards.flatten, a x ≠ 0 ∧ b x ≠ 0) :
    divInDist big (0, 100) (quotients a b shards) = (some (sampleMean shards.flatten fun x => a x / b x),
      some (finiteMask big (onWalkers (fun x => a x / b x) shards))) := by
  rw [c107_div, ← live_ratio, quotient_mask a b shards h, live_true, meanOrNan, if_neg (by simpa using hne), mask_walkers]
  rfl

/-- The target state `φ` seen from the current state `ψ`: `ys` are the walkers of the target, `xs` those of the current state. -/
noncomputable def targetOf (ψ φ : X → ℝ) (ys xs : List (List X)) : Target := ⟨quotients ψ φ ys, quotients φ ψ xs⟩

/-- C107: the overlap reported for a target state is the mean of `ψ/φ` over the walkers of the target times the mean of `φ/ψ` over the walkers
of the current state, over all devices. -/
theorem c107_batch (big : ℝ) (ψ φ : X → ℝ) (ys xs : List (List X)) (hy : ys.flatten ≠ []) (hx : xs.flatten ≠ [])
    (h : ∀ x ∈ ys.flatten ++ xs.flatten, ψ x ≠ 0 ∧ φ x ≠ 0) :
    overlapOf big (0, 100) (targetOf ψ φ ys xs) =
      some (sampleMean ys.flatten (fun x => ψ x / φ x) * sampleMean xs.flatten fun x => φ x / ψ x) := by
  unfold overlapOf targetOf
  rw [div_walkers big ψ φ ys hy fun x hx => h x (List.mem_append_left _ hx),
    div_walkers big φ ψ xs hx fun x hx => (h x (List.mem_append_right _ hx)).symm]

theorem sampleMean_scale (c : ℝ) (f : X → ℝ) (xs : List X) : sampleMean xs (fun x => c * f x) = c * sampleMean xs f := by
  unfold sampleMean globalMean
  rw [List.sum_map_mul_left, List.length_map, List.length_map, mul_div_assoc]

/-- C107: neither wavefunction need be normalised: scaling either leaves the overlap alone. -/
theorem c107_norm (big c d : ℝ) (hc : c ≠ 0) (hd : d ≠ 0) (ψ φ : X → ℝ) (ys xs : List (List X)) (hy : ys.flatten ≠ []) (hx : xs.flatten ≠ [])
    (h : ∀ x ∈ ys.flatten ++ xs.flatten, ψ x ≠ 0 ∧ φ x ≠ 0) :
    overlapOf big (0, 100) (targetOf (fun x => c * ψ x) (fun x => d * φ x) ys xs) = overlapOf big (0, 100) (targetOf ψ φ ys xs) := by
  rw [c107_batch big _ _ ys xs hy hx fun x hx => ⟨mul_ne_zero hc (h x hx).1, mul_ne_zero hd (h x hx).2⟩, c107_batch big ψ φ ys xs hy hx h]
  have e1 : (fun x => c * ψ x / (d * φ x)) = fun x => (c / d) * (ψ x / φ x) := by funext x; rw [mul_div_mul_comm]
  have e2 : (fun x => d * φ x / (c * ψ x)) = fun x => (d / c) * (φ x / ψ x) := by funext x; rw [mul_div_mul_comm]
  rw [e1, e2, sampleMean_scale, sampleMean_scale]
  congr 1
  field_simp

/-- C107: a target with itself on the same walkers has overlap 1. -/
theorem c107_self (big c : ℝ) (hc : c ≠ 0) (φ : X → ℝ) (ys xs : List (List X)) (hy : ys.flatten ≠ []) (hx : xs.flatten ≠ [])
    (h : ∀ x ∈ ys.flatten ++ xs.flatten, φ x ≠ 0) : overlapOf big (0, 100) (targetOf (fun x => c * φ x) φ ys xs) = some 1 := by
  have hm : ∀ (k : ℝ) (l : List X) (f : X → ℝ), l ≠ [] → (∀ x ∈ l, f x = k) → sampleMean l f = k := by
    intro k l f hl hf
    unfold sampleMean globalMean
    rw [List.map_congr_left hf, List.map_const', List.sum_replicate, List.length_replicate, nsmul_eq_mul]
    have : (l.length : ℝ) ≠ 0 := by simpa using hl
    field_simp
  rw [c107_batch big _ _ ys xs hy hx fun x hx => ⟨mul_ne_zero hc (h x hx), h x hx⟩,
    hm c _ _ hy fun x hx => by have := h x (List.mem_append_left _ hx); field_simp,
    hm (1 / c) _ _ hx fun x hx => by have := h x (List.mem_append_right _ hx); field_simp]
  congr 1
  field_simp

/-- C107: the gradient of one target's term is the overlap gradient for the sample means over the target's walkers and the current ones. -/
theorem c107_gradient (big w : ℝ) (ψ φ g : X → ℝ) (ys xs : List (List X)) (hy : ys.flatten ≠ []) (hx : xs.flatten ≠ [])
    (h : ∀ x ∈ ys.flatten ++ xs.flatten, ψ x ≠ 0 ∧ φ x ≠ 0) :
    overlapTerm big (0, 100) (targetOf ψ φ ys xs) w (onWalkers g xs) =
      some (overlapGradient w (sampleMean ys.flatten) (sampleMean xs.flatten) ψ φ g) := by
  unfold overlapTerm targetOf
  rw [div_walkers big ψ φ ys hy fun x hx => h x (List.mem_append_left _ hx),
    div_walkers big φ ψ xs hx fun x hx => (h x (List.mem_append_right _ hx)).symm]
  simp only [Option.bind_eq_bind, Option.bind_some, self_adjoint_walkers big xs hx (fun x => φ x / ψ x) g]
  rfl

/-- C107: with several targets the terms are added, one weight per target; the terms of targets without a weight are left out, and without a
target or without a weight there is an error. -/
theorem c107_sum (big : ℝ) (ψ g : X → ℝ) (xs : List (List X)) (hx : xs.flatten ≠ []) (hψ : ∀ x ∈ xs.flatten, ψ x ≠ 0)
    (targets : List ((X → ℝ) × List (List X)))
    (h : ∀ t ∈ targets, t.2.flatten ≠ [] ∧ (∀ x ∈ t.2.flatten, ψ x ≠ 0 ∧ t.1 x ≠ 0) ∧ ∀ x ∈ xs.flatten, t.1 x ≠ 0) (weights : List ℝ) :
    overlapGrad big (0, 100) (targets.map fun t => targetOf ψ t.1 t.2 xs) weights (onWalkers g xs) =
      if targets = [] ∨ weights = [] then none
      else some (some ((targets.zip weights).map fun p =>
        overlapGradient p.2 (sampleMean p.1.2.flatten) (sampleMean xs.flatten) ψ p.1.1 g).sum) := by
  have hterm : ∀ t ∈ targets, ∀ w, overlapTerm big (0, 100) (targetOf ψ t.1 t.2 xs) w (onWalkers g xs) =
      some (overlapGradient w (sampleMean t.2.flatten) (sampleMean xs.flatten) ψ t.1 g) := by
    intro t ht w
    obtain ⟨h1, h2, h3⟩ := h t ht
    refine c107_gradient big w ψ t.1 g t.2 xs h1 hx fun x hx => ?_
    rcases List.mem_append.mp hx with hx | hx
    · exact h2 x hx
    · exact ⟨hψ x hx, h3 x hx⟩
  have hfold : ∀ (ts : List ((X → ℝ) × List (List X))) (ws : List ℝ) (a : ℝ), (∀ t ∈ ts, t ∈ targets) →
      ((ts.map fun t => targetOf ψ t.1 t.2 xs).zip ws).foldl
        (fun acc u => nadd acc (overlapTerm big (0, 100) u.1 u.2 (onWalkers g xs))) (some a) =
      some (a + ((ts.zip ws).map fun p =>
        overlapGradient p.2 (sampleMean p.1.2.flatten) (sampleMean xs.flatten) ψ p.1.1 g).sum) := by
    intro ts
    induction ts with
    | nil => intro ws a _; simp
    | cons t ts ih =>
      intro ws a hs
      cases ws with
      | nil => simp
      | cons w ws =>
        simp only [List.map_cons, List.zip_cons_cons, List.foldl_cons, List.sum_cons]
        rw [hterm t (hs t (by simp)) w]
        have hadd : ∀ a b : ℝ, nadd (some a) (some b) = some (a + b) := fun _ _ => rfl
        rw [hadd, ih ws _ fun u hu => hs u (List.mem_cons_of_mem _ hu), add_assoc]
  cases targets with
  | nil => simp [overlapGrad]
  | cons t ts =>
    cases weights with
    | nil => simp [overlapGrad]
    | cons w ws =>
      simp only [overlapGrad, List.map_cons, reduceCtorEq, or_self, if_false, List.zip_cons_cons, List.sum_cons]
      rw [hterm t (by simp) w, hfold ts ws _ fun u hu => List.mem_cons_of_mem _ hu]

end Batch

section Law
variable {X : Type} [MeasurableSpace X] {μ : Measure X}

/-- C107: with expectations in place of sample means the overlap is the squared normalised overlap of the two states. -/
theorem c107_expectation (ψ φ : X → ℝ) (hψ : ∀ᵐ x ∂μ, ψ x ≠ 0) (hφ : ∀ᵐ x ∂μ, φ x ≠ 0) :
    expect μ φ (fun x => ψ x / φ x) * expect μ ψ (fun x => φ x / ψ x) = overlapSq μ ψ φ := by
  unfold expect overlapSq
  have e1 : ∫ x, φ x ^ 2 * (ψ x / φ x) ∂μ = ∫ x, ψ x * φ x ∂μ :=
    integral_congr_ae (hφ.mono fun x hx => by dsimp only; field_simp)
  have e2 : ∫ x, ψ x ^ 2 * (φ x / ψ x) ∂μ = ∫ x, ψ x * φ x ∂μ :=
    integral_congr_ae (hψ.mono fun x hx => by dsimp only; field_simp)
  rw [e1, e2, div_mul_div_comm, pow_two, mul_comm (∫ x, ψ x ^ 2 ∂μ)]

theorem square_expand (ψ φ : X → ℝ) (hψ : MemLp ψ 2 μ) (hφ : MemLp φ 2 μ) (t : ℝ) :
    ∫ x, (ψ x - t * φ x) ^ 2 ∂μ = ∫ x, ψ x ^ 2 ∂μ - 2 * t * ∫ x, ψ x * φ x ∂μ + t ^ 2 * ∫ x, φ x ^ 2 ∂μ := by
  have i1 : Integrable (fun x => ψ x ^ 2) μ := hψ.integrable_sq
  have i2 : Integrable (fun x => φ x ^ 2) μ := hφ.integrable_sq
  have i3 : Integrable (fun x => ψ x * φ x) μ := hψ.integrable_mul hφ
  have i4 : Integrable (fun x => ψ x ^ 2 - 2 * t * (ψ x * φ x)) μ := i1.sub (i3.const_mul _)
  rw [← integral_const_mul, ← integral_const_mul, ← integral_sub i1 (i3.const_mul _), ← integral_add i4 (i2.const_mul _)]
  refine integral_congr_ae (Filter.Eventually.of_forall fun x => ?_)
  dsimp only
  ring

/-- C107: the overlap lies between 0 and 1; it is 0 exactly for orthogonal states and 1 exactly for proportional ones. -/
theorem c107_range (ψ φ : X → ℝ) (hψ : MemLp ψ 2 μ) (hφ : MemLp φ 2 μ) (h1 : 0 < ∫ x, ψ x ^ 2 ∂μ) (h2 : 0 < ∫ x, φ x ^ 2 ∂μ) :
    0 ≤ overlapSq μ ψ φ ∧ overlapSq μ ψ φ ≤ 1 ∧ (overlapSq μ ψ φ = 0 ↔ ∫ x, ψ x * φ x ∂μ = 0) ∧
      (overlapSq μ ψ φ = 1 ↔ ∃ c : ℝ, ψ =ᵐ[μ] fun x => c * φ x) := by
  unfold overlapSq
  set S := ∫ x, ψ x * φ x ∂μ with hS
  set N := ∫ x, ψ x ^ 2 ∂μ with hN
  set M := ∫ x, φ x ^ 2 ∂μ with hM
  have hexp := square_expand ψ φ hψ hφ (S / M)
  rw [← hS, ← hN, ← hM] at hexp
  have hexp' : ∫ x, (ψ x - S / M * φ x) ^ 2 ∂μ = N - S ^ 2 / M := by
    rw [hexp]; field_simp; ring
  have hnn : 0 ≤ N - S ^ 2 / M := by rw [← hexp']; exact integral_nonneg fun x => sq_nonneg _
  have hle : S ^ 2 ≤ N * M := by
    have : S ^ 2 / M ≤ N := by linarith
    exact (div_le_iff₀ h2).mp this
  refine ⟨by positivity, (div_le_one (by positivity)).mpr hle, ?_, ?_⟩
  · rw [div_eq_zero_iff]
    constructor
    · rintro (h | h)
      · exact pow_eq_zero_iff (two_ne_zero) |>.mp h
      · exact absurd h (by positivity)
    · intro h; left; rw [h]; norm_num
  · rw [div_eq_one_iff_eq (by positivity)]
    constructor
    · intro h
      refine ⟨S / M, ?_⟩
      have hz : ∫ x, (ψ x - S / M * φ x) ^ 2 ∂μ = 0 := by rw [hexp', h]; field_simp; ring
      have hi : Integrable (fun x => (ψ x - S / M * φ x) ^ 2) μ := (hψ.sub (hφ.const_mul (S / M))).integrable_sq
      have := (integral_eq_zero_iff_of_nonneg (fun x => sq_nonneg _) hi).mp hz
      exact this.mono fun x hx => by
        have : (ψ x - S / M * φ x) ^ 2 = 0 := hx
        exact sub_eq_zero.mp (pow_eq_zero_iff two_ne_zero |>.mp this)
    · rintro ⟨c, hc⟩
      have e1 : S = c * M := by
        rw [hS, hM, ← integral_const_mul]
        exact integral_congr_ae (hc.mono fun x hx => by dsimp only; rw [hx]; ring)
      have e2 : N = c ^ 2 * M := by
        rw [hN, hM, ← integral_const_mul]
        exact integral_congr_ae (hc.mono fun x hx => by dsimp only; rw [hx]; ring)
      rw [e1, e2]; ring

/-- C107: with expectations in place of sample means, the gradient is half the derivative of the weight times the squared overlap. -/
theorem c107_derivative (ψ ψ' : ℝ → X → ℝ) (φ : X → ℝ) (θ w : ℝ)
    (hN : DiffUnder μ (fun t x => ψ t x ^ 2) (fun t x => 2 * ψ t x * ψ' t x) θ)
    (hS : DiffUnder μ (fun t x => ψ t x * φ x) (fun t x => ψ' t x * φ x) θ)
    (h0 : ∀ᵐ x ∂μ, ψ θ x ≠ 0) (h1 : ∀ᵐ x ∂μ, φ x ≠ 0) (hn : ∫ x, ψ θ x ^ 2 ∂μ ≠ 0) (hm : ∫ x, φ x ^ 2 ∂μ ≠ 0) :
    HasDerivAt (fun t => w * overlapSq μ (ψ t) φ)
      (2 * overlapGradient w (expect μ φ) (expect μ (ψ θ)) (ψ θ) φ (fun x => ψ' θ x / ψ θ x)) θ := by
  obtain ⟨-, d1⟩ := diffUnder_hasDerivAt hN
  obtain ⟨-, d2⟩ := diffUnder_hasDerivAt hS
  have hres : HasDerivAt (fun t => w * overlapSq μ (ψ t) φ) _ θ :=
    (((d2.fun_pow 2).fun_div (d1.mul_const (∫ x, φ x ^ 2 ∂μ)) (mul_ne_zero hn hm)).const_mul w)
  refine hres.congr_deriv ?_
  unfold overlapGradient covOf expect
  have e1 : ∫ x, 2 * ψ θ x * ψ' θ x ∂μ = 2 * ∫ x, ψ θ x ^ 2 * (ψ' θ x / ψ θ x) ∂μ := by
    rw [← integral_const_mul]
    exact integral_congr_ae (h0.mono fun x hx => by dsimp only; field_simp)
  have e2 : ∫ x, φ x ^ 2 * (ψ θ x / φ x) ∂μ = ∫ x, ψ θ x * φ x ∂μ :=
    integral_congr_ae (h1.mono fun x hx => by dsimp only; field_simp)
  have e3 : ∫ x, ψ θ x ^ 2 * (φ x / ψ θ x * (ψ' θ x / ψ θ x)) ∂μ = ∫ x, ψ' θ x * φ x ∂μ :=
    integral_congr_ae (h0.mono fun x hx => by dsimp only; field_simp)
  have e4 : ∫ x, ψ θ x ^ 2 * (φ x / ψ θ x) ∂μ = ∫ x, ψ θ x * φ x ∂μ :=
    integral_congr_ae (h0.mono fun x hx => by dsimp only; field_simp)
  rw [e1, e2, e3, e4]
  generalize (∫ x, ψ θ x ^ 2 ∂μ) = n at *
  generalize (∫ x, φ x ^ 2 ∂μ) = m at *
  generalize (∫ x, ψ θ x * φ x ∂μ) = s at *
  generalize (∫ x, ψ θ x ^ 2 * (ψ' θ x / ψ θ x) ∂μ) = a at *
  generalize (∫ x, ψ' θ x * φ x ∂μ) = b at *
  push_cast
  field_simp

/-- A concrete case of the hypotheses: two configurations, `ψ = t` and `2`, `φ = 1` and `-1`, at `t = 1`. -/
example (w : ℝ) : ∃ d, HasDerivAt (fun t : ℝ => w * overlapSq Measure.count (fun b : Bool => if b then t else 2) (fun b => if b then 1 else -1)) d 1 := by
  have h1 : DiffUnder (Measure.count : Measure Bool) (fun (t : ℝ) (b : Bool) => (if b then t else 2 : ℝ) ^ 2)
      (fun (t : ℝ) (b : Bool) => 2 * (if b then t else 2 : ℝ) * (if b then 1 else 0 : ℝ)) 1 := by
    refine diffUnder_finite _ _ 1 ?_ ?_
    · rintro (_ | _) t
      · simp only [Bool.false_eq_true, if_false]
        simpa using hasDerivAt_const t ((2 : ℝ) ^ 2)
      · simp only [if_true]
        simpa using (hasDerivAt_id t).fun_pow 2
    · rintro (_ | _) <;> simp <;> fun_prop
  have h2 : DiffUnder (Measure.count : Measure Bool) (fun (t : ℝ) (b : Bool) => (if b then t else 2 : ℝ) * (if b then 1 else -1 : ℝ))
      (fun (_ : ℝ) (b : Bool) => (if b then 1 else 0 : ℝ) * (if b then 1 else -1 : ℝ)) 1 := by
    refine diffUnder_finite _ _ 1 ?_ ?_
    · rintro (_ | _) t
      · simp only [Bool.false_eq_true, if_false]
        simpa using hasDerivAt_const t ((2 : ℝ) * -1)
      · simp only [if_true]
        simpa using (hasDerivAt_id t).mul_const (1 : ℝ)
    · rintro (_ | _) <;> simp <;> fun_prop
  refine ⟨_, c107_derivative _ _ _ 1 w h1 h2 ?_ ?_ ?_ ?_⟩
  · exact Filter.Eventually.of_forall fun b => by cases b <;> norm_num
  · exact Filter.Eventually.of_forall fun b => by cases b <;> norm_num
  · rw [integral_fintype Integrable.of_finite]
    simp [Measure.real]
    norm_num
  · rw [integral_fintype Integrable.of_finite]
    simp [Measure.real]

/-- A batch: two walkers on two devices for the target, one for the current state. -/
example (big : ℝ) : overlapOf big (0, 100) (targetOf (fun x : ℝ => x) (fun x => x ^ 2) [[1], [2]] [[4]]) = some (3 / 4 * 4) := by
  rw [c107_batch big _ _ _ _ (by simp) (by simp) (by simp)]
  simp [sampleMean, globalMean]
  norm_num

/-- A node of the current state at a walker of the target: the walker is left out, where the mean of the quotients would count it with 0. -/
theorem c107_node_dropped (big : ℝ) : (divInDist big (0, 100) (quotients (fun x : ℝ => x) (fun _ => 1) [[0, 2]])).1 = some 2 ∧
    sampleMean [0, 2] (fun x : ℝ => x / 1) = 1 := by
  constructor
  · rw [c107_div]
    have : ratios (quotients (fun x : ℝ => x) (fun _ => 1) [[0, 2]]).flatten = [2] := by
      simp [ratios, quotients, signedLog, logRatio, Real.exp_log]
    rw [this]
    simp [meanOrNan, globalMean]
  · simp [sampleMean, globalMean]

end Law
end Jaqmc.LegacyLoss.Props
