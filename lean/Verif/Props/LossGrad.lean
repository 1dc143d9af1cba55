import Verif.Lemmas.LossGrad
/-! # Clipping and the energy gradient: C22, C23 -/
namespace Jaqmc.LossGrad.Props
open Jaqmc.Stats Jaqmc.LossGrad Jaqmc.LossGrad.Spec
open Jaqmc.Stats.Spec (globalMean)

/-! ### C23 -/

/-- C23, method "iqr": with a non-negative scale and at least one value that is not NaN on any device, the
output is the input limited to the window `[q1 - s·(q3-q1), q3 + s·(q3-q1)]`, the quartiles being those of
the values of all devices. -/
theorem c23_iqr (scale : ℝ) (hs : 0 ≤ scale) (shards : List (List (Option ℝ)))
    (hv : shards.flatten.filterMap id ≠ []) :
    ∃ q1 q3 : ℝ, IsQuantile (1 / 4) (shards.flatten.filterMap id) q1 ∧
      IsQuantile (3 / 4) (shards.flatten.filterMap id) q3 ∧ q1 ≤ q3 ∧ ∃ out, clipReal "iqr" scale shards = .ok out ∧
        AllLimited (q1 - scale * (q3 - q1)) (q3 + scale * (q3 - q1)) shards out := by
  obtain ⟨q1, q3, h1, h3, h⟩ := quantile_mono (q1 := 1 / 4) (q2 := 3 / 4) (by norm_num) (by norm_num)
    (by norm_num) shards.flatten hv
  refine ⟨q1, q3, isQuantile_of h1 (by norm_num) (by norm_num), isQuantile_of h3 (by norm_num) (by norm_num), h, iqrClip scale shards, by unfold clipReal; simp only [if_true], ?_⟩
  unfold iqrClip
  rw [h1, h3]
  have : 0 ≤ scale * (q3 - q1) := mul_nonneg hs (by linarith)
  exact allLimited_map (by linarith) shards

/-- C23, method "mad": the window is `median ± s·MAD` with the median and the median absolute deviation of
the values of all devices. -/
theorem c23_mad (scale : ℝ) (hs : 0 ≤ scale) (shards : List (List (Option ℝ)))
    (hv : shards.flatten.filterMap id ≠ []) :
    ∃ median mad : ℝ, IsQuantile (1 / 2) (shards.flatten.filterMap id) median ∧
      IsQuantile (1 / 2) ((shards.flatten.filterMap id).map (fun x => |x - median|)) mad ∧
      0 ≤ mad ∧ ∃ out, clipReal "mad" scale shards = .ok out ∧
        AllLimited (median - scale * mad) (median + scale * mad) shards out := by
  obtain ⟨md, _, h1, _, _⟩ := quantile_mono (q1 := 1 / 2) (q2 := 1 / 2) (by norm_num) (by norm_num)
    (by norm_num) shards.flatten hv
  have hf : ∀ l : List (Option ℝ), (l.map (fun x => nabs (nminus x (some md)))).filterMap id
      = (l.filterMap id).map (fun x => |x - md|) := by
    intro l
    induction l with
    | nil => rfl
    | cons x l ih =>
      cases x with
      | none => exact ih
      | some x => exact congrArg (|x - md| :: ·) ih
  have hq : nanquantile (1 / 2) (shards.flatten.map (fun x => nabs (nminus x (some md))))
      = nanquantile (1 / 2) (((shards.flatten.filterMap id).map (fun x => |x - md|)).map some) := by
    unfold nanquantile
    rw [hf, Jaqmc.Stats.Props.filterMap_id_map_some]
  obtain ⟨ad, h2, h3⟩ := quantile_nonneg (q := 1 / 2) (by norm_num) (by norm_num)
    (((shards.flatten.filterMap id).map (fun x => |x - md|)).map some)
    (by rw [Jaqmc.Stats.Props.filterMap_id_map_some]; simpa using hv)
    (by
      rw [Jaqmc.Stats.Props.filterMap_id_map_some]
      intro x hx
      obtain ⟨y, _, rfl⟩ := List.mem_map.1 hx
      exact abs_nonneg _)
  refine ⟨md, ad, isQuantile_of h1 (by norm_num) (by norm_num), by
      have := isQuantile_of h2 (by norm_num) (by norm_num)
      rwa [Jaqmc.Stats.Props.filterMap_id_map_some] at this, h3, madClip scale shards, by
    unfold clipReal; simp only [show ("mad" = "iqr") = False by simp, if_false, if_true], ?_⟩
  unfold madClip
  rw [h1]
  dsimp only
  rw [hq, h2]
  have : 0 ≤ scale * ad := mul_nonneg hs h3
  exact allLimited_map (by linarith) shards

/-- C23, method "none" returns the values as they are, and any other name raises. -/
theorem c23_none (scale : ℝ) (shards : List (List (Option ℝ))) :
    clipReal "none" scale shards = .ok shards ∧
    ∀ m, m ≠ "iqr" → m ≠ "mad" → m ≠ "none" → clipReal m scale shards = .error .valueError := by
  constructor
  · unfold clipReal; simp
  · intro m h1 h2 h3; unfold clipReal; simp [h1, h2, h3]

/-- C23: limiting to a window keeps the order of the values. -/
theorem c23_order {lo hi x y : ℝ} {x' y' : Option ℝ} (hx : Limited lo hi (some x) x') (hy : Limited lo hi (some y) y')
    (h : x ≤ y) : ∃ a b, x' = some a ∧ y' = some b ∧ a ≤ b := by
  obtain ⟨a, rfl, a1, a2, a3, a4, a5⟩ := hx
  obtain ⟨b, rfl, b1, b2, b3, b4, b5⟩ := hy
  refine ⟨a, b, rfl, rfl, ?_⟩
  rcases lt_or_ge x lo with c | c
  · rw [a4 c]; exact b1
  · rcases lt_or_ge hi x with d | d
    · rw [a5 d, b5 (lt_of_lt_of_le d h)]
    · rw [a3 c d]
      rcases lt_or_ge hi y with e | e
      · rw [b5 e]; exact d
      · rw [b3 (c.trans h) e]; exact h

/-- C23: complex values are limited in the real and in the imaginary part separately, each by the window of
that part. -/
theorem c23_complex (method : String) (scale : ℝ) (zs : List (List ℂ)) (re im : List (List (Option ℝ)))
    (hre : clipReal method scale (zs.map (List.map (fun z => some z.re))) = .ok re)
    (him : clipReal method scale (zs.map (List.map (fun z => some z.im))) = .ok im) :
    clipComplex method scale (zs.map (List.map some)) = .ok (List.zipWith (List.zipWith ncomplex) re im) := by
  unfold clipComplex
  have e : ∀ f : ℂ → ℝ, (zs.map (List.map some)).map (List.map (Option.map f))
      = zs.map (List.map (fun z => some (f z))) := by
    intro f; rw [List.map_map]; apply List.map_congr_left; intro l _; simp [List.map_map]
  dsimp only
  rw [e, e, hre, him]

/-- C23 needs a non-negative scale: with a negative one (the configuration accepts any float) every value,
outlier or not, is replaced by the same number. -/
theorem c23_negative_scale :
    clipReal "mad" (-1) [[some 0, some 1, some 3]] = .ok [[some 0, some 0, some 0]] := by
  have sort1 : ([0, 1, 3] : List ℝ).insertionSort (· ≤ ·) = [0, 1, 3] := by
    apply List.Pairwise.insertionSort_eq
    norm_num
  have sort2 : ([1, 0, 2] : List ℝ).insertionSort (· ≤ ·) = [0, 1, 2] := by
    have h1 : ([0, 2] : List ℝ).insertionSort (· ≤ ·) = [0, 2] := by
      apply List.Pairwise.insertionSort_eq
      norm_num
    rw [List.insertionSort_cons, h1]
    norm_num [List.orderedInsert]
  have med1 : nanquantile (1 / 2) ([some 0, some 1, some 3] : List (Option ℝ)) = some 1 := by
    unfold nanquantile
    have : ([some 0, some 1, some 3] : List (Option ℝ)).filterMap id = [0, 1, 3] := rfl
    rw [this, sort1]
    dsimp only
    rw [if_neg (by simp)]
    norm_num
  have med2 : nanquantile (1 / 2) ([some 1, some 0, some 2] : List (Option ℝ)) = some 1 := by
    unfold nanquantile
    have : ([some 1, some 0, some 2] : List (Option ℝ)).filterMap id = [1, 0, 2] := rfl
    rw [this, sort2]
    dsimp only
    rw [if_neg (by simp)]
    norm_num
  unfold clipReal
  simp only [show ("mad" = "iqr") = False by simp, if_false, if_true]
  unfold madClip
  simp only [List.flatten_cons, List.flatten_nil, List.append_nil, med1]
  have : ([some 0, some 1, some 3] : List (Option ℝ)).map (fun x => nabs (nminus x (some 1)))
      = [some 1, some 0, some 2] := by
    simp [nabs, nminus]; norm_num
  rw [this, med2]
  simp [clip, nminus, nadd, nscale]

/-- The hypotheses of `c23_mad` and `c23_iqr` are met by a batch on two devices with a NaN walker. -/
example : ([[some (0 : ℝ), none], [some 5]] : List (List (Option ℝ))).flatten.filterMap id ≠ [] := by simp

/-! ### C22 -/

theorem walkers_grad (shards : List (List (ℂ × ℂ))) :
    (walkers shards).map (List.map Walker.grad) = shards.map (List.map (fun w => some w.1)) := by
  unfold walkers; rw [List.map_map]; apply List.map_congr_left; intro l _; simp [List.map_map]

theorem walkers_loss (shards : List (List (ℂ × ℂ))) :
    (walkers shards).map (List.map Walker.loss) = shards.map (List.map (fun w => some w.2)) := by
  unfold walkers; rw [List.map_map]; apply List.map_congr_left; intro l _; simp [List.map_map]

theorem mm {A B C : Type} (a : A → B) (b : B → C) (l : List (List A)) :
    (l.map (List.map a)).map (List.map b) = l.map (List.map (fun x => b (a x))) := by
  rw [List.map_map]; apply List.map_congr_left; intro x _; simp [List.map_map]

theorem reduce_shift (method : String) (hm : method = "iqr" ∨ method = "mad" ∨ method = "none") (scale : ℝ)
    (shards : List (List (ℂ × ℂ))) (h : shards ≠ []) (hs : ∀ s ∈ shards, s ≠ []) (c : ℝ) :
    ∃ (P : ℝ) (L C G : ℂ), reduce method scale (walkers shards) = .ok ⟨some P, some L, some C, some G⟩ ∧
      reduce method scale (walkers (shift c shards))
        = .ok ⟨some (P + c * G.re), some (L + c), some (C + c), some G⟩ := by
  have hflat : (shards.map (List.map Prod.snd)).flatten ≠ [] := by
    obtain ⟨s, ss, rfl⟩ := List.exists_cons_of_ne_nil h
    have := hs s (by simp)
    simp [this]
  obtain ⟨f, hf, hf'⟩ := clipComplex_shift method hm scale (shards.map (List.map Prod.snd)) hflat c
  rw [mm, mm] at hf hf'
  have zip : ∀ g : ℂ × ℂ → ℂ, List.zipWith (List.zipWith weighted) (shards.map (List.map (fun w => some w.1)))
      (shards.map (List.map (fun w => some (g w))))
      = shards.map (List.map (fun w => some (((starRingEnd ℂ) w.1 * g w).re))) := by
    intro g
    rw [zipWith_map_self]
    apply List.map_congr_left; intro l _
    rw [zipWith_map_self]
    rfl
  refine ⟨avg shards (fun w => ((starRingEnd ℂ) w.1 * f w.2).re), avg shards Prod.snd,
    avg shards (fun w => f w.2), avg shards Prod.fst, ?_, ?_⟩
  · unfold reduce
    rw [walkers_loss, walkers_grad, hf]
    dsimp only
    rw [zip, meanOf_avg _ h hs, meanOf_avg _ h hs, meanOf_avg _ h hs, meanOf_avg _ h hs]
  · have el : (walkers (shift c shards)).map (List.map Walker.loss)
        = shards.map (List.map (fun w => some (w.2 + (c : ℂ)))) := by
      rw [walkers_loss]; unfold shift; rw [mm]
    have eg : (walkers (shift c shards)).map (List.map Walker.grad) = shards.map (List.map (fun w => some w.1)) := by
      rw [walkers_grad]; unfold shift; rw [mm]
    unfold reduce
    rw [el, eg, hf']
    dsimp only
    rw [zip (fun w => f w.2 + (c : ℂ)), meanOf_avg _ h hs, meanOf_avg _ h hs, meanOf_avg _ h hs, meanOf_avg _ h hs]
    congr 2
    · congr 1
      rw [avg_re, ← avg_smul, ← avg_add]
      congr 1
      funext w
      simp
      ring
    · congr 1
      rw [avg_add, avg_const _ h hs]
    · congr 1
      rw [avg_add, avg_const _ h hs]

/-- Statistics of steps without NaN, and the same after the shift. -/
structure Num where
  P : ℝ
  L : ℂ
  C : ℂ
  G : ℂ

def Num.red (n : Num) : Reduced := ⟨some n.P, some n.L, some n.C, some n.G⟩
noncomputable def Num.shifted (c : ℝ) (n : Num) : Reduced :=
  ⟨some (n.P + c * n.G.re), some (n.L + c), some (n.C + c), some n.G⟩

theorem reduceSteps_shift (method : String) (hm : method = "iqr" ∨ method = "mad" ∨ method = "none") (scale : ℝ)
    (c : ℝ) (steps : List (List (List (ℂ × ℂ)))) (hs : ∀ s ∈ steps, s ≠ [] ∧ ∀ d ∈ s, d ≠ []) :
    ∃ ns : List Num, ns.length = steps.length ∧
      reduceSteps method scale (steps.map walkers) = .ok (ns.map Num.red) ∧
      reduceSteps method scale (steps.map (fun s => walkers (shift c s))) = .ok (ns.map (Num.shifted c)) := by
  induction steps with
  | nil => exact ⟨[], rfl, rfl, rfl⟩
  | cons s ss ih =>
    obtain ⟨ns, hl, h1, h2⟩ := ih (fun x hx => hs x (by simp [hx]))
    obtain ⟨P, L, C, G, r1, r2⟩ := reduce_shift method hm scale s (hs s (by simp)).1 (hs s (by simp)).2 c
    refine ⟨⟨P, L, C, G⟩ :: ns, by simp [hl], ?_, ?_⟩
    · simp only [List.map_cons, reduceSteps, r1, h1]
      rfl
    · simp only [List.map_cons, reduceSteps, r2, h2]
      rfl

theorem nmean_map {K : Type} [Field K] {A : Type} (l : List A) (h : l ≠ []) (f : A → K) :
    nmean (l.map (fun x => some (f x))) = some (mean (l.map f)) := by
  have e : l.map (fun x => some (f x)) = (l.map f).map some := by rw [List.map_map]; rfl
  rw [e]
  exact Jaqmc.Stats.Props.pmean_some (l.map f) (by simpa using h)

/-- C22, for a real constant: over any number of steps, devices and walkers (without NaN) and for each
clipping method and scale, adding the constant to every local energy adds it to the reported loss and leaves
the gradient as it was. -/
theorem c22_real_shift_partial (method : String) (hm : method = "iqr" ∨ method = "mad" ∨ method = "none") (scale : ℝ)
    (c : ℝ) (steps : List (List (List (ℂ × ℂ)))) (hne : steps ≠ [])
    (hs : ∀ s ∈ steps, s ≠ [] ∧ ∀ d ∈ s, d ≠ []) :
    ∃ (loss : ℂ) (grad : ℝ),
      lossAndGrad method scale (steps.map walkers) = .ok (some loss, some grad) ∧
      lossAndGrad method scale (steps.map (fun s => walkers (shift c s))) = .ok (some (loss + c), some grad) := by
  obtain ⟨ns, hl, h1, h2⟩ := reduceSteps_shift method hm scale c steps hs
  have hn : ns ≠ [] := by
    rintro rfl
    exact hne (List.length_eq_zero_iff.1 hl.symm)
  unfold lossAndGrad
  rw [h1, h2]
  dsimp only
  unfold finalize
  dsimp only
  simp only [List.map_map, Function.comp_def, Num.red, Num.shifted]
  simp only [nmean_map ns hn]
  refine ⟨_, _, rfl, ?_⟩
  simp only [Option.bind_some, Option.map_some, nadd, nscale]
  rw [mean_add, mean_add, mean_add, mean_smul, mean_const ns hn, ← mean_re]
  simp only [Except.ok.injEq, Prod.mk.injEq, Option.some.injEq, true_and]
  simp
  ring

theorem mean_sub {A : Type} (l : List A) (f g : A → ℝ) :
    mean (l.map (fun x => f x - g x)) = mean (l.map f) - mean (l.map g) := by
  have := mean_add l (fun x => f x) (fun x => -1 * g x)
  rw [mean_smul] at this
  rw [sub_eq_add_neg, neg_eq_neg_one_mul, ← this]
  congr 1
  apply List.map_congr_left; intro x _; ring

theorem meanOf_global {A K : Type} [Field K] [CharZero K] (shards : List (List A)) (h : shards ≠ []) (n : Nat)
    (hn : 0 < n) (hs : ∀ s ∈ shards, s.length = n) (f : A → K) :
    meanOf (shards.map (List.map (fun x => some (f x)))) = some (mean (shards.flatten.map f)) := by
  have e : (shards.map (List.map (fun x => some (f x)))).flatten.filterMap id = shards.flatten.map f := by
    rw [flatten_map_map]
    have : shards.flatten.map (fun x => some (f x)) = (shards.flatten.map f).map some := by
      rw [List.map_map]; rfl
    rw [this, Jaqmc.Stats.Props.filterMap_id_map_some]
  rw [Jaqmc.Stats.Props.meanOf_eq _ (by simpa using h) n hn, e]
  · rfl
  · intro s hs'
    obtain ⟨t, ht, rfl⟩ := List.mem_map.1 hs'
    have : t.map (fun x => some (f x)) = (t.map f).map some := by rw [List.map_map]; rfl
    rw [this, Jaqmc.Stats.Props.filterMap_id_map_some, List.length_map, hs t ht]

/-- C22, the value: without clipping and with equally many walkers on each device, one step's gradient is the
covariance estimator plus `4 Im(mean energy) Im(mean log-derivative)`: the baseline is subtracted without the
complex conjugate.  In particular it is the covariance estimator whenever the mean energy or the mean
log-derivative is real. -/
theorem c22_covariance (shards : List (List (ℂ × ℂ))) (h : shards ≠ []) (n : Nat) (hn : 0 < n)
    (hs : ∀ s ∈ shards, s.length = n) (scale : ℝ) :
    lossAndGrad "none" scale [walkers shards] = .ok (some (globalMean (shards.flatten.map Prod.snd)),
      some (covarianceGradient shards.flatten
        + 4 * (globalMean (shards.flatten.map Prod.snd)).im * (globalMean (shards.flatten.map Prod.fst)).im)) := by
  have hc : clipComplex "none" scale (shards.map (List.map (fun w => some w.2)))
      = .ok (shards.map (List.map (fun w => some w.2))) := by
    unfold clipComplex clipReal
    simp only [show ("none" = "iqr") = False by simp, show ("none" = "mad") = False by simp, if_false, if_true]
    congr 1
    rw [mm, mm, zipWith_map_self]
    apply List.map_congr_left; intro l _
    rw [zipWith_map_self]
    rfl
  have zip : List.zipWith (List.zipWith weighted) (shards.map (List.map (fun w => some w.1)))
      (shards.map (List.map (fun w => some w.2)))
      = shards.map (List.map (fun w => some (((starRingEnd ℂ) w.1 * w.2).re))) := by
    rw [zipWith_map_self]
    apply List.map_congr_left; intro l _
    rw [zipWith_map_self]
    rfl
  have hw : shards.flatten ≠ [] := by
    obtain ⟨s, ss, rfl⟩ := List.exists_cons_of_ne_nil h
    have := hs s (by simp)
    intro h0
    have : s = [] := by
      have := congrArg List.length h0
      simp at this
      exact this.1
    subst this; simp at *; omega
  have one : ∀ {K : Type} [Field K] (a : K), nmean [some a] = some a := by
    intro K _ a
    have := Jaqmc.Stats.Props.pmean_some [a] (by simp)
    unfold pmean at this
    simp only [List.map_cons, List.map_nil] at this
    rw [this]; simp [mean]
  unfold lossAndGrad reduceSteps reduce
  rw [walkers_loss, walkers_grad, hc]
  dsimp only
  rw [zip, meanOf_global shards h n hn hs, meanOf_global shards h n hn hs, meanOf_global shards h n hn hs]
  simp only [reduceSteps, finalize, List.map_cons, List.map_nil, one, Option.bind_some, Option.map_some, nadd,
    nscale]
  unfold covarianceGradient globalMean
  simp only [Except.ok.injEq, Prod.mk.injEq, Option.some.injEq]
  refine ⟨rfl, ?_⟩
  change 2 * (mean _ + _) = 2 * mean (shards.flatten.map (fun w =>
      ((starRingEnd ℂ) (w.1 - mean (shards.flatten.map Prod.fst)) * (w.2 - mean (shards.flatten.map Prod.snd))).re))
      + 4 * (mean (shards.flatten.map Prod.snd)).im * (mean (shards.flatten.map Prod.fst)).im
  generalize hg : mean (shards.flatten.map Prod.fst) = g
  generalize he : mean (shards.flatten.map Prod.snd) = e
  generalize shards.flatten = ws at *
  have grR : mean (ws.map (fun w => w.1.re)) = g.re := by rw [← hg]; exact (mean_re ws Prod.fst).symm
  have erR : mean (ws.map (fun w => w.2.re)) = e.re := by rw [← he]; exact (mean_re ws Prod.snd).symm
  have mim : ∀ f : ℂ × ℂ → ℂ, (mean (ws.map f)).im = mean (ws.map (fun x => (f x).im)) := by
    intro f
    have := mean_re ws (fun x => -Complex.I * f x)
    rw [mean_smul] at this
    simpa using this
  have grI : mean (ws.map (fun w => w.1.im)) = g.im := by rw [← hg]; exact (mim Prod.fst).symm
  have erI : mean (ws.map (fun w => w.2.im)) = e.im := by rw [← he]; exact (mim Prod.snd).symm
  have key : ws.map (fun w : ℂ × ℂ => ((starRingEnd ℂ) (w.1 - g) * (w.2 - e)).re)
      = ws.map (fun w => (((((starRingEnd ℂ) w.1 * w.2).re + -e.re * w.1.re) + -e.im * w.1.im)
          + -g.re * w.2.re) + -g.im * w.2.im + (g.re * e.re + g.im * e.im)) := by
    apply List.map_congr_left; intro w _
    simp
    ring
  rw [key, mean_add, mean_add, mean_add, mean_add, mean_add, mean_smul, mean_smul, mean_smul, mean_smul,
    mean_const ws hw, grR, grI, erR, erI]
  simp
  ring

/-- C22 fails for an imaginary constant (local energies are complex numbers here, for example for complex
wavefunctions): one walker with log-derivative `i`; adding `i` to its energy 0 changes the gradient from 0 to 4. -/
theorem c22_complex_shift :
    lossAndGrad "none" 5 [walkers [[(Complex.I, 0)]]] = .ok (some 0, some 0) ∧
    lossAndGrad "none" 5 [walkers (shift Complex.I [[(Complex.I, 0)]])] = .ok (some Complex.I, some 4) := by
  constructor
  · have := c22_covariance [[(Complex.I, 0)]] (by simp) 1 (by simp) (by simp) 5
    rw [this]
    simp [globalMean, covarianceGradient]
  · have := c22_covariance (shift Complex.I [[(Complex.I, 0)]]) (by simp [shift]) 1 (by simp) (by simp [shift]) 5
    rw [this]
    simp [globalMean, covarianceGradient, shift]

/-- C22 fails when a walker's energy is NaN: its product with the log-derivative is left out of the average but
its log-derivative is not left out of the baseline, so the gradient of this two-walker batch moves from 0 to 1
when 1 is added to the energies. -/
theorem c22_nan_walker :
    lossAndGrad "none" 5 [[[⟨some 1, some 0⟩, ⟨some 0, none⟩]]] = .ok (some 0, some 0) ∧
    lossAndGrad "none" 5 [[[⟨some 1, some (0 + 1)⟩, ⟨some 0, none⟩]]] = .ok (some 1, some 1) := by
  constructor
  · simp [lossAndGrad, reduceSteps, reduce, clipComplex, clipReal, ncomplex, weighted, finalize, meanOf, pmean,
      nmean, nanmean, mean, nadd, nscale]
  · simp [lossAndGrad, reduceSteps, reduce, clipComplex, clipReal, ncomplex, weighted, finalize, meanOf, pmean,
      nmean, nanmean, mean, nadd, nscale]
    norm_num

/-- A batch on two devices satisfying the hypotheses of the theorems above, with a complex log-derivative. -/
example : ∀ s ∈ ([[((1 : ℂ) + Complex.I, (2 : ℂ)), (0, 1)], [(3, 4), (1, 0)]] : List (List (ℂ × ℂ))), s.length = 2 := by
  simp

end Jaqmc.LossGrad.Props
