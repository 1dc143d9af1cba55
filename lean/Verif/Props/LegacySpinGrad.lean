import Verif.Props.LegacySpinEst
import Verif.Spec.LegacyPenalty
import Mathlib.Analysis.Calculus.Deriv.Inv
import Mathlib.Analysis.Calculus.Deriv.Pow
import Mathlib.MeasureTheory.Integral.DominatedConvergence
import Mathlib.MeasureTheory.Measure.Count
/-! C106: the gradient of the spin penalty. -/
namespace Jaqmc.LegacyLoss.Props
open Jaqmc.LegacyLoss Jaqmc.LegacyLoss.Spec Jaqmc.Stats.Spec Jaqmc.LossGrad MeasureTheory

attribute [local instance] Classical.propDecidable

/-- Products of the two numbers of a pair, where both are finite. -/
def products (f : ℝ → ℝ) (ws : List (F × F)) : List ℝ := ws.filterMap fun
  | (.num p, .num g) => some (f p * g)
  | _ => none

theorem structure_eq (big : ℝ) (f : ℝ → ℝ) (shards : List (List (F × F))) :
    structureMean big (onValues f (finiteMask big (shards.map (List.map Prod.fst)))) (shards.map (List.map Prod.snd)) =
      meanOrNan (products f shards.flatten) := by
  unfold structureMean
  rw [pmean_eq]
  congr 1
  unfold live products onValues finiteMask
  rw [List.map_map, List.map_map, List.zipWith_map, List.zipWith_self]
  have h1 : ∀ s : List (F × F), List.zipWith (fun (p : ℝ × Bool) (g : F) => (p.1 * g.nanToNum big, g.isFinite && p.2))
      ((List.map (fun p : ℝ × Bool => (f p.1, p.2)) ∘ List.map fun e : F => (e.nanToNum big, e.isFinite)) (s.map Prod.fst)) (s.map Prod.snd) =
      s.map fun w => (f (w.1.nanToNum big) * w.2.nanToNum big, w.2.isFinite && w.1.isFinite) := by
    intro s
    simp only [Function.comp, List.map_map]
    rw [List.zipWith_map, List.zipWith_self]
    rfl
  simp only [Function.comp] at h1 ⊢
  simp only [h1]
  rw [← List.map_flatten]
  induction shards.flatten with
  | nil => rfl
  | cons w l ih =>
    obtain ⟨p, g⟩ := w
    cases p <;> cases g <;> simp_all [F.nanToNum, F.isFinite]

/-- C106: the covariance part: the mean of `(P - mean P) ∂log ψ` over the walkers whose local value and derivative are real numbers; a
derivative that is not finite removes its walker for that parameter only. -/
theorem c106_self_adjoint (big : ℝ) (shards : List (List (F × F))) :
    selfAdjointGrad big (finiteMask big (shards.map (List.map Prod.fst))) (shards.map (List.map Prod.snd)) =
      (meanOrNan (finite (shards.flatten.map Prod.fst))).bind fun m => meanOrNan (products (fun p => p - m) shards.flatten) := by
  unfold selfAdjointGrad
  rw [pmean_eq, live_finite, ← List.map_flatten]
  cases h : meanOrNan (finite (shards.flatten.map Prod.fst)) with
  | none => rfl
  | some m => rw [Option.bind_some, ← structure_eq big]

section Batch
variable {X : Type}

/-- The values of a function on the walkers. -/
def onWalkers (f : X → ℝ) (shards : List (List X)) : List (List F) := shards.map (List.map fun x => .num (f x))

theorem zip_walkers (f h : X → ℝ) (shards : List (List X)) :
    onWalkers f shards = (shards.map (List.map fun x => (F.num (f x), F.num (h x)))).map (List.map Prod.fst) ∧
    onWalkers h shards = (shards.map (List.map fun x => (F.num (f x), F.num (h x)))).map (List.map Prod.snd) := by
  unfold onWalkers
  rw [List.map_map, List.map_map]
  constructor <;> refine List.map_congr_left fun s _ => by simp [Function.comp_def]

theorem finite_num (l : List ℝ) : finite (l.map F.num) = l := by
  unfold finite; rw [List.filterMap_map]; exact List.filterMap_some

theorem finite_walkers (f : X → ℝ) (shards : List (List X)) : finite (onWalkers f shards).flatten = shards.flatten.map f := by
  unfold onWalkers
  rw [← List.map_flatten, ← finite_num (shards.flatten.map f), List.map_map]
  rfl

theorem mean_sub_mul (f g : X → ℝ) (c : ℝ) (xs : List X) :
    sampleMean xs (fun x => (f x - c) * g x) = sampleMean xs (fun x => f x * g x) - c * sampleMean xs g := by
  unfold sampleMean globalMean
  simp only [List.length_map]
  have : (xs.map fun x => (f x - c) * g x).sum = (xs.map fun x => f x * g x).sum - c * (xs.map g).sum := by
    induction xs with
    | nil => simp
    | cons a l ih => simp only [List.map_cons, List.sum_cons, ih]; ring
  rw [this]; ring

theorem mask_walkers (big : ℝ) (f : X → ℝ) (shards : List (List X)) :
    finiteMask big (onWalkers f shards) = shards.map (List.map fun x => (f x, true)) := by
  unfold finiteMask onWalkers
  rw [List.map_map]
  refine List.map_congr_left fun s _ => ?_
  simp only [Function.comp, List.map_map]
  rfl

theorem products_walkers (f : ℝ → ℝ) (p h : X → ℝ) (xs : List X) :
    products f (xs.map fun x => (F.num (p x), F.num (h x))) = xs.map fun x => f (p x) * h x := by
  unfold products
  rw [List.filterMap_map, ← List.filterMap_eq_map]
  rfl

/-- The covariance part on a batch of finite values. -/
theorem self_adjoint_walkers (big : ℝ) (shards : List (List X)) (hne : shards.flatten ≠ []) (P g : X → ℝ) :
    selfAdjointGrad big (finiteMask big (onWalkers P shards)) (onWalkers g shards) = some (covOf (sampleMean shards.flatten) P g) := by
  obtain ⟨h1, h2⟩ := zip_walkers P g shards
  rw [h1, h2, c106_self_adjoint, ← List.map_flatten, List.map_map]
  have h3 : finite (shards.flatten.map (Prod.fst ∘ fun x => (F.num (P x), F.num (g x)))) = shards.flatten.map P := by
    rw [← finite_num (shards.flatten.map P), List.map_map]; rfl
  rw [h3, meanOrNan, if_neg (by simpa using hne), Option.bind_some, products_walkers, meanOrNan, if_neg (by simpa using hne)]
  congr 1
  exact mean_sub_mul P g _ _

/-- C106: the gradient of the spin penalty on a batch, with no outlier removal and no clipping: the penalty gradient for the sample means
over all walkers of all devices; the loss itself is 0, and nothing is added if the weight is not positive. -/
theorem c106_batch (big : ℝ) (cfg : SpinCfg) (hrm : cfg.rmOutlier = false)
    (hclip : (cfg.clipSchema = "deviation" ∧ cfg.clipWidth ≤ 0) ∨ (cfg.clipSchema = "percentile" ∧ cfg.clipBound = (0, 100)))
    (nu nd step : ℕ) (shards : List (List X)) (hne : shards.flatten ≠ []) (P g dP : X → ℝ) :
    ∃ aux, spinLoss big cfg none nu nd step (onWalkers P shards) (onWalkers g shards) (onWalkers dP shards) =
      .ok (0, step, aux, some (if 0 < cfg.weight then penaltyGradient cfg.weight (sampleMean shards.flatten) P g dP else 0)) := by
  have hmask : localValueMask big cfg.rmOutlier cfg.outlierSchema cfg.outlierWidth cfg.outlierBound (onWalkers P shards) =
      .ok (finiteMask big (onWalkers P shards)) := by rw [hrm]; rfl
  have hpen : pmeanMask (finiteMask big (onWalkers P shards)) = some (sampleMean shards.flatten P) := by
    rw [pmean_eq, live_finite, finite_walkers, meanOrNan, if_neg (by simpa using hne)]; rfl
  have hc : localValueClip cfg.clipSchema cfg.clipWidth cfg.clipBound (finiteMask big (onWalkers P shards)) =
      some (finiteMask big (onWalkers P shards)) := by
    unfold localValueClip
    rcases hclip with ⟨h1, h2⟩ | ⟨h1, h2⟩
    · rw [h1]; simp [h2]
    · rw [h1, h2]; simp
  obtain ⟨aux, haux, hap, ham⟩ : ∃ aux, spinPenalty big cfg nu nd (onWalkers P shards) = .ok aux ∧
      aux.penalty = pmeanMask (finiteMask big (onWalkers P shards)) ∧ aux.masked = finiteMask big (onWalkers P shards) := by
    unfold spinPenalty
    rw [hmask]
    exact ⟨_, rfl, rfl, rfl⟩
  refine ⟨aux, ?_⟩
  unfold spinLoss
  rw [haux]
  dsimp only [Option.getD_none]
  congr 4
  by_cases hw : 0 < cfg.weight
  · rw [if_pos (by simpa using hw), if_pos hw]
    unfold spinGrad
    have hp2 : structureMean big (onValues (fun _ => 1) (finiteMask big (onWalkers P shards))) (onWalkers dP shards) =
        some (sampleMean shards.flatten dP) := by
      obtain ⟨h1, h2⟩ := zip_walkers P dP shards
      rw [h1, h2, structure_eq, ← List.map_flatten, products_walkers, meanOrNan, if_neg (by simpa using hne)]
      simp [sampleMean]
    simp only [hap, ham, hc, Option.bind_eq_bind, Option.bind_some, self_adjoint_walkers big shards hne P g, hp2, hpen]
    rfl
  · rw [if_neg (by simpa using hw), if_neg hw]

end Batch

section Law
variable {X : Type} [MeasurableSpace X] {μ : Measure X}

theorem diffUnder_hasDerivAt {f f' : ℝ → X → ℝ} {θ : ℝ} (h : DiffUnder μ f f' θ) :
    Integrable (f' θ) μ ∧ HasDerivAt (fun t => ∫ x, f t x ∂μ) (∫ x, f' θ x ∂μ) θ := by
  obtain ⟨bound, hb, ε, hε, hx⟩ := h.dom
  exact hasDerivAt_integral_of_dominated_loc_of_deriv_le (Metric.ball_mem_nhds θ hε) h.meas h.int h.meas'
    (hx.mono fun x hx t ht => (hx t ht).1) hb (hx.mono fun x hx t ht => (hx t ht).2)

/-- The derivative of an expectation over `ψ²` whose local values depend on the parameter. -/
theorem expect_hasDerivAt (ψ ψ' P P' : ℝ → X → ℝ) (θ : ℝ) (hN : DiffUnder μ (fun t x => ψ t x ^ 2) (fun t x => 2 * ψ t x * ψ' t x) θ)
    (hM : DiffUnder μ (fun t x => ψ t x ^ 2 * P t x) (fun t x => 2 * ψ t x * ψ' t x * P t x + ψ t x ^ 2 * P' t x) θ)
    (h0 : ∀ᵐ x ∂μ, ψ θ x ≠ 0) (hI : Integrable (fun x => ψ θ x * ψ' θ x * P θ x) μ) (hn : ∫ x, ψ θ x ^ 2 ∂μ ≠ 0) :
    HasDerivAt (fun t => expect μ (ψ t) (P t))
      (2 * covOf (expect μ (ψ θ)) (P θ) (fun x => ψ' θ x / ψ θ x) + expect μ (ψ θ) (P' θ)) θ := by
  obtain ⟨i1, d1⟩ := diffUnder_hasDerivAt hN
  obtain ⟨i2, d2⟩ := diffUnder_hasDerivAt hM
  have hres : HasDerivAt (fun t => expect μ (ψ t) (P t)) _ θ := d2.div d1 hn
  have e1 : ∫ x, 2 * ψ θ x * ψ' θ x ∂μ = 2 * ∫ x, ψ θ x ^ 2 * (ψ' θ x / ψ θ x) ∂μ := by
    rw [← integral_const_mul]
    refine integral_congr_ae (h0.mono fun x hx => ?_)
    dsimp only
    field_simp
  have e2 : ∫ x, (2 * ψ θ x * ψ' θ x * P θ x + ψ θ x ^ 2 * P' θ x) ∂μ =
      2 * ∫ x, ψ θ x ^ 2 * (P θ x * (ψ' θ x / ψ θ x)) ∂μ + ∫ x, ψ θ x ^ 2 * P' θ x ∂μ := by
    have hI2 : Integrable (fun x => 2 * ψ θ x * ψ' θ x * P θ x) μ := (hI.const_mul 2).congr (Filter.Eventually.of_forall fun x => by ring)
    have hI3 : Integrable (fun x => ψ θ x ^ 2 * P' θ x) μ :=
      (i2.sub hI2).congr (Filter.Eventually.of_forall fun x => by simp)
    rw [integral_add hI2 hI3, ← integral_const_mul]
    congr 1
    refine integral_congr_ae (h0.mono fun x hx => ?_)
    dsimp only
    field_simp
  rw [e1, e2] at hres
  refine hres.congr_deriv ?_
  unfold covOf expect
  generalize (∫ x, ψ θ x ^ 2 ∂μ) = n at *
  generalize (∫ x, ψ θ x ^ 2 * P θ x ∂μ) = m at *
  generalize (∫ x, ψ θ x ^ 2 * (ψ' θ x / ψ θ x) ∂μ) = a at *
  generalize (∫ x, ψ θ x ^ 2 * (P θ x * (ψ' θ x / ψ θ x)) ∂μ) = b at *
  generalize (∫ x, ψ θ x ^ 2 * P' θ x ∂μ) = c at *
  field_simp
  ring

/-- C106: with the expectations over `ψ²` in place of the sample means, the gradient is half the derivative of the weight times the squared
expectation of the penalty, for local values that themselves depend on the parameter. -/
theorem c106_derivative (ψ ψ' P P' : ℝ → X → ℝ) (θ w : ℝ) (hN : DiffUnder μ (fun t x => ψ t x ^ 2) (fun t x => 2 * ψ t x * ψ' t x) θ)
    (hM : DiffUnder μ (fun t x => ψ t x ^ 2 * P t x) (fun t x => 2 * ψ t x * ψ' t x * P t x + ψ t x ^ 2 * P' t x) θ)
    (h0 : ∀ᵐ x ∂μ, ψ θ x ≠ 0) (hI : Integrable (fun x => ψ θ x * ψ' θ x * P θ x) μ) (hn : ∫ x, ψ θ x ^ 2 ∂μ ≠ 0) :
    HasDerivAt (fun t => w * expect μ (ψ t) (P t) ^ 2)
      (2 * penaltyGradient w (expect μ (ψ θ)) (P θ) (fun x => ψ' θ x / ψ θ x) (P' θ)) θ := by
  have hres := ((expect_hasDerivAt ψ ψ' P P' θ hN hM h0 hI hn).fun_pow 2).const_mul w
  refine hres.congr_deriv ?_
  unfold penaltyGradient
  push_cast
  ring

/-- On finitely many configurations, differentiability in the parameter suffices. -/
theorem diffUnder_finite [Finite X] [MeasurableSingletonClass X] [IsFiniteMeasure μ] (f f' : ℝ → X → ℝ) (θ : ℝ)
    (hd : ∀ x t, HasDerivAt (fun s => f s x) (f' t x) t) (hc : ∀ x, Continuous fun t => f' t x) : DiffUnder μ f f' θ where
  meas := Filter.Eventually.of_forall fun t => (Integrable.of_finite (f := f t)).aestronglyMeasurable
  int := Integrable.of_finite
  meas' := (Integrable.of_finite (f := f' θ)).aestronglyMeasurable
  dom := by
    have hb : ∀ x, ∃ C, ∀ t ∈ Metric.ball θ 1, ‖f' t x‖ ≤ C := by
      intro x
      obtain ⟨C, hC⟩ := (isCompact_closedBall θ 1).exists_bound_of_continuousOn (hc x).continuousOn
      exact ⟨C, fun t ht => hC t (Metric.ball_subset_closedBall ht)⟩
    choose C hC using hb
    exact ⟨C, Integrable.of_finite, 1, one_pos, Filter.Eventually.of_forall fun x t ht => ⟨hC x t ht, hd x t⟩⟩

/-- A concrete case of the hypotheses: two configurations, `ψ = t` and `2`, penalties `3` and `t`, at `t = 1`. -/
example (w : ℝ) : ∃ d, HasDerivAt (fun t : ℝ => w * expect Measure.count (fun b : Bool => if b then t else 2) (fun b => if b then 3 else t) ^ 2) d 1 := by
  have h1 : DiffUnder (Measure.count : Measure Bool) (fun (t : ℝ) (b : Bool) => (if b then t else 2 : ℝ) ^ 2)
      (fun (t : ℝ) (b : Bool) => 2 * (if b then t else 2 : ℝ) * (if b then 1 else 0 : ℝ)) 1 := by
    refine diffUnder_finite _ _ 1 ?_ ?_
    · rintro (_ | _) t
      · simp only [Bool.false_eq_true, if_false]
        simpa using hasDerivAt_const t ((2 : ℝ) ^ 2)
      · simp only [if_true]
        simpa using (hasDerivAt_id t).fun_pow 2
    · rintro (_ | _) <;> simp <;> fun_prop
  have h2 : DiffUnder (Measure.count : Measure Bool) (fun (t : ℝ) (b : Bool) => (if b then t else 2 : ℝ) ^ 2 * (if b then 3 else t : ℝ))
      (fun (t : ℝ) (b : Bool) => 2 * (if b then t else 2 : ℝ) * (if b then 1 else 0 : ℝ) * (if b then 3 else t : ℝ) +
        (if b then t else 2 : ℝ) ^ 2 * (if b then 0 else 1 : ℝ)) 1 := by
    refine diffUnder_finite _ _ 1 ?_ ?_
    · rintro (_ | _) t
      · simp only [Bool.false_eq_true, if_false]
        simpa using (hasDerivAt_id t).const_mul ((2 : ℝ) ^ 2)
      · simp only [if_true]
        simpa using ((hasDerivAt_id t).fun_pow 2).mul_const (3 : ℝ)
    · rintro (_ | _) <;> simp <;> fun_prop
  refine ⟨_, c106_derivative _ _ _ _ 1 w h1 h2 ?_ Integrable.of_finite ?_⟩
  · exact Filter.Eventually.of_forall fun b => by cases b <;> norm_num
  · rw [integral_fintype Integrable.of_finite]
    simp [Measure.real]
    norm_num

end Law
end Jaqmc.LegacyLoss.Props
