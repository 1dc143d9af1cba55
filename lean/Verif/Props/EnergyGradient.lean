import Verif.Lemmas.EnergyGradient
import Verif.Props.LossGrad
import Mathlib.Analysis.Calculus.Deriv.Linear
import Mathlib.Analysis.Complex.RealDeriv
/-! C94: the gradient the estimator reports is, on average, the derivative of the energy. -/
namespace Jaqmc.LossGrad.Props
open MeasureTheory Filter Topology Spec Jaqmc.Stats.Spec
open scoped BigOperators ComplexConjugate

variable {X : Type} [MeasurableSpace X] {μ : Measure X}

/-- The statistics of a batch of walkers at the configurations `x d k`, walker `k` of device `d`: log-derivative and local energy. -/
def batch {D n : ℕ} (g e : X → ℂ) (x : Fin D × Fin n → X) : List (List (ℂ × ℂ)) :=
  List.ofFn fun d => List.ofFn fun k => (g (x (d, k)), e (x (d, k)))

theorem flatten_sum {D n : ℕ} {K : Type} [Field K] (f : ℂ × ℂ → K) (w : Fin D × Fin n → ℂ × ℂ) :
    globalMean ((List.ofFn fun d => List.ofFn fun k => w (d, k)).flatten.map f) = (∑ i, f (w i)) / ((D * n : ℕ) : K) := by
  unfold globalMean
  congr 1
  · rw [List.map_flatten, List.sum_flatten, List.map_ofFn, List.map_ofFn, List.sum_ofFn, Fintype.sum_prod_type]
    refine Finset.sum_congr rfl fun d _ => ?_
    simp only [Function.comp]
    rw [List.map_ofFn, List.sum_ofFn]
    rfl
  · congr 1
    simp [List.length_flatten, List.map_ofFn, Function.comp_def, List.sum_ofFn]

/-- The value of the estimator on a batch without clipping. -/
theorem batch_value {D n : ℕ} (hD : 0 < D) (hn : 0 < n) (scale : ℝ) (g e : X → ℂ) (x : Fin D × Fin n → X) :
    lossAndGrad "none" scale [walkers (batch g e x)] = .ok (some ((∑ i, e (x i)) / ((D * n : ℕ) : ℂ)),
      some (2 * ((∑ i, conj (g (x i)) * e (x i)) / ((D * n : ℕ) : ℂ) -
        ((∑ i, e (x i)) * ∑ i, g (x i)) / (((D * n : ℕ) : ℂ) ^ 2)).re)) := by
  have h := c22_covariance (batch g e x) (by
    intro h0; have := congrArg List.length h0; simp [batch] at this; omega) n hn (by
    intro s hs; simp only [batch, List.mem_ofFn] at hs; obtain ⟨d, rfl⟩ := hs; simp) scale
  rw [h]
  have m1 : globalMean ((batch g e x).flatten.map Prod.snd) = (∑ i, e (x i)) / ((D * n : ℕ) : ℂ) :=
    flatten_sum Prod.snd fun i => (g (x i), e (x i))
  have m2 : globalMean ((batch g e x).flatten.map Prod.fst) = (∑ i, g (x i)) / ((D * n : ℕ) : ℂ) :=
    flatten_sum Prod.fst fun i => (g (x i), e (x i))
  unfold covarianceGradient
  simp only
  rw [m1, m2]
  have m3 := flatten_sum (D := D) (n := n) (fun w => (conj (w.1 - (∑ i, g (x i)) / ((D * n : ℕ) : ℂ)) * (w.2 - (∑ i, e (x i)) / ((D * n : ℕ) : ℂ))).re)
    (fun i => (g (x i), e (x i)))
  have m3' : globalMean ((batch g e x).flatten.map fun w => (conj (w.1 - (∑ i, g (x i)) / ((D * n : ℕ) : ℂ)) * (w.2 - (∑ i, e (x i)) / ((D * n : ℕ) : ℂ))).re) =
      (∑ i, (conj (g (x i) - (∑ i, g (x i)) / ((D * n : ℕ) : ℂ)) * (e (x i) - (∑ i, e (x i)) / ((D * n : ℕ) : ℂ))).re) / ((D * n : ℕ) : ℝ) := m3
  rw [m3']
  congr 3
  have hN : ((D * n : ℕ) : ℂ) ≠ 0 := by
    have : D * n ≠ 0 := by positivity
    exact_mod_cast this
  have hcard : ((Finset.univ : Finset (Fin D × Fin n)).card : ℂ) = ((D * n : ℕ) : ℂ) := by simp
  generalize hG : ∑ i, g (x i) = G
  generalize hE : ∑ i, e (x i) = E
  have key : ∑ i, conj (g (x i) - G / ((D * n : ℕ) : ℂ)) * (e (x i) - E / ((D * n : ℕ) : ℂ)) =
      (∑ i, conj (g (x i)) * e (x i)) - conj G * E / ((D * n : ℕ) : ℂ) := by
    have e1 : ∀ i, conj (g (x i) - G / ((D * n : ℕ) : ℂ)) * (e (x i) - E / ((D * n : ℕ) : ℂ)) =
        conj (g (x i)) * e (x i) - conj (g (x i)) * (E / ((D * n : ℕ) : ℂ)) - conj G / ((D * n : ℕ) : ℂ) * e (x i) + conj G / ((D * n : ℕ) : ℂ) * (E / ((D * n : ℕ) : ℂ)) := by
      intro i
      rw [map_sub, map_div₀, map_natCast]
      ring
    rw [Finset.sum_congr rfl fun i _ => e1 i, Finset.sum_add_distrib, Finset.sum_sub_distrib, Finset.sum_sub_distrib, ← Finset.sum_mul, ← Finset.mul_sum,
      ← map_sum, hG, hE, Finset.sum_const, nsmul_eq_mul, hcard]
    field_simp
    ring
  have kre := congrArg Complex.re key
  rw [Complex.re_sum] at kre
  rw [kre]
  generalize ∑ i, conj (g (x i)) * e (x i) = P
  have hr : ∀ z : ℂ, (z / ((D * n : ℕ) : ℂ)).re = z.re / ((D * n : ℕ) : ℝ) := fun z => Complex.div_natCast_re z _
  have hi : ∀ z : ℂ, (z / ((D * n : ℕ) : ℂ)).im = z.im / ((D * n : ℕ) : ℝ) := fun z => Complex.div_natCast_im z _
  rw [Complex.sub_re, Complex.sub_re, pow_two, ← div_div]
  simp only [hr, hi, Complex.mul_re, Complex.conj_re, Complex.conj_im]
  ring

/-- C94: walkers drawn independently from `|ψ|²`, `D` devices with `n` each (`N = D n` in all), no clipping.  The reported energy averages to the variational
energy; the reported gradient averages to `(1 - 1/N)` times its derivative, plus `(4/N) ⟨Im ∂log ψ · Im E_L⟩`, which vanishes for
real wavefunctions. -/
theorem c94_gradient {H : L2C μ →ₗ.[ℂ] L2C μ} (hs : Symmetric H) {ψ : ℝ → H.domain} {Ψ : ℝ → X → ℂ} {θ : ℝ} {g e : X → ℂ}
    (F : Family H ψ Ψ θ g) (he : IsLocalEnergy H (ψ θ) e) {D n : ℕ} (hD : 0 < D) (hn : 0 < n) (scale : ℝ) :
    ∃ (loss : (Fin D × Fin n → X) → ℂ) (grad : (Fin D × Fin n → X) → ℝ) (dE : ℝ),
      (∀ x, lossAndGrad "none" scale [walkers (batch g e x)] = .ok (some (loss x), some (grad x))) ∧
      HasDerivAt (fun t => energy H (ψ t)) dE θ ∧
      Integrable loss (Measure.pi fun _ => walkerLaw μ (ψ θ : L2C μ)) ∧
      ∫ x, loss x ∂Measure.pi (fun _ => walkerLaw μ (ψ θ : L2C μ)) = energy H (ψ θ) ∧
      Integrable grad (Measure.pi fun _ => walkerLaw μ (ψ θ : L2C μ)) ∧
      ∫ x, grad x ∂Measure.pi (fun _ => walkerLaw μ (ψ θ : L2C μ)) = (1 - 1 / ((D * n : ℕ) : ℝ)) * dE +
        4 / ((D * n : ℕ) : ℝ) * ∫ x, (g x).im * (e x).im ∂walkerLaw μ (ψ θ : L2C μ) := by
  have hne := F.ne
  obtain ⟨ψ', hd⟩ : ∃ ψ', HasDerivAt (fun t => (ψ t : L2C μ)) ψ' θ := ⟨_, F.diff.hasDerivAt⟩
  have hg := Grad.pointwise_deriv F hd
  haveI := Grad.law_prob hne
  have one : ∀ᵐ x ∂μ, (ψ θ : L2C μ) x = (fun _ => (1 : ℂ)) x * (ψ θ : L2C μ) x := Eventually.of_forall fun x => (one_mul _).symm
  obtain ⟨i1, a1⟩ := Grad.inner_avg hne ψ' (H (ψ θ)) g e hg he
  obtain ⟨i2, a2⟩ := Grad.inner_avg hne ψ' (ψ θ) g (fun _ => 1) hg one
  obtain ⟨i3, a3⟩ := Grad.inner_avg hne (ψ θ) (H (ψ θ)) (fun _ => 1) e one he
  have i4 := Grad.prod_integrable hne ψ' (H (ψ θ)) g e hg he
  have i5 : Integrable g (walkerLaw μ (ψ θ : L2C μ)) := by
    have := Grad.prod_integrable hne ψ' (ψ θ) g (fun _ => 1) hg one
    simpa using this
  simp only [mul_one] at a2 i2
  simp only [map_one, one_mul] at a3 i3
  have hZ := Grad.Z_pos hne
  have hdE := Grad.energy_deriv hs hd F.cont hne
  have hE : ∫ x, e x ∂walkerLaw μ (ψ θ : L2C μ) = (energy H (ψ θ) : ℂ) := by
    have hreal : (inner ℂ (ψ θ : L2C μ) (H (ψ θ))).im = 0 := by
      rw [← Complex.conj_eq_iff_im, inner_conj_symm]
      exact hs (ψ θ) (ψ θ)
    have hh : inner ℂ (ψ θ : L2C μ) (H (ψ θ)) = ((inner ℂ (ψ θ : L2C μ) (H (ψ θ))).re : ℂ) :=
      (Complex.conj_eq_iff_re.mp (Complex.conj_eq_iff_im.mpr hreal)).symm
    unfold energy
    rw [Grad.Z_eq]
    rw [hh] at a3
    rw [Complex.ofReal_div, a3, mul_div_cancel_right₀]
    exact_mod_cast hZ.ne'
  have hloss : ∀ x : Fin D × Fin n → X, (∑ i, e (x i)) / ((D * n : ℕ) : ℂ) = (((D * n : ℕ) : ℂ))⁻¹ * ∑ i, e (x i) := fun x => by
    rw [div_eq_inv_mul]
  have hN : ((D * n : ℕ) : ℂ) ≠ 0 := by
    have : D * n ≠ 0 := by positivity
    exact_mod_cast this
  have hcard : (Fintype.card (Fin D × Fin n) : ℂ) = ((D * n : ℕ) : ℂ) := by simp
  refine ⟨_, _, _, batch_value hD hn scale g e, hdE, ?_, ?_, ?_, ?_⟩
  · exact (integrable_finsetSum _ fun i _ => (Grad.eval_int _ i i3).1).div_const _
  · rw [integral_div, integral_finsetSum _ fun i _ => (Grad.eval_int _ i i3).1, Finset.sum_congr rfl fun i _ => (Grad.eval_int _ i i3).2,
      Finset.sum_const, Finset.card_univ, nsmul_eq_mul, hcard, mul_div_cancel_left₀ _ hN, hE]
  all_goals
    have j1 : Integrable (fun x : Fin D × Fin n → X => (∑ i, conj (g (x i)) * e (x i)) / ((D * n : ℕ) : ℂ))
        (Measure.pi fun _ => walkerLaw μ (ψ θ : L2C μ)) :=
      (integrable_finsetSum _ fun i _ => (Grad.eval_int _ i i1).1).div_const _
    have j2 : Integrable (fun x : Fin D × Fin n → X => ((∑ i, e (x i)) * ∑ i, g (x i)) / (((D * n : ℕ) : ℂ) ^ 2))
        (Measure.pi fun _ => walkerLaw μ (ψ θ : L2C μ)) :=
      (Grad.sums_int _ i3 i5 i4).1.div_const _
  · exact ((j1.sub j2).re).const_mul 2
  · rw [integral_const_mul]
    have hre : ∫ x : Fin D × Fin n → X, ((∑ i, conj (g (x i)) * e (x i)) / ((D * n : ℕ) : ℂ) -
          ((∑ i, e (x i)) * ∑ i, g (x i)) / (((D * n : ℕ) : ℂ) ^ 2)).re ∂Measure.pi (fun _ => walkerLaw μ (ψ θ : L2C μ)) =
        (∫ x : Fin D × Fin n → X, ((∑ i, conj (g (x i)) * e (x i)) / ((D * n : ℕ) : ℂ) -
          ((∑ i, e (x i)) * ∑ i, g (x i)) / (((D * n : ℕ) : ℂ) ^ 2)) ∂Measure.pi (fun _ => walkerLaw μ (ψ θ : L2C μ))).re :=
      integral_re (𝕜 := ℂ) (j1.sub j2)
    rw [hre, integral_sub j1 j2, integral_div, integral_div, integral_finsetSum _ fun i _ => (Grad.eval_int _ i i1).1,
      Finset.sum_congr rfl fun i _ => (Grad.eval_int _ i i1).2, Finset.sum_const, Finset.card_univ, nsmul_eq_mul, (Grad.sums_int _ i3 i5 i4).2,
      hcard, mul_div_cancel_left₀ _ hN, hE]
    have him : ∫ x, (g x).im * (e x).im ∂walkerLaw μ (ψ θ : L2C μ) =
        ((∫ x, conj (g x) * e x ∂walkerLaw μ (ψ θ : L2C μ)).re - (∫ x, e x * g x ∂walkerLaw μ (ψ θ : L2C μ)).re) / 2 := by
      have r1 : (∫ x, conj (g x) * e x ∂walkerLaw μ (ψ θ : L2C μ)).re = ∫ x, (conj (g x) * e x).re ∂walkerLaw μ (ψ θ : L2C μ) := (integral_re (𝕜 := ℂ) i1).symm
      have r2 : (∫ x, e x * g x ∂walkerLaw μ (ψ θ : L2C μ)).re = ∫ x, (e x * g x).re ∂walkerLaw μ (ψ θ : L2C μ) := (integral_re (𝕜 := ℂ) i4).symm
      have r3 : (∫ x, (conj (g x) * e x).re ∂walkerLaw μ (ψ θ : L2C μ)) - ∫ x, (e x * g x).re ∂walkerLaw μ (ψ θ : L2C μ) =
          ∫ x, ((conj (g x) * e x).re - (e x * g x).re) ∂walkerLaw μ (ψ θ : L2C μ) := (integral_sub i1.re i4.re).symm
      rw [r1, r2, r3, ← integral_div]
      refine integral_congr_ae (Eventually.of_forall fun x => ?_)
      simp only [Complex.mul_re, Complex.conj_re, Complex.conj_im]
      ring
    rw [him]
    have c1 : (inner ℂ ψ' (H (ψ θ))).re = (∫ x, conj (g x) * e x ∂walkerLaw μ (ψ θ : L2C μ)).re * ∫ x, ‖(ψ θ : L2C μ) x‖ ^ 2 ∂μ := by
      rw [a1, Complex.mul_re, Complex.ofReal_re, Complex.ofReal_im]; ring
    have c2 : (inner ℂ ψ' (ψ θ : L2C μ)).re = (∫ x, g x ∂walkerLaw μ (ψ θ : L2C μ)).re * ∫ x, ‖(ψ θ : L2C μ) x‖ ^ 2 ∂μ := by
      have hcj : ∫ x, conj (g x) ∂walkerLaw μ (ψ θ : L2C μ) = conj (∫ x, g x ∂walkerLaw μ (ψ θ : L2C μ)) := integral_conj
      rw [a2, hcj, Complex.mul_re, Complex.ofReal_re, Complex.ofReal_im, Complex.conj_re]; ring
    rw [c1, c2, Grad.Z_eq]
    have hNr : ((D * n : ℕ) : ℝ) ≠ 0 := by exact_mod_cast hN
    have s1 : (((D * n : ℕ) : ℂ) * (∫ x, e x * g x ∂walkerLaw μ (ψ θ : L2C μ)) + ((D * n : ℕ) : ℂ) * (((D * n : ℕ) : ℂ) - 1) *
        ((energy H (ψ θ) : ℂ) * ∫ x, g x ∂walkerLaw μ (ψ θ : L2C μ))) / ((D * n : ℕ) : ℂ) ^ 2 =
        (((1 / ((D * n : ℕ) : ℝ) : ℝ)) : ℂ) * (∫ x, e x * g x ∂walkerLaw μ (ψ θ : L2C μ)) +
        ((1 - 1 / ((D * n : ℕ) : ℝ) : ℝ) : ℂ) * ((energy H (ψ θ) : ℂ) * ∫ x, g x ∂walkerLaw μ (ψ θ : L2C μ)) := by
      have alg : ∀ N a b : ℂ, N ≠ 0 → (N * a + N * (N - 1) * b) / N ^ 2 = 1 / N * a + (1 - 1 / N) * b := by
        intro N a b h
        field_simp
      rw [alg _ _ _ hN]
      push_cast
      rfl
    rw [s1, Complex.sub_re, Complex.add_re, Complex.re_ofReal_mul, Complex.re_ofReal_mul, Complex.re_ofReal_mul]
    field_simp
    ring

/-- C94, real wavefunctions: the reported gradient averages to `(1 - 1/N)` times the derivative of the energy; in particular it is zero on average
exactly where the energy is stationary (`N ≥ 2`). -/
theorem c94_real {H : L2C μ →ₗ.[ℂ] L2C μ} (hs : Symmetric H) {ψ : ℝ → H.domain} {Ψ : ℝ → X → ℂ} {θ : ℝ} {g e : X → ℂ}
    (F : Family H ψ Ψ θ g) (he : IsLocalEnergy H (ψ θ) e) (hg0 : ∀ᵐ x ∂μ, (g x).im = 0) {D n : ℕ} (hD : 0 < D) (hn : 0 < n)
    (hN : 2 ≤ D * n) (scale : ℝ) :
    ∃ (loss : (Fin D × Fin n → X) → ℂ) (grad : (Fin D × Fin n → X) → ℝ) (dE : ℝ),
      (∀ x, lossAndGrad "none" scale [walkers (batch g e x)] = .ok (some (loss x), some (grad x))) ∧
      HasDerivAt (fun t => energy H (ψ t)) dE θ ∧
      ∫ x, grad x ∂Measure.pi (fun _ => walkerLaw μ (ψ θ : L2C μ)) = (1 - 1 / ((D * n : ℕ) : ℝ)) * dE ∧
      (∫ x, grad x ∂Measure.pi (fun _ => walkerLaw μ (ψ θ : L2C μ)) = 0 ↔ dE = 0) := by
  obtain ⟨loss, grad, dE, h1, h2, _, _, _, h6⟩ := c94_gradient hs F he hD hn scale
  have h0 : ∫ x, (g x).im * (e x).im ∂walkerLaw μ (ψ θ : L2C μ) = 0 := by
    rw [integral_eq_zero_of_ae]
    filter_upwards [(withDensity_absolutelyContinuous μ _).ae_le hg0] with x hx
    rw [hx, zero_mul]; rfl
  rw [h0, mul_zero, add_zero] at h6
  refine ⟨loss, grad, dE, h1, h2, h6, ?_⟩
  rw [h6, mul_eq_zero]
  have hN' : (2 : ℝ) ≤ ((D * n : ℕ) : ℝ) := by exact_mod_cast hN
  have : (1 - 1 / ((D * n : ℕ) : ℝ)) ≠ 0 := by
    have : 1 / ((D * n : ℕ) : ℝ) ≤ 1 / 2 := one_div_le_one_div_of_le (by norm_num) hN'
    linarith
  exact ⟨fun h => h.resolve_left this, Or.inr⟩

/-! ### Exact eigenfunctions -/

theorem quantile_const {q : ℝ} (h0 : 0 ≤ q) (h1 : q ≤ 1) (c : ℝ) (xs : List (Option ℝ)) (hne : xs ≠ []) (hc : ∀ x ∈ xs, x = some c) :
    nanquantile q xs = some c := by
  obtain ⟨m, rfl⟩ : ∃ m, xs = List.replicate m (some c) := ⟨xs.length, List.eq_replicate_iff.2 ⟨rfl, hc⟩⟩
  have hm0 : 0 < m := by
    rcases Nat.eq_zero_or_pos m with h | h
    · subst h; simp at hne
    · exact h
  have hf : (List.replicate m (some c)).filterMap id = List.replicate m c := by
    rw [List.filterMap_replicate_of_some (by rfl)]
  have hsort : (List.replicate m c).insertionSort (· ≤ ·) = List.replicate m c :=
    List.Pairwise.insertionSort_eq (List.pairwise_replicate.2 (Or.inr le_rfl))
  rw [nanquantile_eq q h0 h1 _ (by rw [hf]; simp; omega), hf, hsort]
  obtain ⟨_, p1⟩ := pos_bounds hm0 h0 h1
  have hce := ceil_lt hm0 p1
  have hfl := lt_of_le_of_lt (Nat.floor_le_ceil (q * ((m : ℝ) - 1))) hce
  unfold interp
  simp only [List.length_replicate, List.getD_eq_getElem?_getD, List.getElem?_replicate, hce, hfl, if_true, Option.getD_some]
  congr 1
  ring

theorem clipReal_const (method : String) (hm : method = "iqr" ∨ method = "mad" ∨ method = "none") (scale c : ℝ)
    (shards : List (List (Option ℝ))) (hne : shards.flatten ≠ []) (hc : ∀ x ∈ shards.flatten, x = some c) :
    clipReal method scale shards = .ok shards := by
  have q := fun (q : ℝ) (h0 : 0 ≤ q) (h1 : q ≤ 1) => quantile_const h0 h1 c shards.flatten hne hc
  have hmap : shards.map (List.map fun x => clip x (some c) (some c)) = shards := by
    conv_rhs => rw [← List.map_id shards]
    refine List.map_congr_left fun l hl => ?_
    conv_rhs => rw [id_eq, ← List.map_id l]
    refine List.map_congr_left fun x hx => ?_
    rw [hc x (List.mem_flatten.2 ⟨l, hl, hx⟩)]
    simp [clip]
  rcases hm with rfl | rfl | rfl
  · unfold clipReal
    simp only [if_true]
    unfold iqrClip
    simp only [q (1 / 4) (by norm_num) (by norm_num), q (3 / 4) (by norm_num) (by norm_num), nminus, nadd, nscale, Option.bind_some, Option.map_some,
      sub_self, mul_zero, sub_zero, add_zero]
    rw [hmap]
  · unfold clipReal
    simp only [show ("mad" = "iqr") = False by simp, if_false, if_true]
    unfold madClip
    have hz : nanquantile (1 / 2) (shards.flatten.map fun x => nabs (nminus x (some c))) = some 0 := by
      refine quantile_const (by norm_num) (by norm_num) 0 _ (by simpa using hne) ?_
      intro y hy
      obtain ⟨x, hx, rfl⟩ := List.mem_map.1 hy
      rw [hc x hx]
      simp [nabs, nminus]
    simp only [q (1 / 2) (by norm_num) (by norm_num), hz]
    simp only [nminus, nadd, nscale, Option.bind_some, Option.map_some, mul_zero, sub_zero, add_zero]
    rw [hmap]
  · unfold clipReal; simp

/-- C94, zero variance: at an eigenfunction (local energy `E0`, real, everywhere the walkers are) every batch, with every clipping method and scale, reports
the loss `E0` and the gradient zero, whatever the log-derivatives. -/
theorem c94_zero_variance (method : String) (hm : method = "iqr" ∨ method = "mad" ∨ method = "none") (scale : ℝ) {D n : ℕ} (hD : 0 < D) (hn : 0 < n)
    (g e : X → ℂ) (x : Fin D × Fin n → X) (E0 : ℝ) (hE : ∀ i, e (x i) = E0) :
    lossAndGrad method scale [walkers (batch g e x)] = .ok (some (E0 : ℂ), some 0) := by
  have hsame : lossAndGrad method scale [walkers (batch g e x)] = lossAndGrad "none" scale [walkers (batch g e x)] := by
    have hmem : ∀ w ∈ (batch g e x).flatten, w.2 = (E0 : ℂ) := by
      intro w hw
      obtain ⟨l, hl, hw⟩ := List.mem_flatten.1 hw
      simp only [batch, List.mem_ofFn] at hl
      obtain ⟨d, rfl⟩ := hl
      obtain ⟨k, rfl⟩ := List.mem_ofFn.1 hw
      exact hE (d, k)
    have hflat : ∀ f : ℂ → ℝ, (((walkers (batch g e x)).map (List.map Walker.loss)).map (List.map (Option.map f))).flatten =
        (batch g e x).flatten.map fun w => some (f w.2) := by
      intro f
      rw [walkers_loss, List.map_map, List.map_flatten]
      congr 1
      refine List.map_congr_left fun l _ => ?_
      simp [List.map_map]
    have hne : (batch g e x).flatten ≠ [] := by
      intro h0
      have := congrArg List.length h0
      simp [batch, List.length_flatten, List.map_ofFn, Function.comp_def, List.sum_ofFn] at this
      omega
    have hcc : ∀ (m : String), (m = "iqr" ∨ m = "mad" ∨ m = "none") → ∀ f : ℂ → ℝ,
        clipReal m scale (((walkers (batch g e x)).map (List.map Walker.loss)).map (List.map (Option.map f))) =
          .ok (((walkers (batch g e x)).map (List.map Walker.loss)).map (List.map (Option.map f))) := by
      intro m hm f
      refine clipReal_const m hm scale (f E0) _ (by rw [hflat]; simpa using hne) ?_
      rw [hflat]
      intro y hy
      obtain ⟨w, hw, rfl⟩ := List.mem_map.1 hy
      rw [hmem w hw]
    unfold lossAndGrad reduceSteps reduce clipComplex
    dsimp only
    rw [hcc method hm, hcc method hm, hcc "none" (by simp), hcc "none" (by simp)]
    rfl
  rw [hsame, batch_value hD hn]
  have hN : ((D * n : ℕ) : ℂ) ≠ 0 := by
    have : D * n ≠ 0 := by positivity
    exact_mod_cast this
  have hs : ∑ i, e (x i) = ((D * n : ℕ) : ℂ) * E0 := by
    simp [hE]
  have hp : ∑ i, conj (g (x i)) * e (x i) = conj (∑ i, g (x i)) * E0 := by
    rw [map_sum, Finset.sum_mul]
    exact Finset.sum_congr rfl fun i _ => by rw [hE]
  rw [hs, hp]
  generalize ∑ i, g (x i) = G
  rw [mul_div_cancel_left₀ _ hN]
  have : conj G * (E0 : ℂ) / ((D * n : ℕ) : ℂ) - ((D * n : ℕ) : ℂ) * E0 * G / ((D * n : ℕ) : ℂ) ^ 2 = (((E0 / ((D * n : ℕ) : ℝ) : ℝ)) : ℂ) * (conj G - G) := by
    push_cast
    push_cast at hN
    field_simp
  rw [this, Complex.re_ofReal_mul]
  simp

/-! ### A family meeting the hypotheses -/

/-- A rank-one operator `f ↦ ⟨χ, f⟩ χ`, defined everywhere. -/
noncomputable def rankOne (χ : L2C μ) : L2C μ →ₗ.[ℂ] L2C μ :=
  LinearMap.toPMap (LinearMap.smulRight (innerₛₗ ℂ χ) χ) ⊤

theorem rankOne_apply (χ : L2C μ) (f : (rankOne χ).domain) : rankOne χ f = inner ℂ χ (f : L2C μ) • χ := rfl

theorem rankOne_symmetric (χ : L2C μ) : Symmetric (rankOne χ) := by
  intro f h
  rw [rankOne_apply, rankOne_apply, inner_smul_left, inner_smul_right, inner_conj_symm]
  ring

/-- The family `φ + t χ`. -/
noncomputable def line (φ χ : L2C μ) (t : ℝ) : (rankOne χ).domain := ⟨φ + (t : ℂ) • χ, trivial⟩

theorem line_family (φ χ : L2C μ) (hφ : ∀ᵐ x ∂μ, φ x ≠ 0) (h0 : φ ≠ 0) :
    Family (rankOne χ) (line φ χ) (fun t x => φ x + t * χ x) 0 (fun x => χ x / φ x) := by
  have hd : ∀ t : ℝ, HasDerivAt (fun t : ℝ => ((line φ χ t : (rankOne χ).domain) : L2C μ)) χ t := by
    intro t
    have h1 : HasDerivAt (fun t : ℝ => (t : ℂ)) 1 t := (hasDerivAt_id _).ofReal_comp
    have h2 := (h1.smul_const χ).const_add φ
    rw [one_smul] at h2
    exact h2
  refine ⟨?_, (hd 0).differentiableAt, ?_, ?_, ?_⟩
  · intro t
    have e1 := Lp.coeFn_add φ ((t : ℂ) • χ)
    have e2 := Lp.coeFn_smul (t : ℂ) χ
    filter_upwards [e1, e2] with x x1 x2
    show (φ + (t : ℂ) • χ : L2C μ) x = _
    rw [x1, Pi.add_apply, x2, Pi.smul_apply, smul_eq_mul]
  · have : (fun t : ℝ => rankOne χ (line φ χ t)) = fun t : ℝ => inner ℂ χ ((line φ χ t : (rankOne χ).domain) : L2C μ) • χ := rfl
    rw [this]
    have hc := (hd 0).continuousAt
    exact (ContinuousAt.inner (𝕜 := ℂ) continuousAt_const hc).smul continuousAt_const
  · filter_upwards [hφ] with x hx
    have h1 : HasDerivAt (fun t : ℝ => (t : ℂ)) 1 (0 : ℝ) := (hasDerivAt_id _).ofReal_comp
    have h2 := (h1.mul_const (χ x)).const_add (φ x)
    have : χ x / φ x * (φ x + ((0 : ℝ) : ℂ) * χ x) = 1 * χ x := by
      push_cast
      field_simp
      ring
    rw [this]
    exact h2
  · show φ + ((0 : ℝ) : ℂ) • χ ≠ 0
    simpa using h0

theorem line_local (φ χ : L2C μ) (hφ : ∀ᵐ x ∂μ, φ x ≠ 0) :
    IsLocalEnergy (rankOne χ) (line φ χ 0) (fun x => inner ℂ χ φ * (χ x / φ x)) := by
  have e0 : ((line φ χ 0 : (rankOne χ).domain) : L2C μ) = φ := by
    show φ + ((0 : ℝ) : ℂ) • χ = φ
    simp
  unfold IsLocalEnergy
  rw [rankOne_apply, e0]
  filter_upwards [hφ, Lp.coeFn_smul (inner ℂ χ φ) χ] with x hx x2
  rw [x2, Pi.smul_apply, smul_eq_mul]
  field_simp

/-- On the unit interval, `φ = 1` and `χ x = x`: the hypotheses of `c94_gradient` and `c94_real` hold. -/
theorem c94_example : ∃ φ χ : L2C (volume.restrict (Set.Icc (0 : ℝ) 1)), (∀ᵐ x ∂volume.restrict (Set.Icc (0 : ℝ) 1), φ x = 1 ∧ χ x = (x : ℂ)) ∧
    Symmetric (rankOne χ) ∧ Family (rankOne χ) (line φ χ) (fun t x => φ x + t * χ x) 0 (fun x => χ x / φ x) ∧
    IsLocalEnergy (rankOne χ) (line φ χ 0) (fun x => inner ℂ χ φ * (χ x / φ x)) := by
  have m1 : MemLp (fun _ : ℝ => (1 : ℂ)) 2 (volume.restrict (Set.Icc (0 : ℝ) 1)) := memLp_const 1
  have m2 : MemLp (fun x : ℝ => (x : ℂ)) 2 (volume.restrict (Set.Icc (0 : ℝ) 1)) := by
    refine MemLp.of_bound (Complex.continuous_ofReal.aestronglyMeasurable) 1 ?_
    filter_upwards [ae_restrict_mem measurableSet_Icc] with x hx
    rw [Complex.norm_real, Real.norm_eq_abs, abs_of_nonneg hx.1]
    exact hx.2
  have e1 := m1.coeFn_toLp
  have e2 := m2.coeFn_toLp
  have hφ : ∀ᵐ x ∂volume.restrict (Set.Icc (0 : ℝ) 1), m1.toLp _ x ≠ 0 := by
    filter_upwards [e1] with x hx
    rw [hx]; exact one_ne_zero
  have h0 : m1.toLp _ ≠ 0 := by
    intro h
    have hz : ∀ᵐ x ∂volume.restrict (Set.Icc (0 : ℝ) 1), False := by
      filter_upwards [hφ, Lp.coeFn_zero ℂ 2 (volume.restrict (Set.Icc (0 : ℝ) 1))] with x h1 h2
      rw [h] at h1
      exact h1 h2
    rw [Filter.eventually_false_iff_eq_bot, ae_eq_bot, Measure.restrict_eq_zero] at hz
    simp at hz
  refine ⟨m1.toLp _, m2.toLp _, ?_, rankOne_symmetric _, line_family _ _ hφ h0, line_local _ _ hφ⟩
  filter_upwards [e1, e2] with x h1 h2
  exact ⟨h1, h2⟩

end Jaqmc.LossGrad.Props
