import Verif.Lemmas.SphereMoment
import Mathlib.Analysis.InnerProductSpace.PiL2
import Mathlib.MeasureTheory.Integral.Bochner.Set
/-! Rotations of the sphere, and exactness on polynomials from exactness on monomials. -/
open MeasureTheory Set Metric
open scoped Pointwise

namespace Jaqmc.Ecp
open Spec Geometry

/-- The action of a linear isometry on the unit sphere. -/
noncomputable def sphereMap (L : E3 ≃ₗᵢ[ℝ] E3) : sphere (0 : E3) 1 ≃ₜ sphere (0 : E3) 1 where
  toFun u := ⟨L u, by simp [L.norm_map]⟩
  invFun u := ⟨L.symm u, by simp [L.symm.norm_map]⟩
  left_inv u := by simp
  right_inv u := by simp
  continuous_toFun := by fun_prop
  continuous_invFun := by fun_prop

theorem toSphere_invariant (L : E3 ≃ₗᵢ[ℝ] E3) :
    MeasurePreserving (sphereMap L) (volume : Measure E3).toSphere (volume : Measure E3).toSphere := by
  refine ⟨(sphereMap L).continuous.measurable, ?_⟩
  ext s hs
  rw [Measure.map_apply (sphereMap L).continuous.measurable hs, Measure.toSphere_apply' _ hs,
    Measure.toSphere_apply' _ ((sphereMap L).continuous.measurable hs)]
  congr 1
  have h := (LinearIsometryEquiv.measurePreserving L).measure_preimage_equiv (f := L.toHomeomorph.toMeasurableEquiv)
    (Ioo (0 : ℝ) 1 • (Subtype.val '' s))
  rw [← h]
  congr 1
  ext x
  simp only [Set.mem_smul, Set.mem_image, Set.mem_preimage, Subtype.exists]
  constructor
  · rintro ⟨a, ha, y, ⟨z, hz, hz2, rfl⟩, rfl⟩
    exact ⟨a, ha, L z, ⟨L z, (sphereMap L ⟨z, hz⟩).2, hz2, rfl⟩, by simp⟩
  · rintro ⟨a, ha, y, ⟨z, hz, hz2, rfl⟩, hx⟩
    refine ⟨a, ha, L.symm z, ⟨L.symm z, by simpa using hz, ?_, rfl⟩, ?_⟩
    · have : sphereMap L ⟨L.symm z, by simpa using hz⟩ = ⟨z, hz⟩ := by
        apply Subtype.ext; simp [sphereMap]
      rw [this]; exact hz2
    · have := congrArg L.symm hx
      simpa using this

/-- The isometry of an orthogonal matrix. -/
noncomputable def isometryOf (R : Matrix (Fin 3) (Fin 3) ℝ) (h : R.transpose * R = 1) : E3 ≃ₗᵢ[ℝ] E3 :=
  LinearIsometry.toLinearIsometryEquiv
    { toLinearMap := Matrix.toEuclideanLin R
      norm_map' := by
        intro x
        rw [EuclideanSpace.norm_eq, EuclideanSpace.norm_eq]
        congr 1
        have e : ∀ y : Fin 3 → ℝ, ∑ i, ‖y i‖ ^ 2 = y ⬝ᵥ y := by
          intro y; simp [dotProduct, sq]
        rw [e (fun i => (Matrix.toEuclideanLin R x) i), e (fun i => x i)]
        have e2 : (fun i => (Matrix.toEuclideanLin R x) i) = R.mulVec (fun i => x i) := by
          funext i; rfl
        rw [e2, Matrix.dotProduct_mulVec, Matrix.vecMul_mulVec, h]
        simp } rfl

theorem isometryOf_apply (R : Matrix (Fin 3) (Fin 3) ℝ) (h : R.transpose * R = 1) (x : E3) :
    (fun k => isometryOf R h x k) = R.mulVec (fun k => x k) := rfl

/-- The surface integral does not change when the sphere is rotated. -/
theorem sphereIntegral_rotate (R : Matrix (Fin 3) (Fin 3) ℝ) (h : R.transpose * R = 1) (f : Vec 3 → ℂ) :
    sphereIntegral (fun u => f (R.mulVec u)) = sphereIntegral f := by
  have h1 := (toSphere_invariant (isometryOf R h)).integral_comp (sphereMap (isometryOf R h)).measurableEmbedding
    (fun u : sphere (0 : E3) 1 => f (fun k => (u : E3) k))
  exact h1


/-- A monomial as a function on space. -/
noncomputable def mono (a : Fin 3 → ℕ) (u : Vec 3) : ℂ := ∏ k, (u k : ℂ) ^ a k

theorem integrable_poly (p : MvPolynomial (Fin 3) ℂ) :
    Integrable (fun u : sphere (0 : E3) 1 => MvPolynomial.eval (fun k => ((u : E3) k : ℂ)) p) (volume : Measure E3).toSphere := by
  apply Continuous.integrable_of_hasCompactSupport
  · simp only [MvPolynomial.eval_eq']
    fun_prop
  · exact HasCompactSupport.of_compactSpace _

theorem sphereIntegral_congr (f g : Vec 3 → ℂ) (h : ∀ u : Vec 3, ∑ k, u k ^ 2 = 1 → f u = g u) :
    sphereIntegral f = sphereIntegral g := by
  refine integral_congr_ae (Filter.Eventually.of_forall fun u => ?_)
  apply h
  have : ‖(u : E3)‖ ^ 2 = 1 := by simp
  rw [EuclideanSpace.norm_sq_eq] at this
  simpa using this

theorem sphereIntegral_poly (p : MvPolynomial (Fin 3) ℂ) :
    sphereIntegral (fun u => MvPolynomial.eval (fun k => (u k : ℂ)) p) =
      ∑ a ∈ p.support, p.coeff a * sphereIntegral (mono a) := by
  simp only [sphereIntegral, MvPolynomial.eval_eq']
  rw [integral_finsetSum]
  · simp only [integral_const_mul]
    rfl
  · intro a _
    have := integrable_poly (MvPolynomial.monomial a (p.coeff a))
    simpa [MvPolynomial.eval_monomial, Finsupp.prod_fintype] using this

theorem integrate_add (q : Rule) (f g : Vec 3 → ℂ) (l : List (Vec 3)) :
    q.integrate (l.map fun u => f u + g u) = q.integrate (l.map f) + q.integrate (l.map g) := by
  have : ∀ (l : List (Vec 3)) (c : List ℝ),
      (List.zipWith (fun (v : ℂ) (c : ℝ) => v * (c : ℂ)) (l.map fun u => f u + g u) c).sum =
      (List.zipWith (fun (v : ℂ) (c : ℝ) => v * (c : ℂ)) (l.map f) c).sum +
      (List.zipWith (fun (v : ℂ) (c : ℝ) => v * (c : ℂ)) (l.map g) c).sum := by
    intro l
    induction l with
    | nil => intro c; simp
    | cons a l ih =>
      intro c
      cases c with
      | nil => simp
      | cons c cs => simp [ih]; ring
  simp only [Rule.integrate, this]
  ring

theorem integrate_smul (q : Rule) (z : ℂ) (f : Vec 3 → ℂ) (l : List (Vec 3)) :
    q.integrate (l.map fun u => z * f u) = z * q.integrate (l.map f) := by
  have : ∀ (l : List (Vec 3)) (c : List ℝ),
      (List.zipWith (fun (v : ℂ) (c : ℝ) => v * (c : ℂ)) (l.map fun u => z * f u) c).sum =
      z * (List.zipWith (fun (v : ℂ) (c : ℝ) => v * (c : ℂ)) (l.map f) c).sum := by
    intro l
    induction l with
    | nil => intro c; simp
    | cons a l ih =>
      intro c
      cases c with
      | nil => simp
      | cons c cs => simp [ih]; ring
  simp only [Rule.integrate, this]
  ring

theorem integrate_zero (q : Rule) (l : List (Vec 3)) : q.integrate (l.map fun _ => 0) = 0 := by
  have := integrate_smul q 0 (fun _ => 0) l
  simpa using this

theorem integrate_sum {ι : Type} (q : Rule) (s : Finset ι) (f : ι → Vec 3 → ℂ) (l : List (Vec 3)) :
    q.integrate (l.map fun u => ∑ i ∈ s, f i u) = ∑ i ∈ s, q.integrate (l.map (f i)) := by
  classical
  induction s using Finset.induction_on with
  | empty => simpa using integrate_zero q l
  | insert i s hi ih =>
    simp only [Finset.sum_insert hi]
    rw [integrate_add, ih]

/-- Exactness on monomials gives exactness on polynomials. -/
theorem exact_of_mono (q : Rule) (d : ℕ) (hu : ∀ u ∈ q.pts, ∑ k, u k ^ 2 = 1)
    (hm : ∀ a : Fin 3 → ℕ, ∑ k, a k ≤ d → q.integrate (q.pts.map (mono a)) = sphereIntegral (mono a))
    (f : Vec 3 → ℂ) (hf : PolynomialOnSphere d f) : q.integrate (q.pts.map f) = sphereIntegral f := by
  obtain ⟨p, hp, hfp⟩ := hf
  rw [sphereIntegral_congr _ _ hfp, sphereIntegral_poly]
  have e : q.pts.map f = q.pts.map (fun u => ∑ a ∈ p.support, p.coeff a * mono a u) := by
    apply List.map_congr_left
    intro u h
    rw [hfp u (hu u h), MvPolynomial.eval_eq']
    rfl
  rw [e, integrate_sum]
  apply Finset.sum_congr rfl
  intro a ha
  rw [integrate_smul, hm]
  have := MvPolynomial.le_totalDegree ha
  rw [Finsupp.sum_fintype _ _ (by simp)] at this
  exact this.trans hp

/-- A linear change of variables does not raise the degree. -/
theorem polynomial_rotate (R : Matrix (Fin 3) (Fin 3) ℝ) (h : R.transpose * R = 1) (d : ℕ) (f : Vec 3 → ℂ)
    (hf : PolynomialOnSphere d f) : PolynomialOnSphere d (fun u => f (R.mulVec u)) := by
  obtain ⟨p, hp, hfp⟩ := hf
  let L : Fin 3 → MvPolynomial (Fin 3) ℂ := fun i => ∑ j, MvPolynomial.C (R i j : ℂ) * MvPolynomial.X j
  have hL : ∀ i, (L i).totalDegree ≤ 1 := by
    intro i
    apply MvPolynomial.totalDegree_finsetSum_le
    intro j _
    refine (MvPolynomial.totalDegree_mul _ _).trans ?_
    rw [MvPolynomial.totalDegree_C, MvPolynomial.totalDegree_X]
  refine ⟨∑ a ∈ p.support, MvPolynomial.C (p.coeff a) * ∏ i, L i ^ a i, ?_, ?_⟩
  · apply MvPolynomial.totalDegree_finsetSum_le
    intro a ha
    refine (MvPolynomial.totalDegree_mul _ _).trans ?_
    rw [MvPolynomial.totalDegree_C, zero_add]
    refine (MvPolynomial.totalDegree_finsetProd _ _).trans ?_
    have h1 := MvPolynomial.le_totalDegree ha
    rw [Finsupp.sum_fintype _ _ (by simp)] at h1
    refine le_trans (Finset.sum_le_sum fun i _ => ?_) (h1.trans hp)
    refine (MvPolynomial.totalDegree_pow _ _).trans ?_
    calc a i * (L i).totalDegree ≤ a i * 1 := Nat.mul_le_mul_left _ (hL i)
      _ = _ := by simp
  · intro u hu
    have hR : ∑ k, (R.mulVec u) k ^ 2 = 1 := by
      have e : ∀ y : Fin 3 → ℝ, ∑ i, y i ^ 2 = y ⬝ᵥ y := by
        intro y; simp [dotProduct, sq]
      rw [e, Matrix.dotProduct_mulVec, Matrix.vecMul_mulVec, h, Matrix.vecMul_one, ← e, hu]
    beta_reduce
    rw [hfp _ hR, MvPolynomial.eval_eq']
    simp only [map_sum, map_mul, MvPolynomial.eval_C, map_prod, map_pow, L, MvPolynomial.eval_X]
    apply Finset.sum_congr rfl
    intro a _
    congr 1
    apply Finset.prod_congr rfl
    intro i _
    congr 1
    simp [Matrix.mulVec, dotProduct]

/-- Exactness in every rotated frame. -/
theorem exact_rotated (q : Rule) (d : ℕ) (hq : ∀ f, PolynomialOnSphere d f → q.integrate (q.pts.map f) = sphereIntegral f)
    (R : Matrix (Fin 3) (Fin 3) ℝ) (h : R.transpose * R = 1) (f : Vec 3 → ℂ) (hf : PolynomialOnSphere d f) :
    q.integrate ((q.rotated R).map f) = sphereIntegral f := by
  rw [← sphereIntegral_rotate R h, ← hq _ (polynomial_rotate R h d f hf), Rule.rotated, List.map_map]
  rfl

theorem rotation_orthogonal (u1 u2 : ℝ) (h0 : 0 ≤ u2) (h1 : u2 ≤ 1) :
    (rotation u1 u2).transpose * rotation u1 u2 = 1 := by
  have hs : Real.sqrt (1 - (1 - 2 * u2) ^ 2) ^ 2 = 1 - (1 - 2 * u2) ^ 2 := Real.sq_sqrt (by nlinarith)
  have hp := Real.sin_sq_add_cos_sq (u1 * Real.pi * 2)
  ext i j
  fin_cases i <;> fin_cases j <;>
    simp [rotation, Matrix.mul_apply, Fin.sum_univ_three] <;> grind

theorem rotation_det (u1 u2 : ℝ) (h0 : 0 ≤ u2) (h1 : u2 ≤ 1) : (rotation u1 u2).det = 1 := by
  have hs : Real.sqrt (1 - (1 - 2 * u2) ^ 2) ^ 2 = 1 - (1 - 2 * u2) ^ 2 := Real.sq_sqrt (by nlinarith)
  have hp := Real.sin_sq_add_cos_sq (u1 * Real.pi * 2)
  rw [Matrix.det_fin_three]
  simp [rotation]
  grind

end Jaqmc.Ecp
