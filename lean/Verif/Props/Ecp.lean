import Mathlib.Analysis.SpecialFunctions.Integrals.Basic
import Verif.Lemmas.QuadratureIco
/-!
C71, C72: the spherical quadratures of the effective core potential.
-/
namespace Jaqmc.Ecp.Props
open Jaqmc.Ecp Jaqmc.Ecp.Spec Jaqmc.Geometry MeasureTheory

/-- Every supported rule, in the frame of every rotation the code can draw, integrates every polynomial up to its degree
exactly over the unit sphere. -/
theorem c71_exact (kind : String) (n d : ℕ) (q : Rule) (hq : getQuadrature kind n = some q) (hd : degree kind n = some d)
    (u1 u2 : ℝ) (h0 : 0 ≤ u2) (h1 : u2 ≤ 1) (f : Vec 3 → ℂ) (hf : PolynomialOnSphere d f) :
    q.integrate ((q.rotated (rotation u1 u2)).map f) = sphereIntegral f := by
  refine exact_rotated q d (fun g hg => ?_) _ (rotation_orthogonal u1 u2 h0 h1) f hf
  unfold getQuadrature at hq
  unfold degree at hd
  split at hd <;> simp only [Option.some.injEq, reduceCtorEq] at hd <;> subst hd
  · exact oct_exact 6 3 q (by simpa using hq) (by simp) g hg
  · exact oct_exact 18 5 q (by simpa using hq) (by simp) g hg
  · exact oct_exact 26 7 q (by simpa using hq) (by simp) g hg
  · exact oct_exact 50 11 q (by simpa using hq) (by simp) g hg
  · exact ico_exact 12 5 q (by simpa using hq) (by simp) g hg
  · exact ico_exact 32 9 q (by simpa using hq) (by simp) g hg

/-- The rules with a degree are exactly those the code accepts. -/
theorem c71_supported (kind : String) (n : ℕ) : (getQuadrature kind n).isSome ↔ (degree kind n).isSome := by
  unfold getQuadrature degree octahedron icosahedron octCoefs icoCoefs
  by_cases h1 : kind = "octahedron"
  · subst h1
    by_cases a : n = 6
    · subst a; simp
    by_cases b : n = 18
    · subst b; simp
    by_cases c : n = 26
    · subst c; simp
    by_cases e : n = 50
    · subst e; simp
    · simp [a, b, c, e]
  · by_cases h2 : kind = "icosahedron"
    · subst h2
      by_cases a : n = 12
      · subst a; simp
      by_cases b : n = 32
      · subst b; simp
      · simp [a, b]
    · simp [h1, h2]

/-- The rotated points lie on the unit sphere, there are as many as weights, and as many as asked for. -/
theorem c71_points (kind : String) (n : ℕ) (q : Rule) (hq : getQuadrature kind n = some q) (u1 u2 : ℝ) (h0 : 0 ≤ u2) (h1 : u2 ≤ 1) :
    (∀ u ∈ q.rotated (rotation u1 u2), ∑ k, u k ^ 2 = 1) ∧ (q.rotated (rotation u1 u2)).length = n ∧ q.coefs.length = n := by
  have hu : (∀ u ∈ q.pts, ∑ k, u k ^ 2 = 1) ∧ q.pts.length = n ∧ q.coefs.length = n := by
    unfold getQuadrature at hq
    split at hq
    · refine ⟨oct_unit n q hq, ?_⟩
      unfold octahedron at hq
      rw [Option.map_eq_some_iff] at hq
      obtain ⟨c, hc, rfl⟩ := hq
      have hl : octPoints.length = 50 := by
        have hs := sqrt_facts
        simp [octPoints, expandSign]
      unfold octCoefs at hc
      split at hc <;> simp only [Option.some.injEq, reduceCtorEq] at hc <;> subst hc <;> simp [hl]
    · split at hq
      · refine ⟨ico_unit n q hq, ?_⟩
        unfold icosahedron at hq
        rw [Option.map_eq_some_iff] at hq
        obtain ⟨c, hc, rfl⟩ := hq
        have hl : icoPolars.length = 32 := by simp [icoPolars]
        unfold icoCoefs at hc
        split at hc <;> simp only [Option.some.injEq, reduceCtorEq] at hc <;> subst hc <;> simp [hl]
      · simp at hq
  refine ⟨?_, by simpa [Rule.rotated] using hu.2.1, hu.2.2⟩
  intro u h
  obtain ⟨v, hv, rfl⟩ := List.mem_map.mp h
  have e : ∀ y : Fin 3 → ℝ, ∑ i, y i ^ 2 = y ⬝ᵥ y := by
    intro y; simp [dotProduct, sq]
  have hv1 := hu.1 v hv
  rw [e] at hv1
  rw [e, Matrix.dotProduct_mulVec, Matrix.vecMul_mulVec, rotation_orthogonal u1 u2 h0 h1, Matrix.vecMul_one, hv1]

/-- The sampled matrices are proper rotations. -/
theorem c71_rotation (u1 u2 : ℝ) (h0 : 0 ≤ u2) (h1 : u2 ≤ 1) :
    (rotation u1 u2).transpose * rotation u1 u2 = 1 ∧ (rotation u1 u2).det = 1 :=
  ⟨rotation_orthogonal u1 u2 h0 h1, rotation_det u1 u2 h0 h1⟩

/-- The image of the pole is the point at height `1 - 2 u2` and azimuth `2π u1`, so it is uniformly distributed for
uniform draws. -/
theorem c71_pole (u1 u2 : ℝ) (h0 : 0 ≤ u2) (h1 : u2 ≤ 1) :
    ∃ ρ : ℝ, 0 ≤ ρ ∧ ρ ^ 2 = 1 - (1 - 2 * u2) ^ 2 ∧
      (rotation u1 u2).mulVec ![0, 0, 1] = ![ρ * Real.cos (2 * Real.pi * u1), ρ * Real.sin (2 * Real.pi * u1), 1 - 2 * u2] := by
  refine ⟨Real.sqrt (1 - (1 - 2 * u2) ^ 2), Real.sqrt_nonneg _, Real.sq_sqrt (by nlinarith), ?_⟩
  funext i
  have e : u1 * Real.pi * 2 = 2 * Real.pi * u1 := by ring
  fin_cases i <;> simp [rotation, Matrix.mulVec, dotProduct, Fin.sum_univ_three, e]

/-- A concrete polynomial: `x²` has integral `4π/3`, which the default rule finds in every frame. -/
example (u1 u2 : ℝ) (h0 : 0 ≤ u2) (h1 : u2 ≤ 1) (q : Rule) (hq : getQuadrature "icosahedron" 12 = some q) :
    q.integrate ((q.rotated (rotation u1 u2)).map (fun u => (u 0 : ℂ) ^ 2)) = 4 * Real.pi / 3 := by
  have hp : PolynomialOnSphere 5 (fun u => (u 0 : ℂ) ^ 2) := by
    refine ⟨MvPolynomial.X 0 ^ 2, ?_, by intro u _; simp⟩
    refine (MvPolynomial.totalDegree_pow _ _).trans ?_
    rw [MvPolynomial.totalDegree_X]; norm_num
  rw [c71_exact "icosahedron" 12 5 q hq rfl u1 u2 h0 h1 _ hp]
  have h := sphereIntegral_even ![2, 0, 0] 1 0 0 rfl rfl rfl
  have e : (fun u : Vec 3 => (u 0 : ℂ) ^ 2) = mono ![2, 0, 0] := by
    funext u; simp [mono, Fin.prod_univ_three]
  rw [e, h]
  norm_num [moment, Nat.doubleFactorial]
  ring

/-! ### C72: the random rotation -/

/-- The expectation of the quadrature over the two uniform draws. -/
noncomputable def expected (q : Rule) (f : Vec 3 → ℂ) : ℂ :=
  ∫ u1 in (0 : ℝ)..1, ∫ u2 in (0 : ℝ)..1, q.integrate ((q.rotated (rotation u1 u2)).map f)

/-- Up to the degree of the rule the expectation is the integral. -/
theorem c72_unbiased_partial (kind : String) (n d : ℕ) (q : Rule) (hq : getQuadrature kind n = some q)
    (hd : degree kind n = some d) (f : Vec 3 → ℂ) (hf : PolynomialOnSphere d f) : expected q f = sphereIntegral f := by
  unfold expected
  have : ∀ u1 : ℝ, (∫ u2 in (0 : ℝ)..1, q.integrate ((q.rotated (rotation u1 u2)).map f)) = sphereIntegral f := by
    intro u1
    rw [intervalIntegral.integral_congr (g := fun _ => sphereIntegral f)]
    · simp
    · intro u2 hu
      rw [Set.uIcc_of_le zero_le_one] at hu
      exact c71_exact kind n d q hq hd u1 u2 hu.1 hu.2 f hf
  simp [this]

theorem cos_avg (n : ℕ) : ∫ u in (0 : ℝ)..1, Real.cos (u * Real.pi * 2) ^ (n + 2) =
    (n + 1) / (n + 2) * ∫ u in (0 : ℝ)..1, Real.cos (u * Real.pi * 2) ^ n := by
  have e : ∀ m : ℕ, ∫ u in (0 : ℝ)..1, Real.cos (u * Real.pi * 2) ^ m = (2 * Real.pi)⁻¹ * ∫ x in (0 : ℝ)..(2 * Real.pi), Real.cos x ^ m := by
    intro m
    have := intervalIntegral.integral_comp_mul_left (a := 0) (b := 1) (fun x => Real.cos x ^ m) (c := 2 * Real.pi) (by positivity)
    simp only [mul_zero, mul_one, smul_eq_mul] at this
    rw [← this]
    congr 1
    funext u
    ring_nf
  rw [e, e, integral_cos_pow]
  simp
  ring

/-- `octahedron_6` is exact up to degree 3.  For the polynomial `x⁴`, of degree 4, the expectation over the random rotation
is `(13/60) 4π`, while the integral is `(1/5) 4π`: the rotation does not make the quadrature unbiased. -/
theorem c72_biased (q : Rule) (hq : getQuadrature "octahedron" 6 = some q) :
    expected q (fun u => (u 0 : ℂ) ^ 4) = 13 / 60 * (4 * Real.pi) ∧ sphereIntegral (fun u => (u 0 : ℂ) ^ 4) = 1 / 5 * (4 * Real.pi) := by
  constructor
  · have hint : ∀ u1 u2 : ℝ, 0 ≤ u2 → u2 ≤ 1 → q.integrate ((q.rotated (rotation u1 u2)).map (fun u => (u 0 : ℂ) ^ 4)) =
        ((4 * Real.pi / 3 * ((1 - 2 * u2 * Real.cos (u1 * Real.pi * 2) ^ 2) ^ 4 +
          16 * u2 ^ 4 * Real.cos (u1 * Real.pi * 2) ^ 4 * (1 - Real.cos (u1 * Real.pi * 2) ^ 2) ^ 2 +
          16 * u2 ^ 2 * (1 - u2) ^ 2 * Real.cos (u1 * Real.pi * 2) ^ 4) : ℝ) : ℂ) := by
      intro u1 u2 h0 h1
      have hs : Real.sqrt (1 - (1 - 2 * u2) ^ 2) ^ 2 = 1 - (1 - 2 * u2) ^ 2 := Real.sq_sqrt (by nlinarith)
      have hp := Real.sin_sq_add_cos_sq (u1 * Real.pi * 2)
      have hq' : q = ⟨[![1, 0, 0], ![-1, 0, 0], ![0, 1, 0], ![0, -1, 0], ![0, 0, 1], ![0, 0, -1]], List.replicate 6 (1 / 6)⟩ := by
        simp [getQuadrature, octahedron, octCoefs] at hq
        rw [← hq]
        simp [octPoints, expandSign, toVec]
      rw [hq']
      simp only [Rule.integrate, Rule.rotated, List.map_cons, List.map_nil, List.replicate, List.zipWith_cons_cons, List.zipWith_nil_left,
        List.sum_cons, List.sum_nil, Matrix.mulVec, dotProduct, Fin.sum_univ_three, rotation]
      simp
      have hp' : Complex.sin (u1 * Real.pi * 2) ^ 2 + Complex.cos (u1 * Real.pi * 2) ^ 2 = 1 := Complex.sin_sq_add_cos_sq _
      have hs' : ((Real.sqrt (1 - (1 - 2 * u2) ^ 2) : ℝ) : ℂ) ^ 2 = 1 - (1 - 2 * u2) ^ 2 := by exact_mod_cast hs
      clear hs hp
      generalize Complex.sin (u1 * Real.pi * 2) = s at *
      generalize Complex.cos (u1 * Real.pi * 2) = k at *
      generalize ((Real.sqrt (1 - (1 - 2 * u2) ^ 2) : ℝ) : ℂ) = S at *
      have e1 : s ^ 2 + (1 - 2 * (u2 : ℂ)) * k ^ 2 = 1 - 2 * u2 * k ^ 2 := by linear_combination hp'
      have e1' : -((1 - 2 * (u2 : ℂ)) * k ^ 2) + -s ^ 2 = -(1 - 2 * u2 * k ^ 2) := by linear_combination -hp'
      have e2 : (s * k * (2 * (u2 : ℂ))) ^ 4 = 16 * u2 ^ 4 * k ^ 4 * (1 - k ^ 2) ^ 2 := by
        rw [show (1 : ℂ) - k ^ 2 = s ^ 2 by linear_combination -hp']; ring
      have e3 : (S * k) ^ 4 = 16 * u2 ^ 2 * (1 - u2) ^ 2 * k ^ 4 := by
        rw [show (S * k) ^ 4 = (S ^ 2) ^ 2 * k ^ 4 by ring, hs']; ring
      have e4 : ∀ z : ℂ, (-z) ^ 4 = z ^ 4 := fun z => by ring
      simp only [e1, e1', e4, e2, e3]
      ring
    have inner : ∀ u1 : ℝ, (∫ u2 in (0 : ℝ)..1, q.integrate ((q.rotated (rotation u1 u2)).map (fun u => (u 0 : ℂ) ^ 4))) =
        ((4 * Real.pi / 3 * (1 - 4 * Real.cos (u1 * Real.pi * 2) ^ 2 + 176 / 15 * Real.cos (u1 * Real.pi * 2) ^ 4
          - 72 / 5 * Real.cos (u1 * Real.pi * 2) ^ 6 + 32 / 5 * Real.cos (u1 * Real.pi * 2) ^ 8) : ℝ) : ℂ) := by
      intro u1
      have hc : ∀ k : ℝ, (∫ u in (0 : ℝ)..1, 4 * Real.pi / 3 * ((1 - 2 * u * k ^ 2) ^ 4 + 16 * u ^ 4 * k ^ 4 * (1 - k ^ 2) ^ 2 +
          16 * u ^ 2 * (1 - u) ^ 2 * k ^ 4)) = 4 * Real.pi / 3 * (1 - 4 * k ^ 2 + 176 / 15 * k ^ 4 - 72 / 5 * k ^ 6 + 32 / 5 * k ^ 8) := by
        intro k
        have e : ∀ u : ℝ, 4 * Real.pi / 3 * ((1 - 2 * u * k ^ 2) ^ 4 + 16 * u ^ 4 * k ^ 4 * (1 - k ^ 2) ^ 2 +
            16 * u ^ 2 * (1 - u) ^ 2 * k ^ 4) = 4 * Real.pi / 3 * ∑ i : Fin 5, (![1, -8 * k ^ 2, 40 * k ^ 4, -32 * k ^ 6 - 32 * k ^ 4,
              32 * k ^ 4 - 32 * k ^ 6 + 32 * k ^ 8] i) * u ^ (i : ℕ) := by
          intro u
          simp [Fin.sum_univ_five]
          ring
        rw [funext e, intervalIntegral.integral_const_mul, intervalIntegral.integral_finsetSum]
        · simp [Fin.sum_univ_five, intervalIntegral.integral_const_mul]
          ring
        · intro i _
          exact (Continuous.intervalIntegrable (by fun_prop) _ _)
      rw [← hc, ← intervalIntegral.integral_ofReal]
      refine intervalIntegral.integral_congr fun u2 hu => ?_
      rw [Set.uIcc_of_le zero_le_one] at hu
      exact hint u1 u2 hu.1 hu.2
    unfold expected
    rw [funext inner, intervalIntegral.integral_ofReal]
    have c0 : ∫ u in (0 : ℝ)..1, Real.cos (u * Real.pi * 2) ^ 0 = 1 := by simp
    have c2 := cos_avg 0
    have c4 := cos_avg 2
    have c6 := cos_avg 4
    have c8 := cos_avg 6
    have e : ∀ u : ℝ, 4 * Real.pi / 3 * (1 - 4 * Real.cos (u * Real.pi * 2) ^ 2 + 176 / 15 * Real.cos (u * Real.pi * 2) ^ 4
          - 72 / 5 * Real.cos (u * Real.pi * 2) ^ 6 + 32 / 5 * Real.cos (u * Real.pi * 2) ^ 8) =
        4 * Real.pi / 3 * ∑ i : Fin 5, (![1, -4, 176 / 15, -72 / 5, 32 / 5] i) * Real.cos (u * Real.pi * 2) ^ (2 * (i : ℕ)) := by
      intro u
      simp [Fin.sum_univ_five]
      ring
    rw [funext e, intervalIntegral.integral_const_mul, intervalIntegral.integral_finsetSum]
    · have h8 : (∑ i : Fin 5, ∫ x in (0 : ℝ)..1, (![1, -4, 176 / 15, -72 / 5, 32 / 5] i : ℝ) * Real.cos (x * Real.pi * 2) ^ (2 * (i : ℕ))) = 13 / 20 := by
        simp only [intervalIntegral.integral_const_mul, Fin.sum_univ_five]
        norm_num at c2 c4 c6 c8
        simp
        rw [c8, c6, c4, c2]
        norm_num
      rw [h8]
      push_cast
      ring
    · intro i _
      exact (Continuous.intervalIntegrable (by fun_prop) _ _)
  · have h := sphereIntegral_even ![4, 0, 0] 2 0 0 rfl rfl rfl
    have e : (fun u : Vec 3 => (u 0 : ℂ) ^ 4) = mono ![4, 0, 0] := by
      funext u; simp [mono, Fin.prod_univ_three]
    rw [e, h]
    norm_num [moment, Nat.doubleFactorial]
    ring

end Jaqmc.Ecp.Props
