import Verif.Lemmas.Legendre
import Mathlib.Data.List.GetD
/-! C101: the Gaussian orbitals are the contracted real solid harmonics they stand for. -/
namespace Jaqmc.Gto.Props
open Geometry Spec
open scoped BigOperators

theorem getD_tail (n m : ℕ) (f : ℕ → ℝ) (h0 : 0 < m) (hm : m ≤ n) : (((List.range (n + 1)).tail).map f).getD (m - 1) 0 = f m := by
  obtain ⟨k, rfl⟩ : ∃ k, m = k + 1 := ⟨m - 1, by omega⟩
  simp [List.getD_eq_getElem?_getD, List.getElem?_range', show k < n by omega, add_comm]

/-- **C101** (angular part).  For every point (the origin and the axis included) and every `|m| ≤ l ≤ l_max`, entry
`[m + l_max, l]` of `solid_harmonic` is the real solid harmonic of degree `l` and order `m`. -/
theorem c101_harmonic (lMax l : ℕ) (m : ℤ) (hl : l ≤ lMax) (hm : m.natAbs ≤ l) (r : Vec 3) :
    solidHarmonic lMax r (m + (lMax : ℤ)).toNat l = MvPolynomial.eval r (solid l m) := by
  unfold solidHarmonic
  simp only
  set s := cart2sph r with hs
  have hlen : ((List.range (lMax + 1)).tail).length = lMax := by simp
  rcases lt_trichotomy m 0 with h | h | h
  · obtain ⟨k, hk⟩ : ∃ k : ℕ, m = -(k : ℤ) := ⟨m.natAbs, by omega⟩
    have hk0 : 0 < k := by omega
    have hkl : k ≤ lMax := by omega
    have hi : (m + (lMax : ℤ)).toNat = lMax - k := by omega
    have hkm : m.natAbs = k := by omega
    rw [hi, List.append_assoc, List.getD_append _ _ _ _ (by simp; omega), List.getD_eq_getElem?_getD,
      List.getElem?_reverse (by simp; omega), ← List.getD_eq_getElem?_getD]
    simp only [List.length_map, hlen]
    rw [show lMax - 1 - (lMax - k) = k - 1 by omega, getD_tail _ _ _ hk0 hkl]
    have hp := (polar_part l k (by omega) r).2
    simp only [← hs] at hp
    unfold solid
    rw [if_neg (by omega), if_neg (by omega), hkm, mul_assoc (MvPolynomial.C _), map_mul, ← hp, MvPolynomial.eval_C]
    unfold lpmn normalisation
    have h1 : ((-1 : ℝ) ^ k) * (-1) ^ k = 1 := by rw [← mul_pow]; simp
    linear_combination (Real.sqrt 2 * (Real.sqrt ((2 * l + 1) / (4 * Real.pi) * ((l - k).factorial / (l + k).factorial))
      * Real.sqrt (1 - Real.cos s.2.2 ^ 2) ^ k * (Polynomial.derivative^[k] (legendreP l)).eval (Real.cos s.2.2)) * Real.sin (k * s.2.1)
      * s.1 ^ l) * h1
  · subst h
    have hi : ((0 : ℤ) + (lMax : ℤ)).toNat = lMax := by omega
    rw [hi, List.append_assoc, List.getD_append_right _ _ _ _ (by simp)]
    simp only [List.length_reverse, List.length_map, hlen, Nat.sub_self]
    have hp := (polar_part l 0 (by omega) r).1
    simp only [← hs, azimuth, one_mul, pow_zero, Nat.cast_zero, zero_mul, Real.cos_zero, mul_one] at hp
    unfold solid
    rw [if_pos rfl, map_mul, ← hp, MvPolynomial.eval_C]
    simp only [List.getD_eq_getElem?_getD, List.cons_append, List.getElem?_cons_zero, Option.getD_some]
    unfold lpmn normalisation
    simp only [pow_zero, one_mul, mul_one]
    ring
  · obtain ⟨k, hk⟩ : ∃ k : ℕ, m = (k : ℤ) := ⟨m.natAbs, by omega⟩
    have hk0 : 0 < k := by omega
    have hkl : k ≤ lMax := by omega
    have hi : (m + (lMax : ℤ)).toNat = lMax + 1 + (k - 1) := by omega
    have hkm : m.natAbs = k := by omega
    rw [hi, List.getD_append_right _ _ _ _ (by simp)]
    simp only [List.length_append, List.length_reverse, List.length_map, hlen, List.length_singleton, Nat.add_sub_cancel_left]
    rw [getD_tail _ _ _ hk0 hkl]
    have hp := (polar_part l k (by omega) r).1
    simp only [← hs] at hp
    unfold solid
    rw [if_neg (by omega), if_pos h, hkm, mul_assoc (MvPolynomial.C _), map_mul, ← hp, MvPolynomial.eval_C]
    unfold lpmn normalisation
    have h1 : ((-1 : ℝ) ^ k) * (-1) ^ k = 1 := by rw [← mul_pow]; simp
    linear_combination (Real.sqrt 2 * (Real.sqrt ((2 * l + 1) / (4 * Real.pi) * ((l - k).factorial / (l + k).factorial))
      * Real.sqrt (1 - Real.cos s.2.2 ^ 2) ^ k * (Polynomial.derivative^[k] (legendreP l)).eval (Real.cos s.2.2)) * Real.cos (k * s.2.1)
      * s.1 ^ l) * h1

/-! ### The polynomials are solid harmonics -/

open MvPolynomial

theorem pderiv_X (i j : Fin 3) : pderiv i (X j : Poly) = if i = j then 1 else 0 := by
  rw [MvPolynomial.pderiv_X]
  by_cases h : i = j
  · subst h; simp
  · simp [h, Pi.single_apply, eq_comm]

theorem pderiv_rsq (i : Fin 3) : pderiv i rsq = 2 * X i := by
  fin_cases i <;> simp [rsq, pderiv_X, pderiv_pow]

/-- The gradient product. -/
noncomputable def gdot (p q : Poly) : Poly := ∑ i, pderiv i p * pderiv i q

theorem lap_mul (p q : Poly) : laplacian (p * q) = p * laplacian q + 2 * gdot p q + q * laplacian p := by
  simp only [laplacian, gdot, Fin.sum_univ_three, pderiv_mul, map_add]
  ring

theorem lap_add (p q : Poly) : laplacian (p + q) = laplacian p + laplacian q := by
  simp [laplacian, Finset.sum_add_distrib]

theorem lap_C_mul (a : ℝ) (p : Poly) : laplacian (C a * p) = C a * laplacian p := by
  simp [laplacian, Finset.mul_sum, pderiv_C_mul, C_mul']

theorem lap_sum {ι : Type} (s : Finset ι) (f : ι → Poly) : laplacian (∑ i ∈ s, f i) = ∑ i ∈ s, laplacian (f i) := by
  simp only [laplacian, map_sum]
  rw [Finset.sum_comm]

theorem azimuth_facts (m : ℕ) :
    (pderiv 2 (azimuth m).1 = 0 ∧ pderiv 2 (azimuth m).2 = 0) ∧
    (pderiv 0 (azimuth m).1 = pderiv 1 (azimuth m).2 ∧ pderiv 1 (azimuth m).1 = -pderiv 0 (azimuth m).2) ∧
    (X 0 * pderiv 0 (azimuth m).1 + X 1 * pderiv 1 (azimuth m).1 = (m : Poly) * (azimuth m).1 ∧
     X 0 * pderiv 0 (azimuth m).2 + X 1 * pderiv 1 (azimuth m).2 = (m : Poly) * (azimuth m).2) := by
  induction m with
  | zero => simp [azimuth]
  | succ m ih =>
    obtain ⟨⟨a1, a2⟩, ⟨b1, b2⟩, c1, c2⟩ := ih
    simp only [azimuth, map_sub, map_add, pderiv_mul, pderiv_X, a1, a2, b1, b2]
    rw [b1, b2] at c1
    refine ⟨by simp, by simp; constructor <;> ring, ?_⟩
    simp
    constructor
    · linear_combination X 0 * c1 - X 1 * c2
    · linear_combination X 0 * c2 + X 1 * c1

theorem lap_X_mul (i : Fin 3) (p : Poly) : laplacian (X i * p) = X i * laplacian p + 2 * pderiv i p := by
  rw [lap_mul]
  have h1 : laplacian (X i : Poly) = 0 := by
    unfold laplacian
    refine Finset.sum_eq_zero fun j _ => ?_
    rw [pderiv_X]
    split <;> simp
  have h2 : gdot (X i) p = pderiv i p := by
    unfold gdot
    rw [Finset.sum_eq_single i (fun j _ hj => by rw [pderiv_X, if_neg hj, zero_mul]) (by simp), pderiv_X, if_pos rfl, one_mul]
  rw [h1, h2]
  ring

theorem azimuth_harmonic (m : ℕ) : laplacian (azimuth m).1 = 0 ∧ laplacian (azimuth m).2 = 0 := by
  induction m with
  | zero => simp [azimuth, laplacian]
  | succ m ih =>
    obtain ⟨-, ⟨b1, b2⟩, -⟩ := azimuth_facts m
    have e : (azimuth (m + 1)).1 = X 0 * (azimuth m).1 + C (-1) * (X 1 * (azimuth m).2) := by
      simp only [azimuth, C_neg, C_1]; ring
    constructor
    · rw [e, lap_add, lap_C_mul, lap_X_mul, lap_X_mul, ih.1, ih.2, b1]
      simp
    · simp only [azimuth]
      rw [lap_add, lap_X_mul, lap_X_mul, ih.1, ih.2, b2]
      ring

/-- Euler's operator. -/
noncomputable def euler (p : Poly) : Poly := ∑ i, X i * pderiv i p

theorem gdot_rsq (k : ℕ) (p : Poly) : gdot (rsq ^ k) p = 2 * (k : Poly) * rsq ^ (k - 1) * euler p := by
  unfold gdot euler
  rw [Finset.mul_sum]
  refine Finset.sum_congr rfl fun i _ => ?_
  rw [pderiv_pow, pderiv_rsq]
  ring

theorem lap_rsq (k : ℕ) : laplacian (rsq ^ k) = ((2 * k * (2 * k + 1) : ℕ) : Poly) * rsq ^ (k - 1) := by
  induction k with
  | zero => simp [laplacian]
  | succ k ih =>
    have h6 : laplacian rsq = 6 := by
      simp only [laplacian, pderiv_rsq, Fin.sum_univ_three, pderiv_mul, pderiv_X, if_true]
      have : ∀ i : Fin 3, pderiv i (2 : Poly) = 0 := fun i => by
        rw [show (2 : Poly) = C (2 : ℝ) from (map_ofNat C 2).symm]; exact pderiv_C
      rw [this, this, this]; ring
    have hE : euler rsq = 2 * rsq := by
      simp only [euler, pderiv_rsq, Fin.sum_univ_three]
      unfold rsq; ring
    rw [pow_succ, lap_mul, ih, gdot_rsq, hE, h6]
    rcases k with _ | k
    · simp
    · simp only [Nat.add_sub_cancel]
      push_cast
      ring

theorem lap_z (j : ℕ) : laplacian (X 2 ^ j : Poly) = ((j * (j - 1) : ℕ) : Poly) * X 2 ^ (j - 2) := by
  rcases j with _ | _ | j
  · simp [laplacian]
  · have := lap_X_mul 2 1
    rw [mul_one] at this
    have h1 : laplacian (1 : Poly) = 0 := by simp [laplacian]
    rw [zero_add, pow_one, this, h1]
    simp
  · simp only [laplacian, Fin.sum_univ_three, pderiv_pow, pderiv_X, show ((0 : Fin 3) = 2) = False by decide,
      show ((1 : Fin 3) = 2) = False by decide, if_true, if_false, mul_zero, map_zero, zero_add, mul_one]
    rw [pderiv_mul, pderiv_pow, pderiv_X, if_pos rfl, Derivation.map_natCast]
    simp
    ring

/-- The Laplacian of `z^j r^(2k) h` for a harmonic `h(x, y)` homogeneous of degree `m`. -/
theorem lap_term (j k m : ℕ) (h : Poly) (h0 : laplacian h = 0) (h2 : pderiv 2 h = 0)
    (h1 : X 0 * pderiv 0 h + X 1 * pderiv 1 h = (m : Poly) * h) :
    laplacian (h * (X 2 ^ j * rsq ^ k)) =
      ((2 * k * (2 * k + 1 + 2 * j + 2 * m) : ℕ) : Poly) * (X 2 ^ j * rsq ^ (k - 1) * h)
      + ((j * (j - 1) : ℕ) : Poly) * (X 2 ^ (j - 2) * rsq ^ k * h) := by
  have hz : laplacian (X 2 ^ j * h) = ((j * (j - 1) : ℕ) : Poly) * X 2 ^ (j - 2) * h := by
    have hg : gdot (X 2 ^ j) h = 0 := by
      simp [gdot, Fin.sum_univ_three, pderiv_pow, h2, pderiv_X]
    rw [lap_mul, hg, h0, lap_z]; ring
  have hE : euler (X 2 ^ j * h) = ((j + m : ℕ) : Poly) * (X 2 ^ j * h) := by
    simp only [euler, Fin.sum_univ_three, pderiv_mul, pderiv_pow, pderiv_X, h2, show ((0 : Fin 3) = 2) = False by decide,
      show ((1 : Fin 3) = 2) = False by decide, if_true, if_false]
    have hj : (j : Poly) * X 2 ^ j = (j : Poly) * (X 2 ^ (j - 1) * X 2) := by
      rcases j with _ | j
      · simp
      · rw [Nat.add_sub_cancel, pow_succ]
    push_cast
    linear_combination X 2 ^ j * h1 - h * hj
  rw [show h * (X 2 ^ j * rsq ^ k) = rsq ^ k * (X 2 ^ j * h) by ring, lap_mul, hz, gdot_rsq, hE, lap_rsq]
  push_cast
  ring

theorem coef_succ (l m k : ℕ) (hm : m ≤ l) (hk : 2 * k + 2 ≤ l - m) :
    coef l m (k + 1) * (2 * (k + 1) * (2 * (k + 1) + 1 + 2 * (l - m - 2 * (k + 1) : ℕ) + 2 * m))
      = -(coef l m k * ((l - m - 2 * k : ℕ) * (l - m - 2 * k - 1 : ℕ))) := by
  obtain ⟨j, hj⟩ : ∃ j, l = m + 2 * k + 2 + j := ⟨l - m - 2 * k - 2, by omega⟩
  subst hj
  unfold coef
  rw [show m + 2 * k + 2 + j - m - 2 * (k + 1) = j by omega, show m + 2 * k + 2 + j - m - 2 * k = j + 2 by omega,
    show j + 2 - 1 = j + 1 by omega, show 2 * (m + 2 * k + 2 + j) - 2 * (k + 1) = 2 * (m + k + j + 1) by omega,
    show 2 * (m + 2 * k + 2 + j) - 2 * k = 2 * (m + k + j + 1) + 1 + 1 by omega,
    show m + 2 * k + 2 + j - (k + 1) = m + k + j + 1 by omega, show m + 2 * k + 2 + j - k = (m + k + j + 1) + 1 by omega]
  rw [Nat.factorial_succ (2 * (m + k + j + 1) + 1), Nat.factorial_succ (2 * (m + k + j + 1)), Nat.factorial_succ (m + k + j + 1),
    Nat.factorial_succ (j + 1), Nat.factorial_succ j, Nat.factorial_succ k]
  have h1 : ((2 * (m + k + j + 1)).factorial : ℝ) ≠ 0 := by positivity
  push_cast
  field_simp
  ring

theorem lap_zonal (l m : ℕ) (hm : m ≤ l) (h : Poly) (h0 : laplacian h = 0) (h2 : pderiv 2 h = 0)
    (h1 : X 0 * pderiv 0 h + X 1 * pderiv 1 h = (m : Poly) * h) : laplacian (h * zonal l m) = 0 := by
  have e : h * zonal l m = ∑ k ∈ Finset.range ((l - m) / 2 + 1), C (coef l m k) * (h * (X 2 ^ (l - m - 2 * k) * rsq ^ k)) := by
    unfold zonal coef
    rw [Finset.mul_sum]
    refine Finset.sum_congr rfl fun k _ => by ring
  rw [e, lap_sum]
  simp only [lap_C_mul, lap_term _ _ m h h0 h2 h1]
  simp only [mul_add (C _)]
  rw [Finset.sum_add_distrib, Finset.sum_range_succ', Finset.sum_range_succ (fun k => C (coef l m k) * (((l - m - 2 * k) * (l - m - 2 * k - 1) : ℕ) * _))]
  have hend : (l - m - 2 * ((l - m) / 2)) * (l - m - 2 * ((l - m) / 2) - 1) = 0 := by
    have : l - m - 2 * ((l - m) / 2) < 2 := by omega
    generalize l - m - 2 * ((l - m) / 2) = q at this
    rcases q with _ | _ | q
    · rfl
    · rfl
    · omega
  rw [hend]
  simp only [Nat.cast_zero, zero_mul, mul_zero, add_zero]
  rw [← Finset.sum_add_distrib]
  refine Finset.sum_eq_zero fun k hk => ?_
  simp only [Finset.mem_range] at hk
  have hc := coef_succ l m k hm (by omega)
  have hC := congrArg (C (σ := Fin 3)) hc
  simp only [C_mul, C_neg, C_add, C_1, map_natCast, map_ofNat] at hC
  rw [Nat.add_sub_cancel, show l - m - 2 * (k + 1) = l - m - 2 * k - 2 by omega] at *
  push_cast at hC ⊢
  linear_combination (X 2 ^ (l - m - 2 * k - 2) * rsq ^ k * h) * hC

/-- **C101** (solid harmonics).  The angular polynomials are harmonic and homogeneous of degree `l`. -/
theorem c101_laplace (l : ℕ) (m : ℤ) (hm : m.natAbs ≤ l) : laplacian (solid l m) = 0 ∧ (solid l m).IsHomogeneous l := by
  have hz : ∀ k ≤ l, (zonal l k).IsHomogeneous (l - k) := by
    intro k hk
    unfold zonal
    refine MvPolynomial.IsHomogeneous.sum _ _ _ fun i hi => ?_
    simp only [Finset.mem_range] at hi
    have hr : rsq.IsHomogeneous 2 := by
      unfold rsq
      exact (((isHomogeneous_X ℝ 0).pow 2).add ((isHomogeneous_X ℝ 1).pow 2)).add ((isHomogeneous_X ℝ 2).pow 2)
    have := ((isHomogeneous_C (Fin 3) (coef l k i)).mul ((isHomogeneous_X ℝ (2 : Fin 3)).pow (l - k - 2 * i))).mul (hr.pow i)
    rw [show 0 + 1 * (l - k - 2 * i) + 2 * i = l - k by omega] at this
    exact this
  have ha : ∀ k, (azimuth k).1.IsHomogeneous k ∧ (azimuth k).2.IsHomogeneous k := by
    intro k
    induction k with
    | zero => exact ⟨isHomogeneous_one _ _, isHomogeneous_zero _ _ _⟩
    | succ k ih =>
      simp only [azimuth, add_comm k 1]
      exact ⟨((isHomogeneous_X ℝ 0).mul ih.1).sub ((isHomogeneous_X ℝ 1).mul ih.2),
        ((isHomogeneous_X ℝ 0).mul ih.2).add ((isHomogeneous_X ℝ 1).mul ih.1)⟩
  unfold solid
  by_cases h : m = 0
  · rw [if_pos h]
    constructor
    · rw [lap_C_mul, show zonal l 0 = 1 * zonal l 0 by ring, lap_zonal l 0 (by omega) 1 (by simp [laplacian]) (by simp) (by simp), mul_zero]
    · have := (isHomogeneous_C (Fin 3) (normalisation l 0)).mul (hz 0 (by omega))
      simpa using this
  · rw [if_neg h, mul_assoc]
    obtain ⟨⟨a1, a2⟩, -, c1, c2⟩ := azimuth_facts m.natAbs
    have hh := azimuth_harmonic m.natAbs
    have hdeg : 0 + (m.natAbs + (l - m.natAbs)) = l := by omega
    split
    · refine ⟨by rw [lap_C_mul, lap_zonal l _ hm _ hh.1 a1 c1, mul_zero], ?_⟩
      have := (isHomogeneous_C (Fin 3) (Real.sqrt 2 * normalisation l m.natAbs)).mul ((ha m.natAbs).1.mul (hz _ hm))
      rwa [hdeg] at this
    · refine ⟨by rw [lap_C_mul, lap_zonal l _ hm _ hh.2 a2 c2, mul_zero], ?_⟩
      have := (isHomogeneous_C (Fin 3) (Real.sqrt 2 * normalisation l m.natAbs)).mul ((ha m.natAbs).2.mul (hz _ hm))
      rwa [hdeg] at this

end Jaqmc.Gto.Props
