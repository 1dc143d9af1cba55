import Verif.Lemmas.QuadratureOct
import Mathlib.Analysis.SpecialFunctions.Trigonometric.ArctanDeriv
/-! The icosahedral rules are exact up to their degree. -/
open MeasureTheory Set Metric

namespace Jaqmc.Ecp
open Spec Geometry

noncomputable def c1 : ℝ := (Real.sqrt 5 - 1) / 4
noncomputable def c2 : ℝ := -(Real.sqrt 5 + 1) / 4
noncomputable def s1 : ℝ := Real.sin (2 * Real.pi / 5)
noncomputable def s2 : ℝ := Real.sin (Real.pi / 5)

theorem q_sq : Real.sqrt 5 ^ 2 = 5 := Real.sq_sqrt (by norm_num)

theorem cos_c1 : Real.cos (2 * Real.pi / 5) = c1 := by
  rw [show 2 * Real.pi / 5 = 2 * (Real.pi / 5) by ring, Real.cos_two_mul, Real.cos_pi_div_five, c1]
  have := q_sq
  grind

theorem cos_c2 : Real.cos (Real.pi / 5) = -c2 := by
  rw [Real.cos_pi_div_five, c2]; ring

theorem s1_sq : s1 ^ 2 = (5 + Real.sqrt 5) / 8 := by
  rw [s1, Real.sin_sq, cos_c1, c1]
  have := q_sq
  grind

theorem s2_sq : s2 ^ 2 = (5 - Real.sqrt 5) / 8 := by
  rw [s2, Real.sin_sq, cos_c2, c2]
  have := q_sq
  grind

/-- The sum over one ring of five points. -/
noncomputable def ringT (a b : ℕ) : ℝ := 0 ^ b + c1 ^ a * (s1 ^ b + (-s1) ^ b) + c2 ^ a * (s2 ^ b + (-s2) ^ b)

theorem ring_even (θ : ℝ) (a : Fin 3 → ℕ) :
    (((List.range 5).map (fun k : ℕ => (θ, 2 * (k : ℝ) * Real.pi / 5))).map (fun p => rmono a (cartesian p))).sum =
      Real.sin θ ^ (a 0 + a 1) * Real.cos θ ^ a 2 * ringT (a 0) (a 1) := by
  have e1 : Real.cos (2 * 2 * Real.pi / 5) = c2 ∧ Real.sin (2 * 2 * Real.pi / 5) = s2 := by
    rw [show 2 * 2 * Real.pi / 5 = Real.pi - Real.pi / 5 by ring, Real.cos_pi_sub, Real.sin_pi_sub, cos_c2]
    exact ⟨by ring, rfl⟩
  have e2 : Real.cos (2 * 3 * Real.pi / 5) = c2 ∧ Real.sin (2 * 3 * Real.pi / 5) = -s2 := by
    rw [show 2 * 3 * Real.pi / 5 = Real.pi / 5 + Real.pi by ring, Real.cos_add_pi, Real.sin_add_pi, cos_c2]
    exact ⟨by ring, rfl⟩
  have e3 : Real.cos (2 * 4 * Real.pi / 5) = c1 ∧ Real.sin (2 * 4 * Real.pi / 5) = -s1 := by
    rw [show 2 * 4 * Real.pi / 5 = 2 * Real.pi - 2 * Real.pi / 5 by ring, Real.cos_two_pi_sub, Real.sin_two_pi_sub, cos_c1]
    exact ⟨rfl, rfl⟩
  have e4 : Real.sin (2 * Real.pi / 5) = s1 := rfl
  simp only [List.range, List.range.loop, List.map_cons, List.map_nil, List.sum_cons, List.sum_nil, rmono, cartesian,
    Matrix.cons_val_zero, Matrix.cons_val_one, Matrix.cons_val, Nat.cast_ofNat, Nat.cast_one, Nat.cast_zero, mul_one, mul_zero, zero_mul, zero_div,
    Real.cos_zero, Real.sin_zero, e1, e2, e3, e4, cos_c1, ringT]
  have h0 : (0 : ℝ) ^ a 1 = Real.sin θ ^ a 1 * 0 ^ a 1 := by rw [← mul_pow, mul_zero]
  simp only [mul_pow]
  linear_combination (Real.sin θ ^ a 0 * Real.cos θ ^ a 2) * h0

theorem ring_odd (θ : ℝ) (a : Fin 3 → ℕ) :
    (((List.range 5).map (fun k : ℕ => (θ, (2 * (k : ℝ) + 1) * Real.pi / 5))).map (fun p => rmono a (cartesian p))).sum =
      (-1) ^ a 0 * (Real.sin θ ^ (a 0 + a 1) * Real.cos θ ^ a 2 * ringT (a 0) (a 1)) := by
  have e0 : Real.cos (Real.pi / 5) = -c2 ∧ Real.sin (Real.pi / 5) = s2 := ⟨cos_c2, rfl⟩
  have e1 : Real.cos ((2 + 1) * Real.pi / 5) = -c1 ∧ Real.sin ((2 + 1) * Real.pi / 5) = s1 := by
    rw [show (2 + 1) * Real.pi / 5 = Real.pi - 2 * Real.pi / 5 by ring, Real.cos_pi_sub, Real.sin_pi_sub, cos_c1]
    exact ⟨by ring, rfl⟩
  have e2 : Real.cos ((2 * 2 + 1) * Real.pi / 5) = -1 ∧ Real.sin ((2 * 2 + 1) * Real.pi / 5) = 0 := by
    rw [show (2 * 2 + 1) * Real.pi / 5 = Real.pi by ring]; simp
  have e3 : Real.cos ((2 * 3 + 1) * Real.pi / 5) = -c1 ∧ Real.sin ((2 * 3 + 1) * Real.pi / 5) = -s1 := by
    rw [show (2 * 3 + 1) * Real.pi / 5 = 2 * Real.pi / 5 + Real.pi by ring, Real.cos_add_pi, Real.sin_add_pi, cos_c1]
    exact ⟨by ring, rfl⟩
  have e4 : Real.cos ((2 * 4 + 1) * Real.pi / 5) = -c2 ∧ Real.sin ((2 * 4 + 1) * Real.pi / 5) = -s2 := by
    rw [show (2 * 4 + 1) * Real.pi / 5 = 2 * Real.pi - Real.pi / 5 by ring, Real.cos_two_pi_sub, Real.sin_two_pi_sub, cos_c2]
    exact ⟨rfl, rfl⟩
  simp only [List.range, List.range.loop, List.map_cons, List.map_nil, List.sum_cons, List.sum_nil, rmono, cartesian,
    Matrix.cons_val_zero, Matrix.cons_val_one, Matrix.cons_val, Nat.cast_ofNat, Nat.cast_one, Nat.cast_zero, mul_one, mul_zero, zero_add, one_mul,
    e0, e1, e2, e3, e4, ringT]
  have h0 : (0 : ℝ) ^ a 1 = Real.sin θ ^ a 1 * 0 ^ a 1 := by rw [← mul_pow, mul_zero]
  simp only [mul_pow]
  rw [neg_pow c1 (a 0), neg_pow c2 (a 0)]
  linear_combination ((-1) ^ a 0 * Real.sin θ ^ a 0 * Real.cos θ ^ a 2) * h0


theorem trig_arctan : Real.sin (Real.arctan 2) = 2 / Real.sqrt 5 ∧ Real.cos (Real.arctan 2) = 1 / Real.sqrt 5 := by
  rw [Real.sin_arctan, Real.cos_arctan]
  norm_num

/-- `down`, `theta1`, `theta2`. -/
noncomputable def dn : ℝ := Real.sqrt (15 + 6 * Real.sqrt 5)
theorem dn_sq : dn ^ 2 = 15 + 6 * Real.sqrt 5 := Real.sq_sqrt (by positivity)
theorem dn_pos : 0 < dn := Real.sqrt_pos.mpr (by positivity)

theorem trig_theta1 : Real.sin (Real.arccos ((2 + Real.sqrt 5) / dn)) = (1 + Real.sqrt 5) / dn ∧
    Real.cos (Real.arccos ((2 + Real.sqrt 5) / dn)) = (2 + Real.sqrt 5) / dn := by
  have h5 := q_sq
  have hd := dn_sq
  have hp := dn_pos
  have hq : 0 ≤ Real.sqrt 5 := Real.sqrt_nonneg 5
  have h1 : ((2 + Real.sqrt 5) / dn) ^ 2 + ((1 + Real.sqrt 5) / dn) ^ 2 = 1 := by
    field_simp
    rw [hd]
    linear_combination 2 * h5
  have h2 : 0 ≤ (2 + Real.sqrt 5) / dn := by positivity
  have h3 : 0 ≤ (1 + Real.sqrt 5) / dn := by positivity
  rw [Real.sin_arccos, Real.cos_arccos (by linarith) (by nlinarith)]
  refine ⟨?_, rfl⟩
  rw [show 1 - ((2 + Real.sqrt 5) / dn) ^ 2 = ((1 + Real.sqrt 5) / dn) ^ 2 by linarith, Real.sqrt_sq h3]

theorem trig_theta2 : Real.sin (Real.arccos (1 / dn)) = (3 + Real.sqrt 5) / dn ∧
    Real.cos (Real.arccos (1 / dn)) = 1 / dn := by
  have h5 := q_sq
  have hd := dn_sq
  have hp := dn_pos
  have hq : 0 ≤ Real.sqrt 5 := Real.sqrt_nonneg 5
  have h1 : (1 / dn) ^ 2 + ((3 + Real.sqrt 5) / dn) ^ 2 = 1 := by
    field_simp
    rw [hd]
    linear_combination h5
  have h2 : 0 ≤ 1 / dn := by positivity
  have h3 : 0 ≤ (3 + Real.sqrt 5) / dn := by positivity
  rw [Real.sin_arccos, Real.cos_arccos (by linarith) (by nlinarith)]
  refine ⟨?_, rfl⟩
  rw [show 1 - (1 / dn) ^ 2 = ((3 + Real.sqrt 5) / dn) ^ 2 by linarith, Real.sqrt_sq h3]

/-- The sum over the vertices. -/
noncomputable def icoV (a : Fin 3 → ℕ) : ℝ :=
  0 ^ (a 0 + a 1) * (1 + (-1) ^ a 2) +
    (1 + (-1) ^ a 0 * (-1) ^ a 2) * ((2 / Real.sqrt 5) ^ (a 0 + a 1) * (1 / Real.sqrt 5) ^ a 2 * ringT (a 0) (a 1))

/-- The sum over the face centres. -/
noncomputable def icoF (a : Fin 3 → ℕ) : ℝ :=
  ((-1) ^ a 0 + (-1) ^ a 2) * (((1 + Real.sqrt 5) / dn) ^ (a 0 + a 1) * ((2 + Real.sqrt 5) / dn) ^ a 2 +
    ((3 + Real.sqrt 5) / dn) ^ (a 0 + a 1) * (1 / dn) ^ a 2) * ringT (a 0) (a 1)

theorem ico_cases (n : ℕ) (q : Rule) (h : icosahedron n = some q) :
    (n = 12 ∧ ∀ a, rsum (q.pts.map (rmono a)) q.coefs = 1 / 12 * icoV a) ∨
    (n = 32 ∧ ∀ a, rsum (q.pts.map (rmono a)) q.coefs = 5 / 168 * icoV a + 27 / 840 * icoF a) := by
  unfold icosahedron at h
  rw [Option.map_eq_some_iff] at h
  obtain ⟨c, hc, hq⟩ := h
  let even : ℝ → List (ℝ × ℝ) := fun θ => (List.range 5).map (fun k : ℕ => (θ, 2 * (k : ℝ) * Real.pi / 5))
  let odd : ℝ → List (ℝ × ℝ) := fun θ => (List.range 5).map (fun k : ℕ => (θ, (2 * (k : ℝ) + 1) * Real.pi / 5))
  let V := [(0, 0), (Real.pi, 0)] ++ even (Real.arctan 2) ++ odd (Real.pi - Real.arctan 2)
  let F := odd (Real.arccos ((2 + Real.sqrt 5) / dn)) ++ odd (Real.arccos (1 / dn)) ++
    even (Real.pi - Real.arccos ((2 + Real.sqrt 5) / dn)) ++ even (Real.pi - Real.arccos (1 / dn))
  have hpol : icoPolars = V ++ F := by simp [icoPolars, V, F, even, odd, dn]
  have lV : V.length = 12 := by simp [V, even, odd]
  have lF : F.length = 20 := by simp [F, even, odd]
  have hV : ∀ a, (((V.map cartesian).map (rmono a))).sum = icoV a := by
    intro a
    have h1 := ring_even (Real.arctan 2) a
    have h2 := ring_odd (Real.pi - Real.arctan 2) a
    simp only [V, even, odd, List.map_map, List.map_append, List.sum_append] at *
    simp only [Function.comp_def] at *
    rw [h1, h2, Real.sin_pi_sub, Real.cos_pi_sub, trig_arctan.1, trig_arctan.2]
    simp only [icoV, rmono, cartesian, List.map_cons, List.map_nil, List.sum_cons, List.sum_nil]
    simp only [Real.sin_zero, Real.cos_zero, Real.sin_pi, Real.cos_pi, zero_mul, Matrix.cons_val_zero, Matrix.cons_val_one,
      Matrix.cons_val, one_pow]
    rw [neg_pow (1 / Real.sqrt 5) (a 2)]
    ring
  have hF : ∀ a, (((F.map cartesian).map (rmono a))).sum = icoF a := by
    intro a
    have h1 := ring_even (Real.pi - Real.arccos ((2 + Real.sqrt 5) / dn)) a
    have h2 := ring_even (Real.pi - Real.arccos (1 / dn)) a
    have h3 := ring_odd (Real.arccos ((2 + Real.sqrt 5) / dn)) a
    have h4 := ring_odd (Real.arccos (1 / dn)) a
    simp only [F, even, odd, List.map_map, List.map_append, List.sum_append] at *
    simp only [Function.comp_def] at *
    rw [h1, h2, h3, h4, Real.sin_pi_sub, Real.cos_pi_sub, Real.sin_pi_sub, Real.cos_pi_sub, trig_theta1.1, trig_theta1.2,
      trig_theta2.1, trig_theta2.2]
    rw [neg_pow (1 / dn) (a 2), neg_pow ((2 + Real.sqrt 5) / dn) (a 2)]
    simp only [icoF]
    ring
  unfold icoCoefs at hc
  split at hc <;> simp only [Option.some.injEq, reduceCtorEq] at hc
  · left
    subst hc hq
    refine ⟨rfl, fun a => ?_⟩
    have e : List.take 12 icoPolars = V := by rw [hpol, List.take_append, lV]; simp [← lV]
    simp only [e]
    rw [rsum_replicate _ _ 12 (by simp [lV]), hV]
  · right
    subst hc hq
    refine ⟨rfl, fun a => ?_⟩
    have e : List.take 32 icoPolars = V ++ F := by rw [hpol, List.take_of_length_le (by simp [lV, lF])]
    simp only [e, List.map_append]
    rw [rsum_append _ _ _ _ (by simp [lV]), rsum_replicate _ _ 12 (by simp [lV]), rsum_replicate _ _ 20 (by simp [lF]), hV, hF]


theorem ringT_odd (a b : ℕ) (h : Odd b) : ringT a b = 0 := by
  rw [ringT, h.neg_pow, h.neg_pow, zero_pow (by rintro rfl; simp at h)]
  ring

theorem ringT_even (a j : ℕ) : ringT a (2 * j) =
    0 ^ j + 2 * c1 ^ a * ((5 + Real.sqrt 5) / 8) ^ j + 2 * c2 ^ a * ((5 - Real.sqrt 5) / 8) ^ j := by
  rw [ringT, (even_two_mul j).neg_pow, (even_two_mul j).neg_pow, pow_mul, pow_mul, pow_mul, s1_sq, s2_sq]
  have : (0 : ℝ) ^ 2 = 0 := by norm_num
  rw [this]
  ring

theorem S1C1 (m k : ℕ) : ((1 + Real.sqrt 5) / dn) ^ (2 * m) * ((2 + Real.sqrt 5) / dn) ^ (2 * k) =
    ((10 - 2 * Real.sqrt 5) / 15) ^ m * ((5 + 2 * Real.sqrt 5) / 15) ^ k := by
  have h5 := q_sq
  have hd := dn_sq
  have hp := dn_pos.ne'
  have hD : (15 + 6 * Real.sqrt 5) ≠ 0 := by positivity
  rw [pow_mul, pow_mul]
  congr 2
  · rw [div_pow, hd, div_eq_div_iff hD (by norm_num)]; linear_combination (27 : ℝ) * h5
  · rw [div_pow, hd, div_eq_div_iff hD (by norm_num)]; linear_combination (3 : ℝ) * h5

theorem S2C2 (m k : ℕ) : ((3 + Real.sqrt 5) / dn) ^ (2 * m) * (1 / dn) ^ (2 * k) =
    ((10 + 2 * Real.sqrt 5) / 15) ^ m * ((5 - 2 * Real.sqrt 5) / 15) ^ k := by
  have h5 := q_sq
  have hd := dn_sq
  have hp := dn_pos.ne'
  have hD : (15 + 6 * Real.sqrt 5) ≠ 0 := by positivity
  rw [pow_mul, pow_mul]
  congr 2
  · rw [div_pow, hd, div_eq_div_iff hD (by norm_num)]; linear_combination (3 : ℝ) * h5
  · rw [div_pow, hd, div_eq_div_iff hD (by norm_num)]; linear_combination (12 : ℝ) * h5

theorem sc1 : ((1 + Real.sqrt 5) / dn) * ((2 + Real.sqrt 5) / dn) = (5 + Real.sqrt 5) / 15 := by
  have h5 := q_sq
  have hd := dn_sq
  have hD : (15 + 6 * Real.sqrt 5) ≠ 0 := by positivity
  rw [div_mul_div_comm, ← sq, hd, div_eq_div_iff hD (by norm_num)]
  linear_combination (9 : ℝ) * h5

theorem sc2 : ((3 + Real.sqrt 5) / dn) * (1 / dn) = (5 - Real.sqrt 5) / 15 := by
  have h5 := q_sq
  have hd := dn_sq
  have hD : (15 + 6 * Real.sqrt 5) ≠ 0 := by positivity
  rw [div_mul_div_comm, ← sq, hd, div_eq_div_iff hD (by norm_num)]
  linear_combination (6 : ℝ) * h5

theorem sc0 : (2 / Real.sqrt 5) * (1 / Real.sqrt 5) = 2 / 5 := by
  rw [div_mul_div_comm, ← sq, q_sq]; norm_num

theorem S0C0 (m k : ℕ) : (2 / Real.sqrt 5) ^ (2 * m) * (1 / Real.sqrt 5) ^ (2 * k) = (4 / 5) ^ m * (1 / 5) ^ k := by
  rw [pow_mul, pow_mul, div_pow, div_pow, q_sq]; norm_num [div_pow]

/-- Both exponents even. -/
theorem icoV_even (i j k : ℕ) : icoV ![2 * i, 2 * j, 2 * k] =
    2 * 0 ^ (i + j) + 2 * ((4 / 5) ^ (i + j) * (1 / 5) ^ k) * ringT (2 * i) (2 * j) := by
  have e0 : (![2 * i, 2 * j, 2 * k] : Fin 3 → ℕ) 0 = 2 * i := rfl
  have e1 : (![2 * i, 2 * j, 2 * k] : Fin 3 → ℕ) 1 = 2 * j := rfl
  have e2 : (![2 * i, 2 * j, 2 * k] : Fin 3 → ℕ) 2 = 2 * k := rfl
  simp only [icoV, e0, e1, e2, (even_two_mul _).neg_one_pow]
  rw [← mul_add, S0C0, pow_mul]
  norm_num
  ring

theorem icoF_even (i j k : ℕ) : icoF ![2 * i, 2 * j, 2 * k] =
    2 * (((10 - 2 * Real.sqrt 5) / 15) ^ (i + j) * ((5 + 2 * Real.sqrt 5) / 15) ^ k +
      ((10 + 2 * Real.sqrt 5) / 15) ^ (i + j) * ((5 - 2 * Real.sqrt 5) / 15) ^ k) * ringT (2 * i) (2 * j) := by
  have e0 : (![2 * i, 2 * j, 2 * k] : Fin 3 → ℕ) 0 = 2 * i := rfl
  have e1 : (![2 * i, 2 * j, 2 * k] : Fin 3 → ℕ) 1 = 2 * j := rfl
  have e2 : (![2 * i, 2 * j, 2 * k] : Fin 3 → ℕ) 2 = 2 * k := rfl
  simp only [icoF, e0, e1, e2, (even_two_mul _).neg_one_pow]
  rw [← mul_add, S1C1, S2C2]
  norm_num

/-- First and last exponents odd. -/
theorem icoV_odd (i j k : ℕ) : icoV ![2 * i + 1, 2 * j, 2 * k + 1] =
    2 * (2 / 5 * ((4 / 5) ^ (i + j) * (1 / 5) ^ k)) * ringT (2 * i + 1) (2 * j) := by
  have e0 : (![2 * i + 1, 2 * j, 2 * k + 1] : Fin 3 → ℕ) 0 = 2 * i + 1 := rfl
  have e1 : (![2 * i + 1, 2 * j, 2 * k + 1] : Fin 3 → ℕ) 1 = 2 * j := rfl
  have e2 : (![2 * i + 1, 2 * j, 2 * k + 1] : Fin 3 → ℕ) 2 = 2 * k + 1 := rfl
  simp only [icoV, e0, e1, e2, (odd_two_mul_add_one _).neg_one_pow]
  rw [← S0C0, ← sc0]
  ring

theorem icoF_odd (i j k : ℕ) : icoF ![2 * i + 1, 2 * j, 2 * k + 1] =
    -2 * ((5 + Real.sqrt 5) / 15 * (((10 - 2 * Real.sqrt 5) / 15) ^ (i + j) * ((5 + 2 * Real.sqrt 5) / 15) ^ k) +
      (5 - Real.sqrt 5) / 15 * (((10 + 2 * Real.sqrt 5) / 15) ^ (i + j) * ((5 - 2 * Real.sqrt 5) / 15) ^ k)) * ringT (2 * i + 1) (2 * j) := by
  have e0 : (![2 * i + 1, 2 * j, 2 * k + 1] : Fin 3 → ℕ) 0 = 2 * i + 1 := rfl
  have e1 : (![2 * i + 1, 2 * j, 2 * k + 1] : Fin 3 → ℕ) 1 = 2 * j := rfl
  have e2 : (![2 * i + 1, 2 * j, 2 * k + 1] : Fin 3 → ℕ) 2 = 2 * k + 1 := rfl
  simp only [icoF, e0, e1, e2, (odd_two_mul_add_one _).neg_one_pow]
  rw [← S1C1, ← S2C2, ← sc1, ← sc2]
  ring

/-- Odd monomials other than those of `icoV_odd`. -/
theorem ico_zero (a : Fin 3 → ℕ) (h : Odd (a 1) ∨ Odd (a 0 + a 2)) : icoV a = 0 ∧ icoF a = 0 := by
  rcases h with h | h
  · rw [icoV, icoF, ringT_odd _ _ h, zero_pow (by have := h.pos; omega)]
    simp
  · have e : (-1 : ℝ) ^ a 0 * (-1) ^ a 2 = -1 := by rw [← pow_add, h.neg_one_pow]
    have e' : (-1 : ℝ) ^ a 0 + (-1) ^ a 2 = 0 := by
      rcases Nat.even_or_odd (a 0) with h0 | h0
      · have : Odd (a 2) := by grind
        rw [h0.neg_one_pow, this.neg_one_pow]; ring
      · have : Even (a 2) := by grind
        rw [h0.neg_one_pow, this.neg_one_pow]; ring
    rw [icoV, icoF, e, e']
    refine ⟨?_, by ring⟩
    by_cases h0 : a 0 + a 1 = 0
    · have : Odd (a 2) := by
        have : a 0 = 0 := by omega
        rwa [this, zero_add] at h
      rw [this.neg_one_pow]; ring
    · rw [zero_pow h0]; ring

theorem ico12_even (i j k : ℕ) (h : 2 * (i + j + k) ≤ 5) : 1 / 12 * icoV ![2 * i, 2 * j, 2 * k] = moment i j k := by
  rw [icoV_even, ringT_even, c1, c2]
  have h5 := q_sq
  generalize Real.sqrt 5 = q at *
  have hi : i ≤ 2 := by omega
  have hj : j ≤ 2 := by omega
  have hk : k ≤ 2 := by omega
  interval_cases i <;> interval_cases j <;> (try omega) <;> interval_cases k <;> (try omega) <;>
    norm_num [moment, Nat.doubleFactorial] <;> grind

theorem ico12_odd (i j k : ℕ) (h : 2 * (i + j + k) + 2 ≤ 5) : 1 / 12 * icoV ![2 * i + 1, 2 * j, 2 * k + 1] = 0 := by
  rw [icoV_odd, ringT_even, c1, c2]
  have h5 := q_sq
  generalize Real.sqrt 5 = q at *
  have hi : i ≤ 1 := by omega
  have hj : j ≤ 1 := by omega
  have hk : k ≤ 1 := by omega
  interval_cases i <;> interval_cases j <;> (try omega) <;> interval_cases k <;> (try omega) <;>
    norm_num <;> grind

theorem ico32_even (i j k : ℕ) (h : 2 * (i + j + k) ≤ 9) :
    5 / 168 * icoV ![2 * i, 2 * j, 2 * k] + 27 / 840 * icoF ![2 * i, 2 * j, 2 * k] = moment i j k := by
  rw [icoV_even, icoF_even, ringT_even, c1, c2]
  have h5 := q_sq
  generalize Real.sqrt 5 = q at *
  have hi : i ≤ 4 := by omega
  have hj : j ≤ 4 := by omega
  have hk : k ≤ 4 := by omega
  interval_cases i <;> interval_cases j <;> (try omega) <;> interval_cases k <;> (try omega) <;>
    norm_num [moment, Nat.doubleFactorial] <;> grind

theorem ico32_odd (i j k : ℕ) (h : 2 * (i + j + k) + 2 ≤ 9) :
    5 / 168 * icoV ![2 * i + 1, 2 * j, 2 * k + 1] + 27 / 840 * icoF ![2 * i + 1, 2 * j, 2 * k + 1] = 0 := by
  rw [icoV_odd, icoF_odd, ringT_even, c1, c2]
  have h5 := q_sq
  generalize Real.sqrt 5 = q at *
  have hi : i ≤ 3 := by omega
  have hj : j ≤ 3 := by omega
  have hk : k ≤ 3 := by omega
  interval_cases i <;> interval_cases j <;> (try omega) <;> interval_cases k <;> (try omega) <;>
    norm_num <;> grind

theorem ico_unit (n : ℕ) (q : Rule) (h : icosahedron n = some q) : ∀ u ∈ q.pts, ∑ k, u k ^ 2 = 1 := by
  unfold icosahedron at h
  rw [Option.map_eq_some_iff] at h
  obtain ⟨c, hc, rfl⟩ := h
  intro u hu
  obtain ⟨l, hl, rfl⟩ := List.mem_map.mp hu
  simp only [cartesian, Fin.sum_univ_three, Matrix.cons_val_zero, Matrix.cons_val_one, Matrix.cons_val]
  have h1 := Real.sin_sq_add_cos_sq l.1
  have h2 := Real.sin_sq_add_cos_sq l.2
  linear_combination h1 + Real.sin l.1 ^ 2 * h2

theorem ico_exact (n d : ℕ) (q : Rule) (h : icosahedron n = some q)
    (hn : (n, d) = (12, 5) ∨ (n, d) = (32, 9)) (f : Vec 3 → ℂ)
    (hf : PolynomialOnSphere d f) : q.integrate (q.pts.map f) = sphereIntegral f := by
  refine exact_of_mono q d (ico_unit n q h) ?_ f hf
  apply exact_even
  · intro a had ho
    by_cases hz : Odd (a 1) ∨ Odd (a 0 + a 2)
    · obtain ⟨h1, h2⟩ := ico_zero a hz
      rcases ico_cases n q h with ⟨_, hs⟩ | ⟨_, hs⟩ <;> rw [hs, h1] <;> simp [h2]
    · push Not at hz
      obtain ⟨hz1, hz2⟩ := hz
      have h1 : Even (a 1) := by simpa using hz1
      have h02 : Even (a 0 + a 2) := by simpa using hz2
      have h0 : Odd (a 0) := by
        obtain ⟨j, hj⟩ := ho
        fin_cases j
        · exact hj
        · simp at hj; grind
        · simp at hj; grind
      have h2 : Odd (a 2) := by grind
      obtain ⟨i, hi⟩ := h0
      obtain ⟨j, hj⟩ := h1.two_dvd
      obtain ⟨k, hk⟩ := h2
      have e : a = ![2 * i + 1, 2 * j, 2 * k + 1] := by
        funext m; fin_cases m <;> simp [hi, hj, hk]
      rw [Fin.sum_univ_three, hi, hj, hk] at had
      subst e
      rcases ico_cases n q h with ⟨rfl, hs⟩ | ⟨rfl, hs⟩
      · have : d = 5 := by simpa using hn
        rw [hs, ico12_odd i j k (by omega)]
      · have : d = 9 := by simpa using hn
        rw [hs, ico32_odd i j k (by omega)]
  · intro i j k hd
    rcases ico_cases n q h with ⟨rfl, hs⟩ | ⟨rfl, hs⟩
    · have : d = 5 := by simpa using hn
      rw [hs, ico12_even i j k (by omega)]
    · have : d = 9 := by simpa using hn
      rw [hs, ico32_even i j k (by omega)]

end Jaqmc.Ecp
