import Verif.Lemmas.Legendre
import Mathlib.MeasureTheory.Integral.IntervalIntegral.IntegrationByParts
import Mathlib.Analysis.Calculus.Deriv.Polynomial
import Mathlib.Topology.Algebra.Polynomial
import Mathlib.Analysis.SpecialFunctions.Integrals.Basic
/-! Orthogonality of the associated Legendre functions (C101). -/
namespace Jaqmc.Gto
open Polynomial MeasureTheory
open scoped BigOperators

/-- The integral of a polynomial over `[-1, 1]`. -/
noncomputable def I (p : ℝ[X]) : ℝ := ∫ x in (-1)..1, p.eval x

theorem I_parts (p q : ℝ[X]) : I (p * derivative q) = p.eval 1 * q.eval 1 - p.eval (-1) * q.eval (-1) - I (derivative p * q) := by
  unfold I
  simp only [eval_mul]
  exact intervalIntegral.integral_mul_deriv_eq_deriv_mul (fun x _ => p.hasDerivAt x) (fun x _ => q.hasDerivAt x)
    ((derivative p).continuous.intervalIntegrable _ _) ((derivative q).continuous.intervalIntegrable _ _)

theorem I_C_mul (a : ℝ) (p : ℝ[X]) : I (C a * p) = a * I p := by
  unfold I
  simp

theorem I_add (p q : ℝ[X]) : I (p + q) = I p + I q := by
  unfold I
  simp only [eval_add]
  exact intervalIntegral.integral_add (p.continuous.intervalIntegrable _ _) (q.continuous.intervalIntegrable _ _)

theorem eval_zero_of_dvd (p q : ℝ[X]) (n : ℕ) (hn : 0 < n) (h : q ^ n ∣ p) (x : ℝ) (hx : q.eval x = 0) : p.eval x = 0 := by
  obtain ⟨r, rfl⟩ := h
  rw [eval_mul, eval_pow, hx, zero_pow hn.ne', zero_mul]

/-- Integrating by parts `l + m` times. -/
theorem parts_all (v : ℝ[X]) (l m i : ℕ) (hv : ((X : ℝ[X]) ^ 2 - 1) ^ m ∣ v) (hi : i ≤ l + m) :
    I (v * derivative^[l + m] (((X : ℝ[X]) ^ 2 - 1) ^ l)) = (-1) ^ i * I (derivative^[i] v * derivative^[l + m - i] (((X : ℝ[X]) ^ 2 - 1) ^ l)) := by
  induction i with
  | zero => simp
  | succ i ih =>
    rw [ih (by omega)]
    have hd : derivative^[l + m - i] (((X : ℝ[X]) ^ 2 - 1) ^ l) = derivative (derivative^[l + m - (i + 1)] (((X : ℝ[X]) ^ 2 - 1) ^ l)) := by
      rw [← Function.iterate_succ_apply' (f := derivative)]
      congr 1
      congr 1
      omega
    rw [hd, I_parts, Function.iterate_succ_apply']
    have hz : ∀ x : ℝ, ((X : ℝ[X]) ^ 2 - 1).eval x = 0 →
        (derivative^[i] v).eval x * (derivative^[l + m - (i + 1)] (((X : ℝ[X]) ^ 2 - 1) ^ l)).eval x = 0 := by
      intro x hx
      by_cases him : i < m
      · rw [eval_zero_of_dvd _ _ (m - i) (by omega) (pow_sub_dvd_iterate_derivative_of_pow_dvd i hv) x hx, zero_mul]
      · rw [eval_zero_of_dvd _ _ (l - (l + m - (i + 1))) (by omega) (pow_sub_dvd_iterate_derivative_pow _ l _) x hx, mul_zero]
    rw [hz 1 (by simp), hz (-1) (by simp), pow_succ]
    ring

theorem iterate_const (p : ℝ[X]) (n : ℕ) (h : p.natDegree ≤ n) : derivative^[n] p = C (n.factorial * p.coeff n) := by
  ext k
  rw [coeff_iterate_derivative, coeff_C]
  rcases Nat.eq_zero_or_pos k with rfl | hk
  · simp [Nat.descFactorial_self]
  · rw [if_neg hk.ne', coeff_eq_zero_of_natDegree_lt (by omega)]
    simp

theorem I_weight (l : ℕ) : I ((1 - X ^ 2) ^ l) = 2 ^ (2 * l + 1) * (l.factorial : ℝ) ^ 2 / (2 * l + 1).factorial := by
  induction l with
  | zero => simp [I]; norm_num
  | succ l ih =>
    have h := I_parts 1 (X * (1 - X ^ 2) ^ (l + 1))
    have hd : (1 : ℝ[X]) * derivative (X * (1 - X ^ 2) ^ (l + 1)) =
        C (2 * (l : ℝ) + 3) * (1 - X ^ 2) ^ (l + 1) + C (-(2 * ((l : ℝ) + 1))) * (1 - X ^ 2) ^ l := by
      simp only [derivative_mul, derivative_X, derivative_pow, derivative_sub, derivative_one, Nat.add_sub_cancel, one_mul, C_neg, C_add, C_mul, C_1]
      rw [pow_succ]
      simp only [map_ofNat, map_natCast, Nat.cast_add, Nat.cast_one, C_add, C_1]
      ring
    rw [hd, I_add, I_C_mul, I_C_mul, ih] at h
    simp only [derivative_one, zero_mul, eval_one, eval_mul, eval_X, eval_pow, eval_sub] at h
    have h0 : I 0 = 0 := by simp [I]
    rw [h0] at h
    norm_num at h
    have h3 : (2 * (l : ℝ) + 3) ≠ 0 := by positivity
    have : I ((1 - X ^ 2) ^ (l + 1)) = 2 * ((l : ℝ) + 1) * (2 ^ (2 * l + 1) * (l.factorial : ℝ) ^ 2 / (2 * l + 1).factorial) / (2 * (l : ℝ) + 3) := by
      field_simp at h ⊢
      linarith
    rw [this, show 2 * (l + 1) + 1 = 2 * l + 1 + 1 + 1 by ring, Nat.factorial_succ (2 * l + 1 + 1), Nat.factorial_succ (2 * l + 1), Nat.factorial_succ l]
    push_cast
    field_simp
    ring

theorem natDegree_sq : ((X : ℝ[X]) ^ 2 - 1).natDegree = 2 := by
  rw [show ((X : ℝ[X]) ^ 2 - 1) = X ^ 2 - C 1 by simp, natDegree_X_pow_sub_C]

theorem natDegree_legendre (l m : ℕ) : (derivative^[m] (legendreP l)).natDegree ≤ l - m := by
  by_cases hm : m ≤ l
  · rw [legendre_formula l m hm]
    refine natDegree_sum_le_of_forall_le _ _ fun k _ => ?_
    exact (natDegree_C_mul_X_pow_le _ _).trans (by omega)
  · rw [legendre_zero l m (by omega)]; simp

theorem lead_legendre (l m : ℕ) (hm : m ≤ l) :
    (derivative^[m] (legendreP l)).coeff (l - m) = (2 * l).factorial / (2 ^ l * l.factorial * (l - m).factorial) := by
  rw [legendre_formula l m hm, finsetSum_coeff, Finset.sum_eq_single 0]
  · simp [coef]
  · intro k hk h0
    simp only [Finset.mem_range] at hk
    rw [coeff_C_mul, coeff_X_pow, if_neg (by omega), mul_zero]
  · simp

/-- **Legendre.**  Orthogonality of the associated Legendre functions of the same order, with their norms. -/
theorem legendre_ortho (l l' m : ℕ) (hm : m ≤ l) (hm' : m ≤ l') :
    I ((1 - X ^ 2) ^ m * (derivative^[m] (legendreP l) * derivative^[m] (legendreP l'))) =
      if l = l' then (2 / (2 * (l : ℝ) + 1) * (((l + m).factorial : ℝ) / (l - m).factorial) : ℝ) else 0 := by
  wlog hll : l ≤ l' generalizing l l'
  · have := this l' l hm' hm (by omega)
    rw [mul_comm (derivative^[m] (legendreP l)), this]
    by_cases h : l = l'
    · subst h; rfl
    · rw [if_neg h, if_neg (Ne.symm h)]
  set v : ℝ[X] := (1 - X ^ 2) ^ m * derivative^[m] (legendreP l) with hv
  have hvd : ((X : ℝ[X]) ^ 2 - 1) ^ m ∣ v := by
    rw [hv, show (1 - X ^ 2 : ℝ[X]) = -1 * (X ^ 2 - 1) by ring, mul_pow]
    exact Dvd.intro_left ((-1) ^ m * derivative^[m] (legendreP l)) (by ring)
  have hdeg1 : (1 - X ^ 2 : ℝ[X]).natDegree ≤ 2 := by
    rw [show (1 - X ^ 2 : ℝ[X]) = -(X ^ 2 - 1) by ring, natDegree_neg, natDegree_sq]
  have hdeg2 : ((1 - X ^ 2 : ℝ[X]) ^ m).natDegree ≤ m * 2 := (natDegree_pow_le).trans (Nat.mul_le_mul_left m hdeg1)
  have hdeg : v.natDegree ≤ l + m := by
    rw [hv]
    refine natDegree_mul_le.trans ?_
    have := natDegree_legendre l m
    omega
  have hlead : v.coeff (l + m) = (-1) ^ m * ((2 * l).factorial / (2 ^ l * l.factorial * (l - m).factorial)) := by
    rw [hv, show l + m = m * 2 + (l - m) by omega, coeff_mul_add_eq_of_natDegree_le hdeg2 (natDegree_legendre l m), lead_legendre l m hm,
      coeff_pow_of_natDegree_le hdeg1]
    congr 2
    simp [coeff_one]
  have e : (1 - X ^ 2) ^ m * (derivative^[m] (legendreP l) * derivative^[m] (legendreP l')) =
      C (1 / (2 ^ l' * (l'.factorial : ℝ))) * (v * derivative^[l' + m] (((X : ℝ[X]) ^ 2 - 1) ^ l')) := by
    have : derivative^[m] (legendreP l') = C (1 / (2 ^ l' * (l'.factorial : ℝ))) * derivative^[l' + m] (((X : ℝ[X]) ^ 2 - 1) ^ l') := by
      unfold legendreP
      rw [iterate_derivative_C_mul, ← Function.iterate_add_apply, add_comm m l']
    rw [hv, this]; ring
  rw [e, I_C_mul, parts_all v l' m (l' + m) hvd le_rfl, Nat.sub_self, Function.iterate_zero_apply]
  by_cases h : l = l'
  · subst h
    rw [if_pos rfl, iterate_const v (l + m) hdeg, I_C_mul, hlead,
      show ((X : ℝ[X]) ^ 2 - 1) ^ l = C ((-1) ^ l) * (1 - X ^ 2) ^ l by rw [C_pow, C_neg, C_1, ← mul_pow]; ring_nf, I_C_mul, I_weight]
    rw [Nat.factorial_succ (2 * l)]
    have s1 : ((-1 : ℝ) ^ (l + m)) * ((-1) ^ m * (-1) ^ l) = 1 := by
      rw [← pow_add, ← pow_add]
      exact Even.neg_one_pow ⟨l + m, by ring⟩
    calc _ = ((-1 : ℝ) ^ (l + m) * ((-1) ^ m * (-1) ^ l)) * (1 / (2 ^ l * (l.factorial : ℝ)) * ((l + m).factorial *
          ((2 * l).factorial / (2 ^ l * l.factorial * (l - m).factorial))) * (2 ^ (2 * l + 1) * (l.factorial : ℝ) ^ 2 / ((2 * l + 1 : ℕ) * (2 * l).factorial : ℝ))) := by
            push_cast; ring
      _ = _ := by
        rw [s1, pow_succ, pow_mul', sq]
        push_cast
        field_simp
  · rw [if_neg h, iterate_derivative_eq_zero (by omega)]
    simp [I]

end Jaqmc.Gto
