import Verif.Model.SpinSquared
import Verif.Spec.SpinSquared
import Mathlib.Tactic.LinearCombination
import Mathlib.Tactic.FieldSimp
/-!
C74: the estimator of the total spin.
-/
namespace Jaqmc.SpinSquared.Props
open Jaqmc.SpinSquared Jaqmc.SpinSquared.Spec

variable {nu nd N : ℕ} {X : Type}

theorem swapOne_eq (x : Fin N → X) (i j : Fin N) : swapOne x i j = x ∘ Equiv.swap i j := by
  funext k
  simp only [swapOne, Function.comp]
  congr 1
  by_cases h1 : k = j
  · subst h1; simp
  · by_cases h2 : k = i
    · subst h2; simp [Function.update_of_ne h1]
    · simp [Function.update_of_ne h1, Function.update_of_ne h2, Equiv.swap_apply_of_ne_of_ne h2 h1]

theorem logsumexp_eq (ab : List (ℝ × ℂ)) :
    (logsumexp ab).2 * (Real.exp (logsumexp ab).1 : ℂ) = (ab.map fun p => p.2 * (Real.exp p.1 : ℂ)).sum := by
  unfold logsumexp
  dsimp only
  generalize shiftOf (ab.map (·.1)) = m
  have hs : (ab.map fun p => p.2 * (Real.exp p.1 : ℂ)).sum = (ab.map fun p => p.2 * (Real.exp (p.1 - m) : ℂ)).sum * (Real.exp m : ℂ) := by
    rw [← List.sum_map_mul_right]
    congr 1
    refine List.map_congr_left fun p _ => ?_
    rw [mul_assoc, ← Complex.ofReal_mul, ← Real.exp_add, sub_add_cancel]
  rw [hs]
  generalize (ab.map fun p => p.2 * (Real.exp (p.1 - m) : ℂ)).sum = s
  by_cases h0 : s = 0
  · simp [h0]
  · have : ‖s‖ ≠ 0 := norm_ne_zero_iff.mpr h0
    rw [Real.exp_add, Real.exp_log (norm_pos_iff.mpr h0)]
    push_cast
    have hc : (‖s‖ : ℂ) ≠ 0 := by exact_mod_cast this
    field_simp

/-- Two spin operators on different electrons, or on the same, summed over the components. -/
theorem pair_same (Φ : State X N) (i : Fin N) (r : Fin N → X) (s : Fin N → Bool) :
    ∑ a : Fin 3, spinOf a i (spinOf a i Φ) r s = 3 / 4 * Φ r s := by
  have hu : ∀ b, Function.update (Function.update s i b) i (s i) = s := by intro b; simp
  simp only [spinOf, Fintype.sum_bool, Function.update_self, Function.update_idem, Fin.sum_univ_three]
  have e : Φ r (Function.update s i (s i)) = Φ r s := by simp
  cases h : s i <;> rw [h] at e <;> simp [pauli, e] <;> ring_nf <;> simp <;> ring

theorem pair_diff (Φ : State X N) (i j : Fin N) (hij : i ≠ j) (r : Fin N → X) (s : Fin N → Bool) :
    ∑ a : Fin 3, spinOf a i (spinOf a j Φ) r s =
      if s i = s j then 1 / 4 * Φ r s else 1 / 2 * Φ r (s ∘ Equiv.swap i j) - 1 / 4 * Φ r s := by
  have hsw : s ∘ Equiv.swap i j = Function.update (Function.update s i (s j)) j (s i) := by
    funext k
    simp only [Function.comp]
    by_cases h1 : k = j
    · subst h1; simp
    · by_cases h2 : k = i
      · subst h2; simp [Function.update_of_ne h1]
      · simp [Function.update_of_ne h1, Function.update_of_ne h2, Equiv.swap_apply_of_ne_of_ne h2 h1]
  have hid : Function.update (Function.update s i (s i)) j (s j) = s := by simp
  have hΦs : Φ r s = Φ r (Function.update (Function.update s i (s i)) j (s j)) := by rw [hid]
  rw [hsw, hΦs]
  simp only [spinOf, Fintype.sum_bool, Function.update_of_ne hij.symm, Fin.sum_univ_three]
  cases h1 : s i <;> cases h2 : s j <;> simp [pauli] <;> ring_nf <;> simp <;> ring

theorem spinOf_sum (a : Fin 3) (i : Fin N) (F : Fin N → State X N) (r : Fin N → X) (s : Fin N → Bool) :
    spinOf a i (fun r s => ∑ j, F j r s) r s = ∑ j, spinOf a i (F j) r s := by
  simp only [spinOf, Finset.mul_sum]
  rw [Finset.sum_comm]

theorem spinSquared_pairs (Φ : State X N) (r : Fin N → X) (s : Fin N → Bool) :
    spinSquared Φ r s = ∑ i, ∑ j, ∑ a : Fin 3, spinOf a i (spinOf a j Φ) r s := by
  unfold spinSquared total
  simp only [spinOf_sum]
  rw [Finset.sum_comm]
  refine Finset.sum_congr rfl fun i _ => ?_
  rw [Finset.sum_comm]

theorem antisymm_swap (Φ : State X N) (hΦ : Antisymmetric Φ) (i j : Fin N) (hij : i ≠ j) (r : Fin N → X) (s : Fin N → Bool) :
    Φ r (s ∘ Equiv.swap i j) = -Φ (r ∘ Equiv.swap i j) s := by
  have h := hΦ (Equiv.swap i j) (r ∘ Equiv.swap i j) s
  rw [Equiv.Perm.sign_swap hij] at h
  have e : (r ∘ Equiv.swap i j) ∘ Equiv.swap i j = r := by
    funext k; simp
  rw [e] at h
  rw [h]
  simp

/-- The sum of the wavefunction over all exchanges of an up with a down electron. -/
noncomputable def exchanges (ψ : (Fin (nu + nd) → X) → ℂ) (r : Fin (nu + nd) → X) : ℂ :=
  ∑ u : Fin nu, ∑ d : Fin nd, ψ (r ∘ Equiv.swap (Fin.castAdd nd u) (Fin.natAdd nu d))

theorem castAdd_ne_natAdd (u : Fin nu) (d : Fin nd) : Fin.castAdd nd u ≠ Fin.natAdd nu d := by
  intro h
  have := congrArg Fin.val h
  simp at this
  omega

theorem spinSquared_formula (Φ : State X (nu + nd)) (hΦ : Antisymmetric Φ) (r : Fin (nu + nd) → X) :
    spinSquared Φ r (upFirst nu nd) =
      ((nu + nd) / 2 + ((nu : ℂ) - nd) ^ 2 / 4) * Φ r (upFirst nu nd) - exchanges (fun x => Φ x (upFirst nu nd)) r := by
  have hup : ∀ u : Fin nu, upFirst nu nd (Fin.castAdd nd u) = true := by intro u; simp [upFirst]
  have hdn : ∀ d : Fin nd, upFirst nu nd (Fin.natAdd nu d) = false := by intro d; simp [upFirst]
  rw [spinSquared_pairs]
  have hT : ∀ i j : Fin (nu + nd), ∑ a : Fin 3, spinOf a i (spinOf a j Φ) r (upFirst nu nd) =
      (if i = j then 1 / 2 * Φ r (upFirst nu nd) else 0) +
        (if upFirst nu nd i = upFirst nu nd j then 1 / 4 * Φ r (upFirst nu nd)
          else -1 / 2 * Φ (r ∘ Equiv.swap i j) (upFirst nu nd) - 1 / 4 * Φ r (upFirst nu nd)) := by
    intro i j
    by_cases h : i = j
    · subst h
      rw [pair_same]
      simp
      ring
    · rw [pair_diff Φ i j h, antisymm_swap Φ hΦ i j h, if_neg h]
      split <;> ring
  simp only [hT, Finset.sum_add_distrib, Finset.sum_ite_eq, Finset.mem_univ, if_true]
  simp only [Fin.sum_univ_add, hup, hdn, if_true, Bool.true_eq_false, Bool.false_eq_true, if_false, Finset.sum_const, Finset.card_univ,
    Fintype.card_fin, nsmul_eq_mul, Finset.sum_sub_distrib, ← Finset.mul_sum, Finset.sum_add_distrib]
  have hx : ∑ d : Fin nd, ∑ u : Fin nu, Φ (r ∘ Equiv.swap (Fin.natAdd nu d) (Fin.castAdd nd u)) (upFirst nu nd) =
      exchanges (fun x => Φ x (upFirst nu nd)) r := by
    rw [Finset.sum_comm]
    unfold exchanges
    simp only [Equiv.swap_comm]
  rw [hx]
  unfold exchanges
  push_cast
  ring

theorem sum_filter (p : Fin N → Bool) (f : Fin N → ℂ) :
    (((List.finRange N).filter p).map f).sum = ∑ i, if p i then f i else 0 := by
  rw [← Finset.sum_filter]
  simp [Finset.sum, Fin.univ_def]

theorem sum_up (f : Fin (nu + nd) → ℂ) :
    (((List.finRange (nu + nd)).filter (fun i : Fin (nu + nd) => decide ((i : ℕ) < nu))).map f).sum = ∑ u : Fin nu, f (Fin.castAdd nd u) := by
  rw [sum_filter, Fin.sum_univ_add]
  simp

theorem sum_down (f : Fin (nu + nd) → ℂ) :
    (((List.finRange (nu + nd)).filter (fun i : Fin (nu + nd) => decide (nu ≤ (i : ℕ)))).map f).sum = ∑ d : Fin nd, f (Fin.natAdd nu d) := by
  rw [sum_filter, Fin.sum_univ_add]
  simp [not_le.mpr]

/-- C74: the reported value times the wavefunction is `S²` applied to the many-electron function, evaluated where the first
`nu` electrons are up: the estimator is the local value of the total spin. -/
theorem c74_spin (Φ : State X (nu + nd)) (hΦ : Antisymmetric Φ) (wf : (Fin (nu + nd) → X) → ℂ × ℝ)
    (hwf : ∀ r, (wf r).1 * (Real.exp (wf r).2 : ℂ) = Φ r (upFirst nu nd)) (r : Fin (nu + nd) → X) (hphase : ‖(wf r).1‖ = 1) :
    evaluate wf r * Φ r (upFirst nu nd) = spinSquared Φ r (upFirst nu nd) := by
  have hconj : (starRingEnd ℂ) (wf r).1 * (wf r).1 = 1 := by
    rw [mul_comm, Complex.mul_conj, Complex.normSq_eq_norm_sq, hphase]; simp
  have hratio : ∀ x, Real.exp ((wf x).2 - (wf r).2) * ((wf x).1 * (starRingEnd ℂ) (wf r).1) * Φ r (upFirst nu nd) = Φ x (upFirst nu nd) := by
    intro x
    rw [← hwf r, ← hwf x, Real.exp_sub]
    have := Real.exp_ne_zero (wf r).2
    have hc : (Real.exp (wf r).2 : ℂ) ≠ 0 := by exact_mod_cast this
    push_cast at hc ⊢
    field_simp
    linear_combination (wf x).1 * hconj
  have hone : ∀ i, ratioSumOne wf r i * Φ r (upFirst nu nd) =
      Φ r (upFirst nu nd) - ((majority nu nd).map fun j => Φ (r ∘ Equiv.swap i j) (upFirst nu nd)).sum := by
    intro i
    unfold ratioSumOne
    dsimp only
    rw [logsumexp_eq, sub_mul, one_mul, List.map_map, ← List.sum_map_mul_right]
    congr 2
    refine List.map_congr_left fun j _ => ?_
    simp only [Function.comp]
    rw [swapOne_eq, ← hratio (r ∘ Equiv.swap i j)]
    ring
  unfold evaluate
  rw [spinSquared_formula Φ hΦ, add_mul, ← List.sum_map_mul_right]
  simp only [hone]
  unfold minority majority sz exchanges
  by_cases h : nu > nd
  · simp only [if_pos h, sum_down, sum_up, Finset.sum_sub_distrib, Finset.sum_const, Finset.card_univ, Fintype.card_fin, nsmul_eq_mul]
    have hle : (0 : ℝ) ≤ (nu : ℝ) - nd := sub_nonneg.mpr (by exact_mod_cast h.le)
    rw [abs_of_nonneg hle, Finset.sum_comm]
    have hx : ∀ (u : Fin nu) (d : Fin nd), Equiv.swap (Fin.natAdd nu d) (Fin.castAdd nd u) = Equiv.swap (Fin.castAdd nd u) (Fin.natAdd nu d) :=
      fun u d => Equiv.swap_comm _ _
    simp only [hx]
    push_cast
    ring
  · simp only [if_neg h, sum_down, sum_up, Finset.sum_sub_distrib, Finset.sum_const, Finset.card_univ, Fintype.card_fin, nsmul_eq_mul]
    have hle : (nu : ℝ) - nd ≤ 0 := sub_nonpos.mpr (by exact_mod_cast not_lt.mp h)
    rw [abs_of_nonpos hle]
    push_cast
    ring

/-- C74: for an eigenfunction of the total spin the reported value is the eigenvalue at every configuration. -/
theorem c74_eigenfunction (Φ : State X (nu + nd)) (hΦ : Antisymmetric Φ) (wf : (Fin (nu + nd) → X) → ℂ × ℝ)
    (hwf : ∀ r, (wf r).1 * (Real.exp (wf r).2 : ℂ) = Φ r (upFirst nu nd)) (S : ℝ)
    (hS : ∀ r s, spinSquared Φ r s = (S * (S + 1) : ℝ) * Φ r s) (r : Fin (nu + nd) → X) (hphase : ‖(wf r).1‖ = 1) :
    evaluate wf r = (S * (S + 1) : ℝ) := by
  have h := c74_spin Φ hΦ wf hwf r hphase
  rw [hS] at h
  refine mul_right_cancel₀ ?_ h
  rw [← hwf]
  refine mul_ne_zero ?_ (by exact_mod_cast Real.exp_ne_zero _)
  intro h0
  rw [h0] at hphase
  simp at hphase


/-- The triplet of two electrons on a line: `(x - y)(↑↓ + ↓↑)`. -/
noncomputable def triplet : State ℝ 2 := fun r s => if s 0 = s 1 then 0 else ((r 0 - r 1 : ℝ) : ℂ)

theorem triplet_antisymmetric : Antisymmetric triplet := by
  intro π r s
  have h : π = 1 ∨ π = Equiv.swap 0 1 := by revert π; decide
  rcases h with rfl | rfl
  · simp [triplet]
  · rw [Equiv.Perm.sign_swap (by decide)]
    simp only [triplet, Function.comp, Equiv.swap_apply_left, Equiv.swap_apply_right]
    by_cases hs : s 0 = s 1
    · simp [hs]
    · simp [hs, Ne.symm hs]

/-- A concrete case of the hypotheses: the triplet, and the value `2 = 1 (1 + 1)` reported where the electrons differ. -/
example (r : Fin (1 + 1) → ℝ) (h : r 0 ≠ r 1) :
    evaluate (nu := 1) (nd := 1) (fun x => (((SignType.sign (x 0 - x 1) : ℝ) : ℂ), Real.log |x 0 - x 1|)) r = 2 := by
  have := c74_eigenfunction (nu := 1) (nd := 1) triplet triplet_antisymmetric
    (fun x => (((SignType.sign (x 0 - x 1) : ℝ) : ℂ), Real.log |x 0 - x 1|)) ?_ 1 ?_ r ?_
  · rw [this]; norm_num
  · intro x
    have hne : upFirst 1 1 0 ≠ upFirst 1 1 1 := by decide
    by_cases hx : x 0 - x 1 = 0
    · simp [triplet, hx]
    · have : ((SignType.sign (x 0 - x 1) : ℝ)) * Real.exp (Real.log |x 0 - x 1|) = x 0 - x 1 := by
        rw [Real.exp_log (abs_pos.mpr hx), sign_mul_abs]
      unfold triplet
      rw [if_neg hne]
      have hc := congrArg (fun z : ℝ => (z : ℂ)) this
      simpa only [Complex.ofReal_mul] using hc
  · intro x s
    rw [spinSquared_pairs, Fin.sum_univ_two, Fin.sum_univ_two, Fin.sum_univ_two, pair_same, pair_same, pair_diff _ _ _ (by decide),
      pair_diff _ _ _ (by decide)]
    by_cases hs : s 0 = s 1
    · simp [triplet, hs]
    · simp [triplet, hs, Ne.symm hs, Function.comp]
      ring
  · rcases lt_trichotomy (r 0 - r 1) 0 with h1 | h1 | h1
    · simp [sign_neg h1]
    · exact absurd (sub_eq_zero.mp h1) h
    · simp [sign_pos h1]

end Jaqmc.SpinSquared.Props
