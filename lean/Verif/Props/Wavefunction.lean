import Verif.Lemmas.Wavefunction
import Verif.Props.Geometry
import Verif.Props.Periodic
import Mathlib.Analysis.SpecialFunctions.Trigonometric.DerivHyp
/-! C62 (exchange antisymmetry), C63 (log-determinant sum), C64 (translations), C65 (Bloch boundary conditions). -/
namespace Jaqmc.Wf.Props
open Geometry Matrix Spec
open scoped Classical BigOperators

variable {nu nd na d : ℕ}

/-! ### C63: LogDet -/

theorem logMax_bot {n k : ℕ} (xs : Fin k → Matrix (Fin n) (Fin n) ℝ) :
    logMax (fun i => (slogdet (xs i)).2) = ⊥ ↔ ∀ i, (xs i).det = 0 := by
  unfold logMax slogdet
  rw [Finset.sup_eq_bot_iff]
  constructor
  · intro h i
    by_contra hd
    have := h i (Finset.mem_univ i)
    simp [hd] at this
  · intro h i _
    simp [h i]

theorem logMaxC_bot {n k : ℕ} (xs : Fin k → Matrix (Fin n) (Fin n) ℂ) :
    logMax (fun i => (slogdetC (xs i)).2) = ⊥ ↔ ∀ i, (xs i).det = 0 := by
  unfold logMax slogdetC
  rw [Finset.sup_eq_bot_iff]
  constructor
  · intro h i
    by_contra hd
    have := h i (Finset.mem_univ i)
    simp [hd] at this
  · intro h i _
    simp [h i]

theorem term_eq {n : ℕ} (M : Matrix (Fin n) (Fin n) ℝ) (m : ℝ) :
    (slogdet M).1 * expSub (slogdet M).2 m = M.det * Real.exp (-m) := by
  unfold slogdet
  by_cases h : M.det = 0
  · simp [h, expSub]
  · simp only [h, if_false, expSub]
    rw [sub_eq_add_neg, Real.exp_add, Real.exp_log (abs_pos.2 h), ← mul_assoc, sign_mul_abs]

theorem termC_eq {n : ℕ} (M : Matrix (Fin n) (Fin n) ℂ) (m : ℝ) :
    (slogdetC M).1 * (expSub (slogdetC M).2 m : ℂ) = M.det * (Real.exp (-m) : ℝ) := by
  unfold slogdetC
  by_cases h : M.det = 0
  · simp [h, expSub]
  · simp only [h, if_false, expSub]
    have hn : (‖M.det‖ : ℂ) ≠ 0 := by simpa using h
    rw [sub_eq_add_neg, Real.exp_add, Real.exp_log (norm_pos_iff.2 h)]
    push_cast
    field_simp

/-- C63 (real orbitals): unless every determinant vanishes the reported sign is the sign of the sum of the determinants and
`logpsi` is the logarithm of its absolute value (`-inf` if the sum vanishes); if every determinant vanishes both are NaN.
The shift by the largest logarithm does not show. -/
theorem c63_real {n k : ℕ} (xs : Fin k → Matrix (Fin n) (Fin n) ℝ) :
    ((∀ i, (xs i).det = 0) → (logDet xs).signLogpsi = none ∧ (logDet xs).logpsi = none) ∧
    ((∃ i, (xs i).det ≠ 0) →
      (logDet xs).signLogpsi = some (SignType.sign (∑ i, (xs i).det) : ℝ) ∧
      (logDet xs).logpsi = some (if ∑ i, (xs i).det = 0 then ⊥ else ((Real.log |∑ i, (xs i).det| : ℝ) : WithBot ℝ))) ∧
    (∀ i, (logDet xs).signLogdets i = (SignType.sign (xs i).det : ℝ)) ∧
    (∀ i, (logDet xs).absLogdets i = if (xs i).det = 0 then ⊥ else ((Real.log |(xs i).det| : ℝ) : WithBot ℝ)) := by
  have hm := logMax_bot xs
  refine ⟨fun h => ?_, fun h => ?_, fun i => ?_, fun i => ?_⟩
  · have := hm.2 h
    unfold logDet
    simp only [this, and_self]
  · have hne : logMax (fun i => (slogdet (xs i)).2) ≠ ⊥ := by
      rw [Ne, hm]; push Not; exact h
    obtain ⟨m, hm'⟩ := WithBot.ne_bot_iff_exists.1 hne
    have ht : (∑ i, (slogdet (xs i)).1 * expSub (slogdet (xs i)).2 m) = (∑ i, (xs i).det) * Real.exp (-m) := by
      rw [Finset.sum_mul]
      exact Finset.sum_congr rfl fun i _ => term_eq (xs i) m
    unfold logDet
    simp only [← hm', ht]
    have hp := Real.exp_pos (-m)
    constructor
    · rw [sign_mul, sign_pos hp, mul_one]
    · by_cases h0 : ∑ i, (xs i).det = 0
      · simp [h0]
      · have : (∑ i, (xs i).det) * Real.exp (-m) ≠ 0 := mul_ne_zero h0 hp.ne'
        rw [if_neg h0, if_neg this, abs_mul, abs_of_pos hp, Real.log_mul (abs_ne_zero.2 h0) hp.ne', Real.log_exp]
        simp
  · unfold logDet
    dsimp only
    split <;> rfl
  · unfold logDet
    dsimp only
    split <;> rfl

/-- C63 (complex orbitals): unless every determinant vanishes, `logpsi` is the principal logarithm of the sum of the
determinants (`-inf` if it vanishes). -/
theorem c63_complex {n k : ℕ} (xs : Fin k → Matrix (Fin n) (Fin n) ℂ) :
    ((∀ i, (xs i).det = 0) → (logDetC xs).logpsi = none) ∧
    ((∃ i, (xs i).det ≠ 0) →
      (logDetC xs).logpsi = some (if ∑ i, (xs i).det = 0 then ⊥ else ((Complex.log (∑ i, (xs i).det) : ℂ) : WithBot ℂ))) ∧
    (∀ i, (logDetC xs).signLogdets i = if (xs i).det = 0 then 0 else (xs i).det / (‖(xs i).det‖ : ℂ)) ∧
    (∀ i, (logDetC xs).absLogdets i = if (xs i).det = 0 then ⊥ else ((Real.log ‖(xs i).det‖ : ℝ) : WithBot ℝ)) := by
  have hm := logMaxC_bot xs
  refine ⟨fun h => ?_, fun h => ?_, fun i => ?_, fun i => ?_⟩
  · have := hm.2 h
    unfold logDetC
    simp only [this]
  · have hne : logMax (fun i => (slogdetC (xs i)).2) ≠ ⊥ := by
      rw [Ne, hm]; push Not; exact h
    obtain ⟨m, hm'⟩ := WithBot.ne_bot_iff_exists.1 hne
    have ht : (∑ i, (slogdetC (xs i)).1 * (expSub (slogdetC (xs i)).2 m : ℂ)) = (Real.exp (-m) : ℝ) * (∑ i, (xs i).det) := by
      rw [mul_comm, Finset.sum_mul]
      exact Finset.sum_congr rfl fun i _ => termC_eq (xs i) m
    unfold logDetC
    simp only [← hm', ht]
    have hp := Real.exp_pos (-m)
    by_cases h0 : ∑ i, (xs i).det = 0
    · simp [h0]
    · have : ((Real.exp (-m) : ℝ) : ℂ) * (∑ i, (xs i).det) ≠ 0 :=
        mul_ne_zero (by exact_mod_cast hp.ne') h0
      rw [if_neg h0, if_neg this, Complex.log_ofReal_mul hp h0, Real.log_exp]
      congr 2
      push_cast; ring
  · unfold logDetC
    dsimp only
    split <;> rfl
  · unfold logDetC
    dsimp only
    split <;> rfl

/-- C63: the value `sign * exp(logpsi)` is the sum of the determinants. -/
theorem c63_value_partial {n k : ℕ} (xs : Fin k → Matrix (Fin n) (Fin n) ℝ) (h : ∃ i, (xs i).det ≠ 0) :
    value (logDet xs).signLogpsi (logDet xs).logpsi = some (∑ i, (xs i).det) := by
  obtain ⟨h1, h2⟩ := (c63_real xs).2.1 h
  rw [h1, h2]
  by_cases h0 : ∑ i, (xs i).det = 0
  · simp [h0, value]
  · simp only [h0, if_false, value]
    rw [Real.exp_log (abs_pos.2 h0), sign_mul_abs]

/-- C63 for complex orbitals: `exp(logpsi)` is the sum of the determinants. -/
theorem c63_valueC_partial {n k : ℕ} (xs : Fin k → Matrix (Fin n) (Fin n) ℂ) (h : ∃ i, (xs i).det ≠ 0) :
    valueC (logDetC xs).logpsi = some (∑ i, (xs i).det) := by
  rw [(c63_complex xs).2.1 h]
  by_cases h0 : ∑ i, (xs i).det = 0
  · simp [h0, valueC]
  · simp only [h0, if_false, valueC, Complex.exp_log h0]

/-- All determinants multiplied by a sign. -/
theorem logDet_mul {n k : ℕ} (xs ys : Fin k → Matrix (Fin n) (Fin n) ℝ) (ε : ℝ) (hε : ε = 1 ∨ ε = -1)
    (h : ∀ i, (ys i).det = ε * (xs i).det) : Multiplied ε (logDet xs) (logDet ys) := by
  obtain ⟨x1, x2, x3, x4⟩ := c63_real xs
  obtain ⟨y1, y2, y3, y4⟩ := c63_real ys
  have hε0 : ε ≠ 0 := by rcases hε with h | h <;> rw [h] <;> norm_num
  have habs : |ε| = 1 := by rcases hε with h | h <;> rw [h] <;> norm_num
  have hsg : ((SignType.sign ε : SignType) : ℝ) = ε := by rcases hε with h | h <;> rw [h] <;> simp
  have hz : ∀ i, (ys i).det = 0 ↔ (xs i).det = 0 := fun i => by rw [h i]; simp [hε0]
  have hs : ∑ i, (ys i).det = ε * ∑ i, (xs i).det := by
    rw [Finset.mul_sum]; exact Finset.sum_congr rfl fun i _ => h i
  have hA : ∀ i, (logDet ys).absLogdets i = (logDet xs).absLogdets i := by
    intro i
    rw [x4, y4, if_congr (hz i) rfl rfl, h i, abs_mul, habs, one_mul]
  have hS : ∀ i, (logDet ys).signLogdets i = ε * (logDet xs).signLogdets i := by
    intro i
    rw [x3, y3, h i, sign_mul]
    push_cast
    rw [hsg]
  by_cases hall : ∀ i, (xs i).det = 0
  · obtain ⟨a, b⟩ := x1 hall
    obtain ⟨a', b'⟩ := y1 (fun i => (hz i).2 (hall i))
    exact ⟨by rw [b, b'], by rw [a, a']; rfl, funext hA, hS⟩
  · push Not at hall
    obtain ⟨a, b⟩ := x2 hall
    obtain ⟨a', b'⟩ := y2 (hall.imp fun i hi => fun hc => hi ((hz i).1 hc))
    refine ⟨?_, ?_, funext hA, hS⟩
    · rw [b, b', hs, abs_mul, habs, one_mul]
      congr 1
      exact if_congr (by simp [hε0]) rfl rfl
    · rw [a, a', hs, sign_mul]
      simp only [Option.map_some]
      push_cast
      rw [hsg]

/-- All determinants multiplied by a phase. -/
theorem logDetC_mul {n k : ℕ} (xs ys : Fin k → Matrix (Fin n) (Fin n) ℂ) (ε : ℂ) (hε : ‖ε‖ = 1)
    (h : ∀ i, (ys i).det = ε * (xs i).det) : MultipliedC ε (logDetC xs) (logDetC ys) := by
  obtain ⟨x1, x2, x3, x4⟩ := c63_complex xs
  obtain ⟨y1, y2, y3, y4⟩ := c63_complex ys
  have hε0 : ε ≠ 0 := by intro h0; rw [h0] at hε; simp at hε
  have hz : ∀ i, (ys i).det = 0 ↔ (xs i).det = 0 := fun i => by rw [h i]; simp [hε0]
  have hs : ∑ i, (ys i).det = ε * ∑ i, (xs i).det := by
    rw [Finset.mul_sum]; exact Finset.sum_congr rfl fun i _ => h i
  have hA : ∀ i, (logDetC ys).absLogdets i = (logDetC xs).absLogdets i := by
    intro i
    rw [x4, y4, if_congr (hz i) rfl rfl, h i, norm_mul, hε, one_mul]
  have hS : ∀ i, (logDetC ys).signLogdets i = ε * (logDetC xs).signLogdets i := by
    intro i
    rw [x3, y3, if_congr (hz i) rfl rfl, h i, norm_mul, hε, one_mul]
    split_ifs
    · simp
    · ring
  by_cases hall : ∀ i, (xs i).det = 0
  · have a := x1 hall
    have a' := y1 (fun i => (hz i).2 (hall i))
    exact ⟨by rw [a, a']; rfl, by rw [a, a'], funext hA, hS⟩
  · push Not at hall
    have hall' : ∃ i, (ys i).det ≠ 0 := hall.imp fun i hi => fun hc => hi ((hz i).1 hc)
    refine ⟨?_, ?_, funext hA, hS⟩
    · rw [c63_valueC_partial xs hall, c63_valueC_partial ys hall', hs]
      rfl
    · rw [x2 hall, y2 hall', hs]
      by_cases h0 : ∑ i, (xs i).det = 0
      · simp [h0]
      · rw [if_neg h0, if_neg (mul_ne_zero hε0 h0)]
        simp only [Option.map_some, WithBot.map_coe, Complex.log_re, norm_mul, hε, one_mul]

/-! ### C62: exchanging electrons -/

theorem sign_real (n : ℕ) (σ : Equiv.Perm (Fin n)) :
    (((Equiv.Perm.sign σ : ℤˣ) : ℤ) : ℝ) = 1 ∨ (((Equiv.Perm.sign σ : ℤˣ) : ℤ) : ℝ) = -1 := by
  rcases Int.units_eq_one_or (Equiv.Perm.sign σ) with h | h <;> simp [h]

/-- Orbital matrices whose rows follow the electrons give an antisymmetric wavefunction. -/
theorem logDet_exchange {n k : ℕ} (xs ys : Fin k → Matrix (Fin n) (Fin n) ℝ) (σ : Equiv.Perm (Fin n))
    (h : ∀ i, ys i = (xs i).submatrix σ id) : Multiplied (((Equiv.Perm.sign σ : ℤˣ) : ℤ) : ℝ) (logDet xs) (logDet ys) :=
  logDet_mul xs ys _ (sign_real n σ) fun i => by rw [h i, det_rows]

theorem multiplied_jastrow {k : ℕ} {ε : ℝ} {o o' : RealOut k} (h : Multiplied ε o o') (j : ℝ) :
    Multiplied ε (addJastrow o j) (addJastrow o' j) :=
  ⟨by simp only [addJastrow, h.logpsi], h.sign, h.absLogdets, h.signLogdets⟩

theorem ferminet_rows (W : FermiNet) (r : Fin (nu + nd) → Vec d) (atoms : Fin na → Vec d) (σ : Equiv.Perm (Fin (nu + nd)))
    (hσ : SameSpin nu σ) (k : Fin W.ndets) :
    W.orbitals (fun i => r (σ i)) atoms k = (W.orbitals r atoms k).submatrix σ id := by
  unfold FermiNet.orbitals
  simp only [moleculeFeatures_rows]
  rw [← orbitals_rows σ hσ]
  have := fermiLayers_rows σ hσ W.useLast W.layers (moleculeFeatures false r atoms).ae (moleculeFeatures false r atoms).ee
  simp only [Embedding.rows]
  rw [show (fun p : Fin (nu + nd) × Fin (nu + nd) => (σ p.1, σ p.2)) = relabel2 σ from rfl, this]

theorem psiformer_orb_rows (W : Psiformer) (r : Fin (nu + nd) → Vec d) (atoms : Fin na → Vec d) (σ : Equiv.Perm (Fin (nu + nd)))
    (hσ : SameSpin nu σ) (k : Fin W.ndets) :
    W.orbitals (fun i => r (σ i)) atoms k = (W.orbitals r atoms k).submatrix σ id := by
  unfold Psiformer.orbitals
  simp only [moleculeFeatures_rows]
  rw [← orbitals_rows σ hσ, ← psiformer_rows σ hσ]
  rfl

theorem lapnet_orb_rows (W : LapNet) (r : Fin (nu + nd) → Vec d) (atoms : Fin na → Vec d) (σ : Equiv.Perm (Fin (nu + nd)))
    (hσ : SameSpin nu σ) (k : Fin W.ndets) :
    W.orbitals (fun i => r (σ i)) atoms k = (W.orbitals r atoms k).submatrix σ id := by
  unfold LapNet.orbitals
  simp only [moleculeFeatures_rows]
  rw [← orbitals_rows σ hσ, ← lapnet_rows σ hσ]
  rfl

theorem jastrow_exchange (p q : ℝ) (r : Fin (nu + nd) → Vec d) (σ : Equiv.Perm (Fin (nu + nd))) (hσ : SameSpin nu σ) :
    jastrow p q (pairWithin (fun i => r (σ i))).2 = jastrow p q (pairWithin r).2 := by
  rw [pairWithin_perm]
  exact jastrow_perm σ hσ p q (pairWithin r).2 (fun i j => (Geometry.Props.c32_within r i j).2.2.2.1)

/-- C62 (features): a dense layer of two concatenated arrays is the sum of a layer of each: the first rows of
the kernel for the columns of the first, the other rows for those of the second. -/
theorem c62_concatenate {ι : Type} (P : Dense) (useBias : Bool) (out : ℕ) (x y : Feat ι) (i : ι) (k : ℕ) :
    (dense P useBias out (x.cat y)).val i k = (∑ j ∈ Finset.range x.width, x.val i j * P.kernel j k) +
      (∑ j ∈ Finset.range y.width, y.val i j * P.kernel (x.width + j) k) + if useBias then P.bias k else 0 := by
  unfold dense Feat.cat
  dsimp only
  rw [Finset.sum_range_add]
  congr 2
  · exact Finset.sum_congr rfl fun j hj => by rw [if_pos (Finset.mem_range.1 hj)]
  · exact Finset.sum_congr rfl fun j _ => by rw [if_neg (by omega), Nat.add_sub_cancel_left]

/-- C62 (FermiNet): for all parameters, layers, envelopes and configurations, relabelling electrons of the same spin leaves
`logpsi` as it is and multiplies the sign by the sign of the relabelling. -/
theorem c62_ferminet (W : FermiNet) (r : Fin (nu + nd) → Vec d) (atoms : Fin na → Vec d) (σ : Equiv.Perm (Fin (nu + nd)))
    (hσ : SameSpin nu σ) :
    Multiplied (((Equiv.Perm.sign σ : ℤˣ) : ℤ) : ℝ) (W.call r atoms) (W.call (fun i => r (σ i)) atoms) :=
  logDet_exchange _ _ σ fun k => ferminet_rows W r atoms σ hσ k

/-- C62 (Psiformer), with or without Jastrow factor. -/
theorem c62_psiformer (W : Psiformer) (r : Fin (nu + nd) → Vec d) (atoms : Fin na → Vec d) (σ : Equiv.Perm (Fin (nu + nd)))
    (hσ : SameSpin nu σ) :
    Multiplied (((Equiv.Perm.sign σ : ℤˣ) : ℤ) : ℝ) (W.call r atoms) (W.call (fun i => r (σ i)) atoms) := by
  have h := logDet_exchange _ _ σ fun k => psiformer_orb_rows W r atoms σ hσ k
  unfold Psiformer.call
  cases W.jastrow with
  | none => exact h
  | some j =>
    obtain ⟨p, q⟩ := j
    dsimp only
    rw [jastrow_exchange p q r σ hσ]
    exact multiplied_jastrow h _

/-- C62 (LapNet), with or without Jastrow factor. -/
theorem c62_lapnet (W : LapNet) (r : Fin (nu + nd) → Vec d) (atoms : Fin na → Vec d) (σ : Equiv.Perm (Fin (nu + nd)))
    (hσ : SameSpin nu σ) :
    Multiplied (((Equiv.Perm.sign σ : ℤˣ) : ℤ) : ℝ) (W.call r atoms) (W.call (fun i => r (σ i)) atoms) := by
  have h := logDet_exchange _ _ σ fun k => lapnet_orb_rows W r atoms σ hσ k
  unfold LapNet.call
  cases W.jastrow with
  | none => exact h
  | some j =>
    obtain ⟨p, q⟩ := j
    dsimp only
    rw [jastrow_exchange p q r σ hσ]
    exact multiplied_jastrow h _

theorem sameSpin_swap (i j : Fin (nu + nd)) (h : i.val < nu ↔ j.val < nu) : SameSpin nu (Equiv.swap i j) := by
  intro k
  rcases eq_or_ne k i with rfl | hi
  · rw [Equiv.swap_apply_left]; exact h.symm
  · rcases eq_or_ne k j with rfl | hj
    · rw [Equiv.swap_apply_right]; exact h
    · rw [Equiv.swap_apply_of_ne_of_ne hi hj]

theorem solid_rows (W : Solid) (r : Fin (nu + nd) → Vec 3) (atoms : Fin na → Vec 3) (σ : Equiv.Perm (Fin (nu + nd)))
    (hσ : SameSpin nu σ) (k : Fin W.ndets) :
    W.orbitals (fun i => r (σ i)) atoms k = (W.orbitals r atoms k).submatrix σ id := by
  funext i j
  unfold Solid.orbitals
  simp only [solidFeatures_rows]
  have := fermiLayers_rows σ hσ false W.layers (solidFeatures W.cell r atoms).ae (solidFeatures W.cell r atoms).ee
  simp only [Embedding.rows]
  rw [show (fun p : Fin (nu + nd) × Fin (nu + nd) => (σ p.1, σ p.2)) = relabel2 σ from rfl, this]
  rw [orbitalProjection_rows σ hσ, orbitalProjection_rows σ hσ, envelope_rows σ hσ]
  rfl

/-- C62 (solids): the complex value `exp(logpsi)` is multiplied by the sign of the relabelling. -/
theorem c62_solid (W : Solid) (r : Fin (nu + nd) → Vec 3) (atoms : Fin na → Vec 3) (σ : Equiv.Perm (Fin (nu + nd)))
    (hσ : SameSpin nu σ) :
    MultipliedC (((Equiv.Perm.sign σ : ℤˣ) : ℤ) : ℂ) (W.call r atoms) (W.call (fun i => r (σ i)) atoms) := by
  refine logDetC_mul _ _ _ ?_ fun k => ?_
  · rcases Int.units_eq_one_or (Equiv.Perm.sign σ) with h | h <;> simp [h]
  · rw [solid_rows W r atoms σ hσ, det_rows]

/-- C62 in its usual form: exchanging two different electrons of the same spin flips the sign of the wavefunction and leaves
`log|psi|` as it is, for all three molecule ansätze. -/
theorem c62_swap (i j : Fin (nu + nd)) (hij : i ≠ j) (hs : i.val < nu ↔ j.val < nu) (r : Fin (nu + nd) → Vec d)
    (atoms : Fin na → Vec d) :
    (∀ W : FermiNet, Multiplied (-1) (W.call r atoms) (W.call (fun k => r (Equiv.swap i j k)) atoms)) ∧
    (∀ W : Psiformer, Multiplied (-1) (W.call r atoms) (W.call (fun k => r (Equiv.swap i j k)) atoms)) ∧
    (∀ W : LapNet, Multiplied (-1) (W.call r atoms) (W.call (fun k => r (Equiv.swap i j k)) atoms)) := by
  have e : (((Equiv.Perm.sign (Equiv.swap i j) : ℤˣ) : ℤ) : ℝ) = -1 := by
    rw [Equiv.Perm.sign_swap hij]; simp
  refine ⟨fun W => ?_, fun W => ?_, fun W => ?_⟩
  · have := c62_ferminet W r atoms _ (sameSpin_swap i j hs); rwa [e] at this
  · have := c62_psiformer W r atoms _ (sameSpin_swap i j hs); rwa [e] at this
  · have := c62_lapnet W r atoms _ (sameSpin_swap i j hs); rwa [e] at this

theorem det_zero_of_fixed {n : ℕ} {R : Type} [CommRing R] (M : Matrix (Fin n) (Fin n) R) (i j : Fin n) (hij : i ≠ j)
    (h : M = M.submatrix (Equiv.swap i j) id) : M.det = 0 := by
  refine Matrix.det_zero_of_row_eq hij ?_
  rw [h]
  funext k
  simp only [Matrix.submatrix_apply, Equiv.swap_apply_left, id]
  conv_rhs => rw [h]
  simp

theorem swap_fixed {α : Type} (r : Fin (nu + nd) → α) (i j : Fin (nu + nd)) (h : r i = r j) :
    (fun k => r (Equiv.swap i j k)) = r := by
  funext k
  rcases eq_or_ne k i with rfl | hi
  · rw [Equiv.swap_apply_left, h]
  · rcases eq_or_ne k j with rfl | hj
    · rw [Equiv.swap_apply_right, h]
    · rw [Equiv.swap_apply_of_ne_of_ne hi hj]

/-- C62, Pauli exclusion: where two electrons of the same spin coincide every determinant vanishes (all `abs_logdets` are
`-inf`); the reported `logpsi` and sign are then not `-inf` and `0` but NaN. -/
theorem c62_pauli (i j : Fin (nu + nd)) (hij : i ≠ j) (hs : i.val < nu ↔ j.val < nu) (r : Fin (nu + nd) → Vec d)
    (hr : r i = r j) (atoms : Fin na → Vec d) :
    (∀ W : FermiNet, (∀ k, (W.call r atoms).absLogdets k = ⊥) ∧ (W.call r atoms).logpsi = none ∧ (W.call r atoms).signLogpsi = none) ∧
    (∀ W : Psiformer, (∀ k, (W.call r atoms).absLogdets k = ⊥) ∧ (W.call r atoms).logpsi = none ∧ (W.call r atoms).signLogpsi = none) ∧
    (∀ W : LapNet, (∀ k, (W.call r atoms).absLogdets k = ⊥) ∧ (W.call r atoms).logpsi = none ∧ (W.call r atoms).signLogpsi = none) := by
  have gen : ∀ {K : ℕ} (xs : Fin K → Matrix (Fin (nu + nd)) (Fin (nu + nd)) ℝ), (∀ k, xs k = (xs k).submatrix (Equiv.swap i j) id) →
      (∀ k, (logDet xs).absLogdets k = ⊥) ∧ (logDet xs).logpsi = none ∧ (logDet xs).signLogpsi = none := by
    intro K xs h
    have h0 : ∀ k, (xs k).det = 0 := fun k => det_zero_of_fixed (xs k) i j hij (h k)
    obtain ⟨a, b⟩ := (c63_real xs).1 h0
    exact ⟨fun k => by rw [(c63_real xs).2.2.2 k, if_pos (h0 k)], b, a⟩
  have hsw := sameSpin_swap (nd := nd) i j hs
  refine ⟨fun W => gen _ fun k => ?_, fun W => ?_, fun W => ?_⟩
  · rw [← ferminet_rows W r atoms _ hsw, swap_fixed r i j hr]
  · obtain ⟨a, b, c⟩ := gen (W.orbitals r atoms) fun k => by rw [← psiformer_orb_rows W r atoms _ hsw, swap_fixed r i j hr]
    unfold Psiformer.call
    cases W.jastrow with
    | none => exact ⟨a, b, c⟩
    | some q => exact ⟨a, by simp only [addJastrow, b]; rfl, c⟩
  · obtain ⟨a, b, c⟩ := gen (W.orbitals r atoms) fun k => by rw [← lapnet_orb_rows W r atoms _ hsw, swap_fixed r i j hr]
    unfold LapNet.call
    cases W.jastrow with
    | none => exact ⟨a, b, c⟩
    | some q => exact ⟨a, by simp only [addJastrow, b]; rfl, c⟩

/-! ### C64: translations of the whole molecule -/

theorem pairWithin_shift {n : ℕ} (t : Vec d) (r : Fin n → Vec d) : pairWithin (shift t r) = pairWithin r := by
  unfold pairWithin shift
  simp only [add_sub_add_right_eq_sub]

theorem pairBetween_shift {n m : ℕ} (t : Vec d) (r : Fin n → Vec d) (a : Fin m → Vec d) :
    pairBetween (shift t r) (shift t a) = pairBetween r a := by
  unfold pairBetween shift
  simp only [add_sub_add_right_eq_sub]

theorem moleculeFeatures_shift {n : ℕ} (t : Vec d) (b : Bool) (r : Fin n → Vec d) (a : Fin na → Vec d) :
    moleculeFeatures b (shift t r) (shift t a) = moleculeFeatures b r a := by
  unfold moleculeFeatures
  rw [pairWithin_shift, pairBetween_shift]

/-- C64: moving all electrons and all nuclei by the same vector changes nothing in the output. -/
theorem c64_translation (t : Vec d) (r : Fin (nu + nd) → Vec d) (atoms : Fin na → Vec d) :
    (∀ W : FermiNet, W.call (shift t r) (shift t atoms) = W.call r atoms) ∧
    (∀ W : Psiformer, W.call (shift t r) (shift t atoms) = W.call r atoms) ∧
    (∀ W : LapNet, W.call (shift t r) (shift t atoms) = W.call r atoms) := by
  refine ⟨fun W => ?_, fun W => ?_, fun W => ?_⟩
  · unfold FermiNet.call FermiNet.orbitals; rw [moleculeFeatures_shift]
  · unfold Psiformer.call Psiformer.orbitals; rw [moleculeFeatures_shift, pairWithin_shift]
  · unfold LapNet.call LapNet.orbitals; rw [moleculeFeatures_shift, pairWithin_shift]

/-! ### C65: Bloch boundary conditions of a solid -/

theorem distType_periodic (t : DistType) (s : Symmetry) (L : Matrix (Fin 3) (Fin 3) ℝ) (h : IsUnit L.det)
    (a : Matrix (Fin (symRows s).length) (Fin 3) ℝ) (x y : Vec 3) (m : Fin 3 → ℤ) (hxy : ∀ k, y k = x k + Geometry.Spec.translation L m k) :
    t.eval a (symB s L) y = t.eval a (symB s L) x := by
  have e := Geometry.Props.c31_periodic s L h a x m
  rw [show y = fun k => x k + Geometry.Spec.translation L m k from funext hxy]
  cases t with
  | tri => simp only [DistType.eval]; rw [e.1]
  | nu => simp only [DistType.eval]; rw [e.2]

theorem translation_add (L : Matrix (Fin 3) (Fin 3) ℝ) (m m' : Fin 3 → ℤ) (k : Fin 3) :
    Geometry.Spec.translation L (m + m') k = Geometry.Spec.translation L m k + Geometry.Spec.translation L m' k := by
  unfold Geometry.Spec.translation
  rw [← Finset.sum_add_distrib]
  exact Finset.sum_congr rfl fun i _ => by simp only [Pi.add_apply, Int.cast_add]; ring

theorem translation_neg (L : Matrix (Fin 3) (Fin 3) ℝ) (m : Fin 3 → ℤ) (k : Fin 3) :
    Geometry.Spec.translation L (-m) k = -Geometry.Spec.translation L m k := by
  unfold Geometry.Spec.translation
  rw [← Finset.sum_neg_distrib]
  exact Finset.sum_congr rfl fun i _ => by simp only [Pi.neg_apply, Int.cast_neg]; ring

/-- An integer combination of simulation-cell vectors is one of primitive-cell vectors when the simulation cell is a
supercell. -/
theorem translation_super (S : Matrix (Fin 3) (Fin 3) ℤ) (L P : Matrix (Fin 3) (Fin 3) ℝ)
    (hS : L = (S.map (fun z : ℤ => (z : ℝ))) * P) (m : Fin 3 → ℤ) :
    Geometry.Spec.translation L m = Geometry.Spec.translation P (fun j => ∑ i, m i * S i j) := by
  funext k
  unfold Geometry.Spec.translation
  rw [hS]
  simp only [Matrix.mul_apply, Matrix.map_apply, Int.cast_sum, Int.cast_mul, Finset.mul_sum, Finset.sum_mul]
  rw [Finset.sum_comm]
  exact Finset.sum_congr rfl fun i _ => Finset.sum_congr rfl fun j _ => by ring

theorem solidFeatures_shiftOne {n : ℕ} (C : SolidCell) (hp : IsUnit C.prim.det) (hs : IsUnit C.sim.det)
    (S : Matrix (Fin 3) (Fin 3) ℤ) (hS : C.sim = (S.map (fun z : ℤ => (z : ℝ))) * C.prim) (i : Fin n) (m : Fin 3 → ℤ)
    (r : Fin n → Vec 3) (a : Fin na → Vec 3) :
    solidFeatures C (shiftOne i (Geometry.Spec.translation C.sim m) r) a = solidFeatures C r a := by
  have h1 : ∀ j, wrap C.sim (shiftOne i (Geometry.Spec.translation C.sim m) r j) = wrap C.sim (r j) := by
    intro j
    by_cases hj : j = i
    · have : shiftOne i (Geometry.Spec.translation C.sim m) r j = fun k => r j k + Geometry.Spec.translation C.sim m k := by
        funext k; simp [shiftOne, hj]
      rw [this, Geometry.Props.wrap_translate C.sim hs]
    · have : shiftOne i (Geometry.Spec.translation C.sim m) r j = r j := by
        funext k; simp [shiftOne, hj]
      rw [this]
  have h2 : ∀ j, wrap C.prim (shiftOne i (Geometry.Spec.translation C.sim m) r j) = wrap C.prim (r j) := by
    intro j
    by_cases hj : j = i
    · have : shiftOne i (Geometry.Spec.translation C.sim m) r j
          = fun k => r j k + Geometry.Spec.translation C.prim (fun l => ∑ i, m i * S i l) k := by
        funext k; rw [← translation_super S C.sim C.prim hS]; simp [shiftOne, hj]
      rw [this, Geometry.Props.wrap_translate C.prim hp]
    · have : shiftOne i (Geometry.Spec.translation C.sim m) r j = r j := by
        funext k; simp [shiftOne, hj]
      rw [this]
  unfold solidFeatures
  simp only [h1, h2]

/-- The dot product of a wave vector and a displacement. -/
def kdot (k t : Vec 3) : ℝ := ∑ c, t c * k c

/-- C65 (twisted boundary conditions): moving one electron by a simulation-cell vector `t` multiplies the wavefunction by
`exp(i θ)`, provided all wave vectors of the orbitals agree on it: `k·t = θ` up to a multiple of 2π (which C37 gives, with the
twist, for the k-points the code generates).  The modulus never changes. -/
theorem c65_twist (W : Solid) (hp : IsUnit W.cell.prim.det) (hs : IsUnit W.cell.sim.det)
    (S : Matrix (Fin 3) (Fin 3) ℤ) (hS : W.cell.sim = (S.map (fun z : ℤ => (z : ℝ))) * W.cell.prim) (i : Fin (nu + nd)) (m : Fin 3 → ℤ)
    (θ : ℝ) (hk : ∀ j : Fin (nu + nd), ∃ z : ℤ, kdot (W.klist j) (Geometry.Spec.translation W.cell.sim m) = θ + z * (2 * Real.pi))
    (r : Fin (nu + nd) → Vec 3) (atoms : Fin na → Vec 3) :
    MultipliedC (Complex.exp (Complex.I * (θ : ℂ))) (W.call r atoms)
      (W.call (shiftOne i (Geometry.Spec.translation W.cell.sim m) r) atoms) := by
  refine logDetC_mul _ _ _ ?_ fun k => ?_
  · rw [mul_comm]; exact Complex.norm_exp_ofReal_mul_I θ
  · have : W.orbitals (shiftOne i (Geometry.Spec.translation W.cell.sim m) r) atoms k
        = (W.orbitals r atoms k).updateRow i (Complex.exp (Complex.I * (θ : ℂ)) • (W.orbitals r atoms k) i) := by
      funext a b
      rw [Matrix.updateRow_apply]
      by_cases ha : a = i
      · rw [if_pos ha]
        subst ha
        unfold Solid.orbitals
        simp only [solidFeatures_shiftOne W.cell hp hs S hS, Pi.smul_apply, smul_eq_mul]
        have e : (∑ c, shiftOne a (Geometry.Spec.translation W.cell.sim m) r a c * W.klist b c)
            = (∑ c, r a c * W.klist b c) + kdot (W.klist b) (Geometry.Spec.translation W.cell.sim m) := by
          unfold kdot
          rw [← Finset.sum_add_distrib]
          exact Finset.sum_congr rfl fun c _ => by simp [shiftOne]; ring
        obtain ⟨z, hz⟩ := hk b
        rw [e, hz]
        have e2 : Complex.exp (Complex.I * (((∑ c, r a c * W.klist b c) + (θ + z * (2 * Real.pi)) : ℝ) : ℂ))
            = Complex.exp (Complex.I * (θ : ℂ)) * Complex.exp (Complex.I * ((∑ c, r a c * W.klist b c : ℝ) : ℂ)) := by
          rw [← Complex.exp_add, ← Complex.exp_periodic.int_mul z (Complex.I * (θ : ℂ) + _)]
          congr 1
          push_cast; ring
        rw [e2]; ring
      · rw [if_neg ha]
        unfold Solid.orbitals
        simp only [solidFeatures_shiftOne W.cell hp hs S hS]
        have : shiftOne i (Geometry.Spec.translation W.cell.sim m) r a = r a := by
          funext c; simp [shiftOne, ha]
        rw [this]
    rw [this, Matrix.det_updateRow_smul, Matrix.updateRow_eq_self]

theorem wrap_image (L : Matrix (Fin 3) (Fin 3) ℝ) (h : IsUnit L.det) (p : Vec 3) :
    ∃ m : Fin 3 → ℤ, ∀ k, wrap L p k = p k + Geometry.Spec.translation L m k :=
  (Geometry.Props.c30_wrap L h p).2.1

theorem solidFeatures_shift {n : ℕ} (C : SolidCell) (hp : IsUnit C.prim.det) (hs : IsUnit C.sim.det) (m : Fin 3 → ℤ)
    (r : Fin n → Vec 3) (a : Fin na → Vec 3) :
    solidFeatures C (shift (Geometry.Spec.translation C.prim m) r) a = solidFeatures C r a := by
  have h2 : ∀ j, wrap C.prim (shift (Geometry.Spec.translation C.prim m) r j) = wrap C.prim (r j) := fun j =>
    Geometry.Props.wrap_translate C.prim hp (r j) m
  have h1 : ∀ (i j : Fin n) (e : ℝ), C.dist.eval (symA C.sym C.sim) (symB C.sym C.sim)
        (fun k => wrap C.sim (shift (Geometry.Spec.translation C.prim m) r i) k
          - wrap C.sim (shift (Geometry.Spec.translation C.prim m) r j) k + e)
      = C.dist.eval (symA C.sym C.sim) (symB C.sym C.sim) (fun k => wrap C.sim (r i) k - wrap C.sim (r j) k + e) := by
    intro i j e
    obtain ⟨a1, h1⟩ := wrap_image C.sim hs (shift (Geometry.Spec.translation C.prim m) r i)
    obtain ⟨a2, h2⟩ := wrap_image C.sim hs (shift (Geometry.Spec.translation C.prim m) r j)
    obtain ⟨a3, h3⟩ := wrap_image C.sim hs (r i)
    obtain ⟨a4, h4⟩ := wrap_image C.sim hs (r j)
    refine distType_periodic C.dist C.sym C.sim hs _ _ _ ((a1 + -a2) + (-a3 + a4)) fun k => ?_
    rw [h1, h2, h3, h4, translation_add, translation_add, translation_add, translation_neg, translation_neg]
    simp only [shift]
    ring
  unfold solidFeatures
  simp only [h1, h2]

/-- C65 (crystal momentum): moving all electrons by a primitive-cell vector `t` multiplies the wavefunction by
`exp(i K·t)` with `K` the sum of the wave vectors of the orbitals. -/
theorem c65_momentum (W : Solid) (hp : IsUnit W.cell.prim.det) (hs : IsUnit W.cell.sim.det) (m : Fin 3 → ℤ)
    (r : Fin (nu + nd) → Vec 3) (atoms : Fin na → Vec 3) :
    MultipliedC (Complex.exp (Complex.I * ((∑ j : Fin (nu + nd), kdot (W.klist j) (Geometry.Spec.translation W.cell.prim m) : ℝ) : ℂ)))
      (W.call r atoms) (W.call (shift (Geometry.Spec.translation W.cell.prim m) r) atoms) := by
  refine logDetC_mul _ _ _ ?_ fun k => ?_
  · rw [mul_comm]; exact Complex.norm_exp_ofReal_mul_I _
  · have : W.orbitals (shift (Geometry.Spec.translation W.cell.prim m) r) atoms k
        = Matrix.of fun a (b : Fin (nu + nd)) => Complex.exp (Complex.I * (kdot (W.klist b) (Geometry.Spec.translation W.cell.prim m) : ℂ))
            * W.orbitals r atoms k a b := by
      funext a b
      unfold Solid.orbitals
      simp only [solidFeatures_shift W.cell hp hs, Matrix.of_apply]
      have e : (∑ c, shift (Geometry.Spec.translation W.cell.prim m) r a c * W.klist b c)
          = (∑ c, r a c * W.klist b c) + kdot (W.klist b) (Geometry.Spec.translation W.cell.prim m) := by
        unfold kdot
        rw [← Finset.sum_add_distrib]
        exact Finset.sum_congr rfl fun c _ => by simp [shift]; ring
      rw [e]
      push_cast
      rw [mul_add, Complex.exp_add]
      ring
    rw [this, Matrix.det_mul_row, ← Complex.exp_sum]
    congr 2
    push_cast
    rw [Finset.mul_sum]

/-! ### Concrete cases -/

/-- A dense layer that reads feature `k + 1` as output `k`. -/
def pick : Dense := ⟨fun j k => if j = k + 1 then 1 else 0, fun _ => 0⟩

/-- A dense layer that copies its input. -/
def copy : Dense := ⟨fun j k => if j = k then 1 else 0, fun _ => 0⟩

/-- Output layers without envelope parameters. -/
def plainOut : OutParams := ⟨⟨copy, copy⟩, ⟨fun _ _ _ => 0, fun _ _ _ => 0, fun _ _ _ _ => 0⟩, ⟨fun _ _ _ => 0, fun _ _ _ => 0, fun _ _ _ _ => 0⟩⟩

/-- A FermiNet with one hidden layer. -/
def tinyFermi : FermiNet := ⟨[⟨2, 1, pick, pick⟩], false, 1, .null, true, plainOut⟩

/-- Two spin-up electrons on the x and y axes. -/
def twoElectrons : Fin (2 + 0) → Vec 3 := ![![1, 0, 0], ![0, 1, 0]]

/-- One atom at the origin. -/
def oneAtom : Fin 1 → Vec 3 := ![![0, 0, 0]]

theorem tiny_orbitals (i j : Fin (2 + 0)) :
    tinyFermi.orbitals twoElectrons oneAtom (0 : Fin 1) i j = if i = j then Real.tanh 1 else 0 := by
  have hw : (aggregate (moleculeFeatures false twoElectrons oneAtom).ae (moleculeFeatures false twoElectrons oneAtom).ee).width = 12 := by
    simp [aggregate, splitRows, Feat.cat, moleculeFeatures, flatAtoms]
  have hv : ∀ (i : Fin (2 + 0)) (k : ℕ), k < 4 →
      (aggregate (moleculeFeatures false twoElectrons oneAtom).ae (moleculeFeatures false twoElectrons oneAtom).ee).val i k
        = (moleculeFeatures false twoElectrons oneAtom).ae.val i k := by
    intro i k hk
    have h4 : (moleculeFeatures false twoElectrons oneAtom).ae.width = 4 := by simp [moleculeFeatures, flatAtoms]
    simp only [aggregate, splitRows]
    simp [Feat.cat, h4, hk, show k < 8 by omega]
  have hf : ∀ i j : Fin (2 + 0), (moleculeFeatures false twoElectrons oneAtom).ae.val i (j + 1) = if i = j then 1 else 0 := by
    intro i j
    fin_cases i <;> fin_cases j <;> simp [moleculeFeatures, flatAtoms, rVec, pairBetween, twoElectrons, oneAtom]
  have hA : ∀ i j : Fin (2 + 0), (aggregate (moleculeFeatures false twoElectrons oneAtom).ae
      (moleculeFeatures false twoElectrons oneAtom).ee).val i (j + 1) = if i = j then 1 else 0 := by
    intro i j
    rw [hv i _ (by omega), hf]
  have h4 : (moleculeFeatures false twoElectrons oneAtom).ae.width = 4 := by simp [moleculeFeatures, flatAtoms]
  unfold tinyFermi FermiNet.orbitals Wf.orbitals
  simp only [fermiLayers, updateSingle, plainOut]
  simp only [orbitalProjection, envelope, envRow]
  generalize aggregate (moleculeFeatures false twoElectrons oneAtom).ae (moleculeFeatures false twoElectrons oneAtom).ee = A at *
  have h0 := hA i 0
  have h1 := hA i 1
  simp [Fin.val_one] at h0 h1
  fin_cases i <;> fin_cases j <;>
    simp [dense, copy, pick, residual, tanhF, hw, h4, Finset.sum_range_succ, h0, h1] <;> simp_all

/-- C62, C63: a FermiNet with a hidden layer whose wavefunction is not zero: `logpsi = log (tanh 1)²` with sign `+1`, and `-1`
after the exchange. -/
theorem c62_example :
    (tinyFermi.call twoElectrons oneAtom).logpsi = some ((Real.log (Real.tanh 1 ^ 2) : ℝ) : WithBot ℝ) ∧
    (tinyFermi.call twoElectrons oneAtom).signLogpsi = some 1 ∧
    (tinyFermi.call (fun k => twoElectrons (Equiv.swap 0 1 k)) oneAtom).logpsi = some ((Real.log (Real.tanh 1 ^ 2) : ℝ) : WithBot ℝ) ∧
    (tinyFermi.call (fun k => twoElectrons (Equiv.swap 0 1 k)) oneAtom).signLogpsi = some (-1) := by
  have ht : 0 < Real.tanh 1 := by rw [Real.tanh_eq_sinh_div_cosh]; exact div_pos (Real.sinh_pos_iff.2 one_pos) (Real.cosh_pos 1)
  have hd : (tinyFermi.orbitals twoElectrons oneAtom (0 : Fin 1)).det = Real.tanh 1 ^ 2 := by
    have : tinyFermi.orbitals twoElectrons oneAtom (0 : Fin 1) = Matrix.diagonal fun _ => Real.tanh 1 := by
      funext i j
      rw [tiny_orbitals, Matrix.diagonal_apply]
    rw [this, Matrix.det_diagonal]
    simp
  have hp : 0 < Real.tanh 1 ^ 2 := pow_pos ht 2
  have hsum : ∑ k, (tinyFermi.orbitals twoElectrons oneAtom k).det = Real.tanh 1 ^ 2 :=
    (Fin.sum_univ_one (fun k : Fin 1 => (tinyFermi.orbitals twoElectrons oneAtom k).det)).trans hd
  obtain ⟨a, b⟩ := (c63_real (tinyFermi.orbitals twoElectrons oneAtom)).2.1 ⟨(0 : Fin 1), by rw [hd]; exact hp.ne'⟩
  rw [hsum] at a b
  rw [if_neg hp.ne', abs_of_pos hp] at b
  rw [sign_pos hp] at a
  have sw := (c62_swap (nu := 2) (nd := 0) (0 : Fin 2) (1 : Fin 2) (by decide) (by decide) twoElectrons oneAtom).1 tinyFermi
  have a' : (tinyFermi.call twoElectrons oneAtom).signLogpsi = some 1 := a.trans (by simp)
  refine ⟨b, a', sw.logpsi.trans b, sw.sign.trans ?_⟩
  rw [a']
  simp

/-- The solid of the examples: a cubic primitive cell, a simulation cell of two of them, wave vectors `0` and `(π, 0, 0)`. -/
noncomputable def tinySolid : Solid :=
  ⟨⟨Matrix.diagonal ![2, 1, 1], 1, .tri, .minimal⟩, fun j => if j = 0 then 0 else ![Real.pi, 0, 0], [⟨2, 1, pick, pick⟩], 1, .absIsotropic, true,
    plainOut, ⟨copy, copy⟩⟩

/-- C65: the hypotheses of the twist theorem hold for that solid, with twist `0`; for the primitive translation along the
first axis the crystal momentum gives the factor `exp(i π) = -1`. -/
theorem c65_example (i : Fin (1 + 1)) (r : Fin (1 + 1) → Vec 3) (atoms : Fin na → Vec 3) (m : Fin 3 → ℤ) :
    MultipliedC 1 (tinySolid.call r atoms) (tinySolid.call (shiftOne i (Geometry.Spec.translation tinySolid.cell.sim m) r) atoms) ∧
    MultipliedC (-1) (tinySolid.call r atoms) (tinySolid.call (shift (Geometry.Spec.translation tinySolid.cell.prim ![1, 0, 0]) r) atoms) := by
  have hp : IsUnit tinySolid.cell.prim.det := by simp [tinySolid]
  have hs : IsUnit tinySolid.cell.sim.det := by simp [tinySolid, Fin.prod_univ_three]
  constructor
  · have := c65_twist tinySolid hp hs (Matrix.diagonal ![2, 1, 1])
      (by
        simp only [tinySolid, mul_one]
        funext a b
        fin_cases a <;> fin_cases b <;> simp)
      i m 0 (fun j => ?_) r atoms
    · simpa using this
    · fin_cases j
      · exact ⟨0, by simp [kdot, tinySolid]⟩
      · refine ⟨m 0, ?_⟩
        simp [kdot, tinySolid, Fin.sum_univ_three, Geometry.Spec.translation]
        ring
  · have := c65_momentum tinySolid hp hs ![1, 0, 0] r atoms
    have e : (∑ j : Fin (1 + 1), kdot (tinySolid.klist j) (Geometry.Spec.translation tinySolid.cell.prim ![1, 0, 0])) = Real.pi := by
      simp [Fin.sum_univ_two, kdot, tinySolid, Fin.sum_univ_three, Geometry.Spec.translation, Matrix.one_apply]
    rw [e, mul_comm, Complex.exp_pi_mul_I] at this
    exact this

end Jaqmc.Wf.Props
