import Verif.Lemmas.DmcMove
import Mathlib.Analysis.SpecificLimits.Normed
/-!
# C89: the DMC walker moves: fixed node, detailed balance, drift
-/
namespace Jaqmc.DmcMove.Props
open Jaqmc.DmcMove

variable {M n : ℕ}

/-- C89: the velocity used in the drift is the velocity shortened by a factor in `(0, 1]`, and
`a |v̄|² τ ≤ 2` for the weight control `a`: the drift stays bounded however large the velocity. -/
theorem c89_clip (v x nucleus : V) (charge tau : ℝ) :
    (∃ c : ℝ, 0 < c ∧ c ≤ 1 ∧ clipVelocity v x nucleus charge tau = c • v) ∧
    weightControl v x nucleus charge * ‖clipVelocity v x nucleus charge tau‖ ^ 2 * tau ≤ 2 := by
  obtain ⟨h1, h2, h3⟩ := clipFactor_spec (weightControl v x nucleus charge * ‖v‖ ^ 2 * tau)
  refine ⟨⟨clipFactor (weightControl v x nucleus charge * ‖v‖ ^ 2 * tau), h1, h2, rfl⟩, ?_⟩
  unfold clipVelocity
  rw [norm_smul, mul_pow, Real.norm_eq_abs, sq_abs]
  linarith [h3]

/-- C89: the weight control lies in `[0, 1.1]`. -/
theorem c89_control (v x nucleus : V) (charge : ℝ) (hv : v ≠ 0) (hx : x ≠ nucleus) :
    0 ≤ weightControl v x nucleus charge ∧ weightControl v x nucleus charge ≤ 1.1 := by
  unfold weightControl
  have n1 : ‖(‖v‖)⁻¹ • v‖ = 1 := by
    rw [norm_smul, norm_inv, norm_norm, inv_mul_cancel₀ (norm_ne_zero_iff.mpr hv)]
  have i := abs_real_inner_le_norm ((‖v‖)⁻¹ • v) (unitTo nucleus x)
  rw [n1, unitTo_norm nucleus x hx, one_mul, abs_le] at i
  have p : 0 ≤ 4 / (charge * ‖x - nucleus‖) ^ 2 := div_nonneg (by norm_num) (sq_nonneg _)
  have a : 0 ≤ 0.1 / (4 / (charge * ‖x - nucleus‖) ^ 2 + 1) := div_nonneg (by norm_num) (by linarith)
  have b : 0.1 / (4 / (charge * ‖x - nucleus‖) ^ 2 + 1) ≤ 0.1 :=
    div_le_self (by norm_num) (by linarith)
  constructor <;> norm_num at a b ⊢ <;> linarith

theorem inner_unit (nucleus x : V) (k : ℝ) (hk : k ≠ 0) (hx : x ≠ nucleus) :
    inner ℝ ((‖k • (x - nucleus)‖)⁻¹ • (k • (x - nucleus))) (unitTo nucleus x) = k / |k| := by
  have hn : ‖x - nucleus‖ ≠ 0 := norm_ne_zero_iff.mpr (sub_ne_zero.mpr hx)
  have hk' : |k| ≠ 0 := abs_ne_zero.mpr hk
  unfold unitTo
  rw [real_inner_smul_left, real_inner_smul_left, real_inner_smul_right, real_inner_self_eq_norm_sq, norm_smul,
    Real.norm_eq_abs]
  field_simp

/-- C89: the control is weakest for a velocity straight towards the nucleus, where the wavefunction has its
cusp, and larger by one for a velocity straight away from it. -/
theorem c89_direction (nucleus x : V) (charge k : ℝ) (hk : 0 < k) (hx : x ≠ nucleus) :
    weightControl (-k • (x - nucleus)) x nucleus charge = 0.1 / (4 / (charge * ‖x - nucleus‖) ^ 2 + 1) ∧
    weightControl (k • (x - nucleus)) x nucleus charge = 1 + 0.1 / (4 / (charge * ‖x - nucleus‖) ^ 2 + 1) := by
  constructor
  · unfold weightControl
    rw [inner_unit nucleus x (-k) (by linarith) hx, abs_neg, abs_of_pos hk, neg_div, div_self hk.ne']
    norm_num
  · unfold weightControl
    rw [inner_unit nucleus x k hk.ne' hx, abs_of_pos hk, div_self hk.ne']
    norm_num

/-- C89: the squared lengths that a sweep averages are those of the diffusion steps of its proposals: from the
drifted position for a Gaussian step, from the nucleus for one in the exponential cloud. -/
theorem c89_step (S : Sys M) (x v : V) (d : Draw) :
    deltaR (prep S x v).q S.tau (prep S x v).zeta d = propose S x v d -
      if d.u < 1 - (prep S x v).q then (prep S x v).drifted else (prep S x v).nucleus := by
  unfold deltaR propose diffuse
  split <;> abel

/-- C89: the drift never carries an electron across its nearest nucleus: the drifted position stays
in the half space of the electron, at distance `max (r + v_z τ) 0` along the line to the nucleus. -/
theorem c89_drift (x nucleus vc : V) (tau : ℝ) (h : x ≠ nucleus) :
    inner ℝ (drift x nucleus vc tau - nucleus) (x - nucleus) =
      ‖x - nucleus‖ * max (‖x - nucleus‖ + inner ℝ vc (unitTo nucleus x) * tau) 0 ∧
    0 ≤ inner ℝ (drift x nucleus vc tau - nucleus) (x - nucleus) := by
  have e := drift_inner x nucleus vc tau h
  have r : inner ℝ (drift x nucleus vc tau - nucleus) (x - nucleus) =
      ‖x - nucleus‖ * max (‖x - nucleus‖ + inner ℝ vc (unitTo nucleus x) * tau) 0 := by
    rw [← e]
    unfold unitTo
    rw [real_inner_smul_right, ← mul_assoc,
      mul_inv_cancel₀ (norm_ne_zero_iff.mpr (sub_ne_zero.mpr h)), one_mul]
  exact ⟨r, by rw [r]; exact mul_nonneg (norm_nonneg _) (le_max_right _ _)⟩

/-- The transition density of the proposal of the walker move, from one configuration to another:
the product over the electrons of the density `exp G_log`. -/
noncomputable def density (S : Sys M) (vel : Conf n → Conf n) (x y : Conf n) : ℝ :=
  ∏ i, calcG (y i) (prep S (x i) (vel x i)).nucleus (prep S (x i) (vel x i)).drifted
    (prep S (x i) (vel x i)).q (prep S (x i) (vel x i)).zeta S.tau

theorem G_pos (S : Sys M) (x v y : V) :
    0 < calcG y (prep S x v).nucleus (prep S x v).drifted (prep S x v).q (prep S x v).zeta S.tau :=
  calcG_pos _ _ _ _ _ _ (overshoot_range _ _ _ _).1 (overshoot_range _ _ _ _).2

theorem density_pos (S : Sys M) (vel : Conf n → Conf n) (x y : Conf n) : 0 < density S vel x y :=
  Finset.prod_pos fun i _ => G_pos S _ _ _

theorem sumGLog_eq (S : Sys M) (vel : Conf n → Conf n) (x y : Conf n) :
    sumGLog S vel x y = Real.log (density S vel x y) := by
  unfold sumGLog density gLog
  rw [Real.log_prod fun i _ => (G_pos S _ _ _).ne']

theorem sign_same (a b : ℝ) (ha : a ≠ 0) (hb : b ≠ 0) :
    ¬ (SignType.sign a : ℝ) * (SignType.sign b : ℝ) < 0 ↔ SignType.sign a = SignType.sign b := by
  rcases lt_or_gt_of_ne ha with h | h <;> rcases lt_or_gt_of_ne hb with k | k <;>
    simp [h, k, sign_neg, sign_pos]

/-- C89: acceptance rates are probabilities. -/
theorem c89_rate (S : Sys M) (psi : Conf n → ℝ) (vel : Conf n → Conf n) (age : ℝ) (x y : Conf n)
    (i : Fin n) :
    (0 ≤ acceptRate S psi vel age x y ∧ acceptRate S psi vel age x y ≤ 1) ∧
    (0 ≤ acceptElec S psi vel i x y ∧ acceptElec S psi vel i x y ≤ 1) := by
  constructor
  · unfold acceptRate
    split
    · simp
    · exact clippedRatio_range _ _ _
  · unfold acceptElec
    have := clippedRatio_range (psi x) (psi y) (gLog S (y i) (vel y i) (x i) - gLog S (x i) (vel x i) (y i))
    split
    · simpa using this
    · simp

/-- C89: detailed balance.  For walkers of age at most 50 the accepted flow from `x` to `y` under
`ψ²` equals the flow back, for every two configurations. -/
theorem c89_balance (S : Sys M) (psi : Conf n → ℝ) (vel : Conf n → Conf n) (x y : Conf n)
    (age age' : ℝ) (h : age ≤ 50) (h' : age' ≤ 50) :
    psi x ^ 2 * density S vel x y * acceptRate S psi vel age x y =
      psi y ^ 2 * density S vel y x * acceptRate S psi vel age' y x := by
  rcases eq_or_ne (psi x) 0 with zx | zx
  · have : acceptRate S psi vel age' y x = 0 := by
      unfold acceptRate clippedRatio; simp [zx]
    rw [this, zx]; ring
  rcases eq_or_ne (psi y) 0 with zy | zy
  · have : acceptRate S psi vel age x y = 0 := by
      unfold acceptRate clippedRatio; simp [zy]
    rw [this, zy]; ring
  unfold acceptRate
  rw [mul_comm (SignType.sign (psi y) : ℝ)]
  split
  · ring
  · rw [max_eq_right (by linarith), max_eq_right (by linarith), mul_zero, add_zero, add_zero,
      sumGLog_eq, sumGLog_eq,
      ratio_balance _ _ _ _ (density_pos S vel x y) (density_pos S vel y x) zx zy,
      ratio_balance _ _ _ _ (density_pos S vel y x) (density_pos S vel x y) zy zx, min_comm]

/-- C89: detailed balance of the move of electron `i` (the other electrons fixed). -/
theorem c89_balance_elec (S : Sys M) (psi : Conf n → ℝ) (vel : Conf n → Conf n) (i : Fin n)
    (x y : Conf n) :
    psi x ^ 2 * Real.exp (gLog S (x i) (vel x i) (y i)) * acceptElec S psi vel i x y =
      psi y ^ 2 * Real.exp (gLog S (y i) (vel y i) (x i)) * acceptElec S psi vel i y x := by
  rcases eq_or_ne (psi x) 0 with zx | zx
  · simp [acceptElec, zx]
  rcases eq_or_ne (psi y) 0 with zy | zy
  · simp [acceptElec, zy]
  unfold acceptElec
  rw [mul_comm (SignType.sign (psi y) : ℝ)]
  unfold gLog
  set p := calcG (y i) _ _ _ _ S.tau with hp
  set q := calcG (x i) _ _ _ _ S.tau with hq
  have pp : 0 < p := G_pos S _ _ _
  have qp : 0 < q := G_pos S _ _ _
  rw [Real.exp_log pp, Real.exp_log qp, ← mul_assoc, ← mul_assoc,
    ratio_balance _ _ _ _ pp qp zx zy, ratio_balance _ _ _ _ qp pp zy zx, min_comm]

/-- C89: whatever the draws (non-negative acceptance draws), over any number of walker moves a
walker started off the nodes keeps the sign of the wave function. -/
theorem c89_fixed_node (S : Sys M) (psi : Conf n → ℝ) (vel : Conf n → Conf n)
    (hist : List ((Fin n → Draw) × ℝ)) (hu : ∀ d ∈ hist, 0 ≤ d.2) (x : Conf n) (age : ℝ)
    (hx : psi x ≠ 0) :
    psi (hist.foldl (walkerMove S psi vel) (x, age)).1 ≠ 0 ∧
    SignType.sign (psi (hist.foldl (walkerMove S psi vel) (x, age)).1) = SignType.sign (psi x) := by
  have one : ∀ (s : Conf n × ℝ) (d : (Fin n → Draw) × ℝ), 0 ≤ d.2 → psi s.1 ≠ 0 →
      psi (walkerMove S psi vel s d).1 ≠ 0 ∧
      SignType.sign (psi (walkerMove S psi vel s d).1) = SignType.sign (psi s.1) := by
    intro s d hd hs
    unfold walkerMove
    simp only
    split
    · rename_i acc
      have pos := lt_of_le_of_lt hd acc
      have ny : psi (fun i => propose S (s.1 i) (vel s.1 i) (d.1 i)) ≠ 0 := by
        intro z
        unfold acceptRate clippedRatio at pos
        simp [z] at pos
      refine ⟨ny, ?_⟩
      have : ¬ (SignType.sign (psi s.1) : ℝ) * (SignType.sign (psi (fun i => propose S (s.1 i)
          (vel s.1 i) (d.1 i))) : ℝ) < 0 := by
        intro c
        unfold acceptRate at pos
        rw [if_pos c] at pos
        exact lt_irrefl _ pos
      exact ((sign_same _ _ hs ny).mp this).symm
    · exact ⟨hs, rfl⟩
  suffices H : ∀ (l : List ((Fin n → Draw) × ℝ)), (∀ d ∈ l, 0 ≤ d.2) → ∀ s : Conf n × ℝ,
      psi s.1 ≠ 0 → psi (l.foldl (walkerMove S psi vel) s).1 ≠ 0 ∧
      SignType.sign (psi (l.foldl (walkerMove S psi vel) s).1) = SignType.sign (psi s.1) from
    H hist hu (x, age) hx
  intro l
  induction l with
  | nil => intro _ s hs; exact ⟨hs, rfl⟩
  | cons d l ih =>
    intro hl s hs
    obtain ⟨a, b⟩ := one s d (hl d (by simp)) hs
    obtain ⟨a', b'⟩ := ih (fun d hd => hl d (by simp [hd])) _ a
    exact ⟨a', b'.trans b⟩

/-- One electron's move keeps the sign. -/
theorem elec_sign (S : Sys M) (psi : Conf n → ℝ) (vel : Conf n → Conf n) (d : Fin n → Draw × ℝ)
    (s : Sweep n) (i : Fin n) (hd : 0 ≤ (d i).2) :
    SignType.sign (psi (elecMove S psi vel d s i).pos) = SignType.sign (psi s.pos) := by
  unfold elecMove
  simp only
  split
  · rename_i acc
    have pos := lt_of_le_of_lt hd acc
    unfold acceptElec at pos
    split at pos
    · rename_i hs
      rcases lt_trichotomy (psi s.pos) 0 with h | h | h
      · rw [sign_neg h] at hs ⊢
        rcases lt_trichotomy (psi (Function.update s.pos i (propose S (s.pos i) (vel s.pos i) (d i).1))) 0
          with k | k | k
        · rw [sign_neg k]
        · rw [k] at hs; simp at hs
        · rw [sign_pos k] at hs; norm_num at hs
      · rw [h] at hs; simp at hs
      · rw [sign_pos h] at hs ⊢
        rcases lt_trichotomy (psi (Function.update s.pos i (propose S (s.pos i) (vel s.pos i) (d i).1))) 0
          with k | k | k
        · rw [sign_neg k] at hs; norm_num at hs
        · rw [k] at hs; simp at hs
        · rw [sign_pos k]
    · simp at pos
  · rfl

/-- C89: the same for any number of electron-by-electron sweeps. -/
theorem c89_fixed_node_elec (S : Sys M) (psi : Conf n → ℝ) (vel : Conf n → Conf n)
    (hist : List (Fin n → Draw × ℝ)) (hu : ∀ d ∈ hist, ∀ i, 0 ≤ (d i).2) (x : Conf n) :
    SignType.sign (psi (hist.foldl (fun x d => (sweep S psi vel x d).pos) x)) =
      SignType.sign (psi x) := by
  have one : ∀ (d : Fin n → Draw × ℝ), (∀ i, 0 ≤ (d i).2) → ∀ (l : List (Fin n)) (s : Sweep n),
      SignType.sign (psi (l.foldl (elecMove S psi vel d) s).pos) = SignType.sign (psi s.pos) := by
    intro d hd l
    induction l with
    | nil => intro s; rfl
    | cons i l ih => intro s; rw [List.foldl_cons, ih, elec_sign S psi vel d s i (hd i)]
  induction hist generalizing x with
  | nil => rfl
  | cons d l ih =>
    rw [List.foldl_cons, ih fun d hd => hu d (by simp [hd])]
    exact one d (hu d (by simp)) _ _

/-- C89: the mean acceptance of a sweep is a probability, and its effective time step lies between
zero and the time step. -/
theorem c89_sweep (S : Sys M) (ht : 0 ≤ S.tau) (psi : Conf n → ℝ) (vel : Conf n → Conf n)
    (x : Conf n) (d : Fin n → Draw × ℝ) :
    (0 ≤ meanP (sweep S psi vel x d) ∧ meanP (sweep S psi vel x d) ≤ 1) ∧
    (0 ≤ effStep S.tau (sweep S psi vel x d) ∧ effStep S.tau (sweep S psi vel x d) ≤ S.tau) := by
  have inv : ∀ (l : List (Fin n)) (s : Sweep n), (0 ≤ s.sumP) → (0 ≤ s.sumPR ∧ s.sumPR ≤ s.sumR) →
      (0 ≤ (l.foldl (elecMove S psi vel d) s).sumP ∧
        (l.foldl (elecMove S psi vel d) s).sumP ≤ s.sumP + l.length) ∧
      0 ≤ (l.foldl (elecMove S psi vel d) s).sumPR ∧
        (l.foldl (elecMove S psi vel d) s).sumPR ≤ (l.foldl (elecMove S psi vel d) s).sumR := by
    intro l
    induction l with
    | nil => intro s h1 h2; simpa using ⟨h1, h2⟩
    | cons i l ih =>
      intro s h1 h2
      rw [List.foldl_cons]
      have r := (c89_rate S psi vel 0 s.pos (Function.update s.pos i
        (propose S (s.pos i) (vel s.pos i) (d i).1)) i).2
      have sq := sq_nonneg ‖deltaR (prep S (s.pos i) (vel s.pos i)).q S.tau
        (prep S (s.pos i) (vel s.pos i)).zeta (d i).1‖
      obtain ⟨a, b⟩ := ih (elecMove S psi vel d s i)
        (by simp only [elecMove]; linarith [r.1])
        (by
          simp only [elecMove]
          exact ⟨add_nonneg h2.1 (mul_nonneg r.1 sq),
            add_le_add h2.2 (mul_le_of_le_one_left sq r.2)⟩)
      refine ⟨⟨a.1, a.2.trans ?_⟩, b⟩
      simp only [elecMove, List.length_cons, Nat.cast_add, Nat.cast_one]
      linarith [r.2]
  obtain ⟨⟨a, b⟩, c, e⟩ := inv (List.finRange n) ⟨x, 0, 0, 0⟩ (le_refl _) ⟨le_refl _, le_refl _⟩
  change 0 ≤ (sweep S psi vel x d).sumP at a
  change (sweep S psi vel x d).sumP ≤ _ at b
  change 0 ≤ (sweep S psi vel x d).sumPR at c
  change (sweep S psi vel x d).sumPR ≤ (sweep S psi vel x d).sumR at e
  simp only [List.length_finRange, zero_add] at b
  refine ⟨⟨div_nonneg a (Nat.cast_nonneg n), div_le_one_of_le₀ b (Nat.cast_nonneg n)⟩, ?_, ?_⟩
  · exact div_nonneg (mul_nonneg ht c) (c.trans e)
  · unfold effStep
    rw [mul_div_assoc]
    exact mul_le_of_le_one_right ht (div_le_one_of_le₀ e (c.trans e))

/-- C89: the age of a walker counts: one after an accepted move (accepted when the draw is below the acceptance rate; the walker is then where it was
proposed), and one more after each rejected one, during which the walker does not move. -/
theorem c89_age_counts (S : Sys M) (psi : Conf n → ℝ) (vel : Conf n → Conf n) (h1 h2 : List ((Fin n → Draw) × ℝ)) (d : (Fin n → Draw) × ℝ)
    (s0 : Conf n × ℝ) :
    let s := h1.foldl (walkerMove S psi vel) s0
    let y : Conf n := fun i => propose S (s.1 i) (vel s.1 i) (d.1 i)
    d.2 < acceptRate S psi vel s.2 s.1 y →
    (∀ k, ∀ hk : k < h2.length, ¬ (h2[k]).2 < acceptRate S psi vel (1 + k) y (fun i => propose S (y i) (vel y i) ((h2[k]).1 i))) →
    (h1 ++ d :: h2).foldl (walkerMove S psi vel) s0 = (y, 1 + (h2.length : ℝ)) := by
  intro s y hacc hrej
  rw [List.foldl_append, List.foldl_cons]
  have e0 : walkerMove S psi vel s d = (y, 1) := by
    unfold walkerMove
    simp only
    rw [if_pos hacc]
  show List.foldl (walkerMove S psi vel) (walkerMove S psi vel s d) h2 = _
  rw [e0]
  clear_value y
  clear e0 hacc
  induction h2 using List.reverseRecOn with
  | nil => simp
  | append_singleton l b ih =>
    rw [List.foldl_append, List.foldl_cons, List.foldl_nil, ih (fun k hk => by
      have := hrej k (by simp; omega)
      rwa [List.getElem_append_left hk] at this)]
    have := hrej l.length (by simp)
    rw [List.getElem_append_right le_rfl] at this
    simp only [Nat.sub_self, List.getElem_cons_zero] at this
    unfold walkerMove
    simp only
    rw [if_neg this]
    simp only [List.length_append, List.length_singleton, Prod.mk.injEq, true_and]
    push_cast
    ring

/-- C89: no walker stays for ever: a proposal that does not cross a node is accepted with
certainty once the walker is old enough, and the acceptance rate never falls with age. -/
theorem c89_age (S : Sys M) (psi : Conf n → ℝ) (vel : Conf n → Conf n) (x y : Conf n)
    (hs : psi x ≠ 0) (hy : SignType.sign (psi y) = SignType.sign (psi x)) :
    (∃ A, ∀ age, A ≤ age → acceptRate S psi vel age x y = 1) ∧
    ∀ a b, a ≤ b → acceptRate S psi vel a x y ≤ acceptRate S psi vel b x y := by
  have ny : psi y ≠ 0 := by
    intro z
    rw [z, sign_zero] at hy
    exact hs (sign_eq_zero_iff.mp hy.symm)
  have nn : ¬ (SignType.sign (psi x) : ℝ) * (SignType.sign (psi y) : ℝ) < 0 :=
    (sign_same _ _ hs ny).mpr hy.symm
  have lp : 0 < Real.log 1.1 := Real.log_pos (by norm_num)
  have val : ∀ age, acceptRate S psi vel age x y =
      min (Real.exp (2 * (Real.log |psi y| - Real.log |psi x|) + (sumGLog S vel y x -
        sumGLog S vel x y + Real.log 1.1 * max (age - 50) 0))) 1 := by
    intro age
    unfold acceptRate clippedRatio
    rw [if_neg nn, if_neg ny, if_neg hs, max_eq_left (Real.exp_pos _).le]
  constructor
  · set c := 2 * (Real.log |psi y| - Real.log |psi x|) + (sumGLog S vel y x - sumGLog S vel x y)
    refine ⟨50 + |c| / Real.log 1.1, fun age h => ?_⟩
    rw [val, min_eq_right]
    rw [Real.one_le_exp_iff]
    have h1 : |c| / Real.log 1.1 ≤ max (age - 50) 0 := le_max_of_le_left (by linarith)
    have h2 : |c| ≤ Real.log 1.1 * max (age - 50) 0 := by
      rw [div_le_iff₀ lp] at h1; linarith
    have h3 := neg_abs_le c
    simp only [c] at h2 h3
    linarith
  · intro a b hab
    rw [val, val]
    refine min_le_min_right _ (Real.exp_le_exp.mpr ?_)
    have : max (a - 50) 0 ≤ max (b - 50) 0 := max_le_max_right _ (by linarith)
    nlinarith [mul_le_mul_of_nonneg_left this lp.le]

/-- A p orbital at a nucleus of charge one: nonzero on both sides of its node, and a move from one
side to the other is never accepted. -/
example : ∃ (S : Sys 0) (psi : Conf 1 → ℝ) (x y : Conf 1), psi x ≠ 0 ∧ psi y ≠ 0 ∧
    SignType.sign (psi x) ≠ SignType.sign (psi y) ∧
    (∀ vel age, acceptRate S psi vel age x y = 0) ∧
    ∀ vel age, 51 ≤ age → 0 < acceptRate S psi vel age x x := by
  refine ⟨⟨fun _ => 0, fun _ => 1, 1 / 100⟩, fun c => c 0 0 * Real.exp (-‖c 0‖),
    fun _ => EuclideanSpace.single 0 1, fun _ => EuclideanSpace.single 0 (-1), ?_, ?_, ?_, ?_, ?_⟩
  · simp [Real.exp_ne_zero]
  · simp [Real.exp_ne_zero]
  · rw [sign_pos (by simp [Real.exp_pos]), sign_neg (by simp [Real.exp_pos])]
    decide
  · intro vel age
    unfold acceptRate
    rw [if_pos]
    rw [sign_pos (by simp [Real.exp_pos]), sign_neg (by simp [Real.exp_pos])]
    norm_num
  · intro vel age _
    unfold acceptRate clippedRatio
    rw [if_neg (by rw [sign_pos (by simp [Real.exp_pos])]; norm_num),
      if_neg (by simp [Real.exp_ne_zero]), if_neg (by simp [Real.exp_ne_zero])]
    exact lt_min (lt_max_of_lt_left (Real.exp_pos _)) one_pos

end Jaqmc.DmcMove.Props
