import Verif.Spec.SR
import Mathlib.Algebra.Order.Star.Real
import Mathlib.Algebra.BigOperators.Field
import Mathlib.Tactic.Linarith
import Mathlib.Tactic.Ring
import Mathlib.Tactic.FieldSimp
import Mathlib.Tactic.Positivity
import Mathlib.Algebra.BigOperators.Intervals
/-! Lemmas for `Props/SR`: the score, the Gram matrix, the lift and the linear algebra of the step. -/
namespace Jaqmc.SR.Lemmas
open Matrix

variable {dev m k P : ℕ}

theorem rescale_eq (clip : Option ℝ) (hc : ∀ c, clip = some c → 0 < c) (raw : Raw dev m k P) (d : Fin dev) (i : Fin m)
    (a : Fin k) (j : Fin P) : raw d i a j * rescale clip raw d i = Spec.clipped clip raw d i a j := by
  cases clip with
  | none => simp [rescale, Spec.clipped]
  | some c =>
    have hc := hc c rfl
    have hnn : 0 ≤ Spec.rowMean raw d i := by unfold Spec.rowMean; positivity
    simp only [rescale, Spec.clipped]
    change _ * (if Spec.rowMean raw d i = 0 then (1 : ℝ) else min (max (c / Spec.rowMean raw d i) 0) 1) = _
    by_cases h0 : Spec.rowMean raw d i = 0
    · rw [if_pos h0, if_pos (by rw [h0]; exact hc.le)]; ring
    have hp : 0 < Spec.rowMean raw d i := lt_of_le_of_ne hnn (Ne.symm h0)
    rw [if_neg h0, max_eq_left (by positivity)]
    split_ifs with h
    · rw [min_eq_right ((one_le_div hp).2 h)]; ring
    · rw [min_eq_left ((div_le_one hp).2 (not_le.1 h).le)]; ring

theorem score_eq (clip : Option ℝ) (hc : ∀ c, clip = some c → 0 < c) (raw : Raw dev m k P) :
    score clip raw = Spec.O clip raw := by
  funext r j
  have h : meanScore clip raw r.2.2 j = (∑ d, ∑ i, Spec.clipped clip raw d i r.2.2 j) / (dev * m) := by
    simp only [meanScore, ← rescale_eq clip hc]
    rw [← Finset.sum_div, div_div, mul_comm (m : ℝ)]
    simp only [mul_comm]
  simp only [score, Spec.O, h, rescale_eq clip hc]
  congr 2
  push_cast; ring

/-- The score is centred. -/
theorem centred (clip : Option ℝ) (raw : Raw dev m k P) (hd : 0 < dev) (hm : 0 < m) (a : Fin k) (j : Fin P) :
    ∑ d, ∑ i, Spec.O clip raw (d, i, a) j = 0 := by
  have hd' : (dev : ℝ) ≠ 0 := by positivity
  have hm' : (m : ℝ) ≠ 0 := by positivity
  simp only [Spec.O, ← Finset.sum_div, Finset.sum_sub_distrib, Finset.sum_const, Finset.card_univ, Fintype.card_fin,
    nsmul_eq_mul]
  field_simp
  simp

theorem blockWidth_le (width : ℕ) (hd : 0 < dev) : width ≤ dev * blockWidth width dev := by
  unfold blockWidth
  have h1 := Nat.mod_lt width hd
  have hdiv : dev ∣ width + (dev - width % dev) % dev := by
    rcases Nat.eq_zero_or_pos (width % dev) with h | h
    · rw [h, Nat.sub_zero, Nat.mod_self, Nat.add_zero]; exact Nat.dvd_of_mod_eq_zero h
    · rw [Nat.mod_eq_of_lt (show dev - width % dev < dev by omega)]
      refine ⟨width / dev + 1, ?_⟩
      have := Nat.div_add_mod width dev
      rw [Nat.mul_add]; omega
  rw [Nat.mul_div_cancel' hdiv]; omega

theorem sum_blocks (h : ℕ → ℝ) (n w : ℕ) :
    ∑ d ∈ Finset.range n, ∑ c ∈ Finset.range w, h (d * w + c) = ∑ i ∈ Finset.range (n * w), h i := by
  induction n with
  | zero => simp
  | succ n ih => rw [Finset.sum_range_succ, ih, Nat.succ_mul, Finset.sum_range_add]

theorem sum_ext (h : ℕ → ℝ) (w n : ℕ) (hn : w ≤ n) :
    ∑ i ∈ Finset.range n, (if i < w then h i else 0) = ∑ i ∈ Finset.range w, h i := by
  rw [← Finset.sum_filter]
  congr 1
  ext i; simp; omega

theorem gramOf_eq {width : ℕ} (x : Row dev m k → Fin width → ℝ) (hd : 0 < dev) (r t : Row dev m k) :
    gramOf x r t = ∑ j, x r j * x t j := by
  let h : ℕ → ℝ := fun i => if hi : i < width then x r ⟨i, hi⟩ * x t ⟨i, hi⟩ else 0
  have h1 : ∀ (d : Fin dev) (c : Fin (blockWidth width dev)),
      reshard x d r c * reshard x d t c = h (d * blockWidth width dev + c) := by
    intro d c; simp only [reshard, h]; split_ifs <;> simp
  unfold gramOf
  simp only [h1]
  rw [Finset.sum_congr rfl fun (d : Fin dev) _ =>
    Fin.sum_univ_eq_sum_range (fun c => h (d * blockWidth width dev + c)) (blockWidth width dev)]
  rw [Fin.sum_univ_eq_sum_range (fun d => ∑ c ∈ Finset.range (blockWidth width dev), h (d * blockWidth width dev + c)) dev,
    sum_blocks]
  have h2 : ∀ i, h i = if i < width then h i else 0 := by
    intro i; by_cases hi : i < width <;> simp [h, hi]
  rw [Finset.sum_congr rfl fun i _ => h2 i, sum_ext h width _ (blockWidth_le width hd),
    ← Fin.sum_univ_eq_sum_range]
  exact Finset.sum_congr rfl fun j _ => by simp [h]

/-- A chunk of columns contributes exactly the columns `id * cs .. (id+1) * cs` that exist. -/
theorem chunk_sum (h : ℕ → ℝ) (cs id P : ℕ) (hcs : cs ≤ P) :
    (∑ c ∈ Finset.range cs, if min (id * cs) (P - cs) + c < P then
        (if id * cs ≤ min (id * cs) (P - cs) + c then h (min (id * cs) (P - cs) + c) else 0) else 0) =
      ∑ c ∈ Finset.range cs, if id * cs + c < P then h (id * cs + c) else 0 := by
  generalize id * cs = a
  have e1 := Finset.sum_Ico_eq_sum_range (fun n => if n < P then (if a ≤ n then h n else 0) else 0) (min a (P - cs)) (min a (P - cs) + cs)
  have e2 := Finset.sum_Ico_eq_sum_range (fun n => if n < P then h n else 0) a (a + cs)
  rw [Nat.add_sub_cancel_left] at e1 e2
  rw [← e1, ← e2]
  rw [show (∑ n ∈ Finset.Ico (min a (P - cs)) (min a (P - cs) + cs), if n < P then (if a ≤ n then h n else 0) else 0) =
    ∑ n ∈ Finset.Ico (min a (P - cs)) (min a (P - cs) + cs), if n < P ∧ a ≤ n then h n else 0 from
      Finset.sum_congr rfl fun n _ => by split_ifs <;> simp_all]
  rw [← Finset.sum_filter, ← Finset.sum_filter]
  congr 1
  ext n
  simp only [Finset.mem_filter, Finset.mem_Ico]
  omega

theorem rowFactor_pos (s : Matrix (Row dev m k) (Fin P) ℝ) (scale : Fin P → ℝ) (r : Row dev m k) : 0 < rowFactor s scale r := by
  unfold rowFactor; exact lt_max_of_lt_right (by norm_num)

theorem gram_eq (chunks : Option ℕ) (hn : ∀ n, chunks = some n → 0 < n) (s : Matrix (Row dev m k) (Fin P) ℝ) (scale : Fin P → ℝ)
    (hs : ∀ j, 0 ≤ scale j) (hd : 0 < dev) (r t : Row dev m k) :
    gram chunks s scale r t = ∑ j, s r j * scale j * s t j := by
  have fin : ∀ G : Matrix (Row dev m k) (Row dev m k) ℝ,
      (∀ r t, G r t = ∑ j, weighted s scale r j / rowFactor s scale r * (weighted s scale t j / rowFactor s scale t)) →
      finishGram (rowFactor s scale) G r t = ∑ j, s r j * scale j * s t j := by
    intro G hG
    have key : ∀ r t, G r t * (rowFactor s scale r * rowFactor s scale t) = ∑ j, s r j * scale j * s t j := by
      intro r t
      rw [hG, Finset.sum_mul]
      refine Finset.sum_congr rfl fun j _ => ?_
      have h1 := (rowFactor_pos s scale r).ne'
      have h2 := (rowFactor_pos s scale t).ne'
      field_simp
      simp only [weighted]
      have := Real.mul_self_sqrt (hs j)
      calc s r j * √(scale j) * (s t j * √(scale j)) = s r j * s t j * (√(scale j) * √(scale j)) := by ring
        _ = _ := by rw [this]; ring
    unfold finishGram
    rw [key, key]
    have : ∑ j, s t j * scale j * s r j = ∑ j, s r j * scale j * s t j := Finset.sum_congr rfl fun j _ => by ring
    rw [this]; ring
  cases chunks with
  | none => exact fin _ fun r t => gramOf_eq _ hd r t
  | some n =>
    have hn := hn n rfl
    refine fin _ fun r t => ?_
    generalize hcs : (P + n - 1) / n = cs
    have hPn : P ≤ n * cs := by
      rw [← hcs]
      have := Nat.lt_div_mul_add (a := P + n - 1) hn
      have h2 : (P + n - 1) / n * n = n * ((P + n - 1) / n) := Nat.mul_comm _ _
      omega
    have hcsP : cs ≤ P := by
      rw [← hcs]
      rcases Nat.eq_zero_or_pos P with rfl | hP
      · rw [Nat.div_eq_of_lt (by omega)]
      · refine Nat.div_le_of_le_mul ?_
        obtain ⟨a, rfl⟩ := Nat.exists_eq_succ_of_ne_zero hn.ne'
        obtain ⟨b, rfl⟩ := Nat.exists_eq_succ_of_ne_zero hP.ne'
        have : (a + 1) * (b + 1) = a * b + a + b + 1 := by ring
        simp only [Nat.succ_eq_add_one, this]
        have := Nat.zero_le (a * b)
        omega
    rw [Matrix.sum_apply]
    simp only [gramOf_eq _ hd]
    let h : ℕ → ℝ := fun i => if hi : i < P then
      weighted s scale r ⟨i, hi⟩ / rowFactor s scale r * (weighted s scale t ⟨i, hi⟩ / rowFactor s scale t) else 0
    have h1 : ∀ id, ∑ c : Fin cs, chunk s scale cs id r c * chunk s scale cs id t c =
        ∑ c ∈ Finset.range cs, h (id * cs + c) := by
      intro id
      have e : ∀ c : Fin cs, chunk s scale cs id r c * chunk s scale cs id t c =
          if min (id * cs) (P - cs) + c < P then
            (if id * cs ≤ min (id * cs) (P - cs) + c then h (min (id * cs) (P - cs) + c) else 0) else 0 := by
        intro c
        simp only [chunk]
        by_cases hP : min (id * cs) (P - cs) + c < P
        · simp only [hP, dif_pos, if_pos, h]
          split_ifs <;> simp
        · simp only [hP, dif_neg, if_neg, not_false_eq_true]; simp
      simp only [e]
      rw [Fin.sum_univ_eq_sum_range (fun c => if min (id * cs) (P - cs) + c < P then
            (if id * cs ≤ min (id * cs) (P - cs) + c then h (min (id * cs) (P - cs) + c) else 0) else 0) cs,
        chunk_sum h cs id P hcsP]
      refine Finset.sum_congr rfl fun c _ => ?_
      split_ifs with hc
      · rfl
      · simp [h, hc]
    rw [Finset.sum_congr rfl fun id _ => h1 id, sum_blocks]
    have h2 : ∀ i, h i = if i < P then h i else 0 := by
      intro i; by_cases hi : i < P <;> simp [h, hi]
    rw [Finset.sum_congr rfl fun i _ => h2 i, sum_ext h P _ hPn, ← Fin.sum_univ_eq_sum_range]
    exact Finset.sum_congr rfl fun j _ => by simp [h]

theorem nullBasis_eq (hk : k = 1 ∨ k = 2) (a : Fin k) (r : Row dev m k) : nullBasis k a r = if a = r.2.2 then 1 else 0 := by
  rcases hk with rfl | rfl
  · have : a = r.2.2 := Subsingleton.elim _ _
    simp [nullBasis, this, Nat.mod_one]
  · obtain ⟨d, i, p⟩ := r
    unfold nullBasis
    fin_cases a <;> fin_cases p <;> simp [Nat.add_mod]

theorem meanVec_mul (hk : k = 1 ∨ k = 2) (clip : Option ℝ) (raw : Raw dev m k P) (hd : 0 < dev) (hm : 0 < m) :
    (meanVec : Matrix (Fin k) (Row dev m k) ℝ) * Spec.O clip raw = 0 := by
  ext a j
  have h := centred clip raw hd hm a j
  simp only [Matrix.mul_apply, meanVec, Matrix.zero_apply, nullBasis_eq hk, Fintype.sum_prod_type]
  have : ∀ (d : Fin dev) (i : Fin m), ∑ p : Fin k, (if a = p then (1 : ℝ) else 0) / √((m * dev : ℕ) : ℝ) * Spec.O clip raw (d, i, p) j =
      Spec.O clip raw (d, i, a) j / √((m * dev : ℕ) : ℝ) := by
    intro d i
    rw [Finset.sum_eq_single a]
    · simp [div_eq_mul_inv, mul_comm]
    · intro b _ hb; simp [Ne.symm hb]
    · simp
  simp only [this, ← Finset.sum_div, h, zero_div]

theorem lift_eq (hk : k = 1 ∨ k = 2) (clip : Option ℝ) (raw : Raw dev m k P) (hd : 0 < dev) (hm : 0 < m)
    (D : Matrix (Fin P) (Fin P) ℝ) :
    lift (Spec.O clip raw * D * (Spec.O clip raw)ᵀ) =
      Spec.O clip raw * D * (Spec.O clip raw)ᵀ + (meanVec : Matrix (Fin k) (Row dev m k) ℝ)ᵀ * meanVec := by
  have h0 := meanVec_mul hk clip raw hd hm
  have h1 : Spec.O clip raw * D * (Spec.O clip raw)ᵀ * (meanVec : Matrix (Fin k) (Row dev m k) ℝ)ᵀ = 0 := by
    rw [Matrix.mul_assoc, ← Matrix.transpose_mul, h0]; simp
  simp only [lift, h1, Matrix.zero_mul, Matrix.mul_zero, Matrix.transpose_zero, sub_zero, add_zero]
  congr 1
  ext r t
  simp only [Matrix.mul_apply, Matrix.transpose_apply, meanVec]
  rw [Finset.sum_div]
  refine Finset.sum_congr rfl fun a _ => ?_
  rw [div_mul_div_comm, Real.mul_self_sqrt (by positivity)]

theorem lift_posSemidef (O : Matrix (Row dev m k) (Fin P) ℝ) (d : Fin P → ℝ) (hd : ∀ j, 0 ≤ d j) :
    (O * diagonal d * Oᵀ + (meanVec : Matrix (Fin k) (Row dev m k) ℝ)ᵀ * meanVec).PosSemidef := by
  refine PosSemidef.add ?_ ?_
  · have := (PosSemidef.diagonal (show 0 ≤ d from hd)).mul_mul_conjTranspose_same O
    simpa [Matrix.conjTranspose_eq_transpose_of_trivial] using this
  · have := posSemidef_conjTranspose_mul_self (meanVec : Matrix (Fin k) (Row dev m k) ℝ)
    simpa [Matrix.conjTranspose_eq_transpose_of_trivial] using this

/-- The kernel form of the step equals the step in parameter space. -/
theorem kernel {ι κ : Type} [Fintype ι] [DecidableEq ι] [Fintype κ] [DecidableEq κ] (O : Matrix ι κ ℝ) (d : κ → ℝ)
    (hd : ∀ j, 0 < d j) (E : Matrix ι ι ℝ) (hE : E * O = 0) (hEs : E.PosSemidef) (lam gamma : ℝ) (hl : 0 < lam) (g p : κ → ℝ) :
    let F := O * diagonal d * Oᵀ + E + lam • (1 : Matrix ι ι ℝ)
    let S := Oᵀ * O
    let M : Matrix κ κ ℝ := diagonal fun j => (d j)⁻¹
    let w := F⁻¹ *ᵥ (O *ᵥ (diagonal d *ᵥ g))
    let z := F⁻¹ *ᵥ (gamma • (O *ᵥ (diagonal d *ᵥ g)) + O *ᵥ p - (1 - gamma * lam) • w)
    gamma • (diagonal d *ᵥ g) + p - diagonal d *ᵥ (Oᵀ *ᵥ z) =
      (S + lam • M)⁻¹ *ᵥ ((S + (gamma * lam ^ 2) • M) *ᵥ ((S + lam • M)⁻¹ *ᵥ g) + lam • (M *ᵥ p)) ∧
    (S + lam • M).PosDef ∧ F.PosDef := by
  intro F S M w z
  have hM : M.PosDef := PosDef.diagonal fun j => inv_pos.2 (hd j)
  have hS : S.PosSemidef := by
    have := posSemidef_conjTranspose_mul_self O
    simpa [Matrix.conjTranspose_eq_transpose_of_trivial] using this
  have hA : (S + lam • M).PosDef := PosDef.posSemidef_add hS (hM.smul hl)
  have hF : F.PosDef := by
    refine PosDef.posSemidef_add ?_ (PosDef.one.smul hl)
    refine PosSemidef.add ?_ hEs
    have := (PosSemidef.diagonal (show 0 ≤ d from fun j => (hd j).le)).mul_mul_conjTranspose_same O
    simpa [Matrix.conjTranspose_eq_transpose_of_trivial] using this
  refine ⟨?_, hA, hF⟩
  set A := S + lam • M with hAdef
  set D : Matrix κ κ ℝ := diagonal d with hD
  have hDM : D * M = 1 := by
    simp only [hD, M, diagonal_mul_diagonal]
    rw [← diagonal_one]; congr 1; funext j; exact mul_inv_cancel₀ (hd j).ne'
  have hAi : A * A⁻¹ = 1 := mul_nonsing_inv _ ((Matrix.isUnit_iff_isUnit_det _).1 hA.isUnit)
  have hAi' : A⁻¹ * A = 1 := nonsing_inv_mul _ ((Matrix.isUnit_iff_isUnit_det _).1 hA.isUnit)
  have hFi : F⁻¹ * F = 1 := nonsing_inv_mul _ ((Matrix.isUnit_iff_isUnit_det _).1 hF.isUnit)
  have hFO : F * O = O * (D * A) := by
    have h1 : F = O * D * Oᵀ + E + lam • (1 : Matrix ι ι ℝ) := rfl
    have h2 : D * A = D * (Oᵀ * O) + lam • (1 : Matrix κ κ ℝ) := by
      rw [hAdef, Matrix.mul_add, Matrix.mul_smul, hDM]
    rw [h1, h2, Matrix.add_mul, Matrix.add_mul, hE, add_zero, Matrix.mul_add, Matrix.mul_smul, Matrix.smul_mul, Matrix.one_mul,
      Matrix.mul_one, Matrix.mul_assoc, Matrix.mul_assoc]
  -- solving in sample space for a right-hand side in the range of the score
  have solve : ∀ v : κ → ℝ, F⁻¹ *ᵥ (O *ᵥ (D *ᵥ v)) = O *ᵥ (A⁻¹ *ᵥ v) := by
    intro v
    have : O *ᵥ (D *ᵥ v) = F *ᵥ (O *ᵥ (A⁻¹ *ᵥ v)) := by
      rw [mulVec_mulVec, mulVec_mulVec, hFO, mulVec_mulVec, Matrix.mul_assoc, Matrix.mul_assoc, hAi, Matrix.mul_one]
    rw [this, mulVec_mulVec, hFi, one_mulVec]
  have hw : w = O *ᵥ (A⁻¹ *ᵥ g) := solve g
  set y := A⁻¹ *ᵥ g with hy
  set r := gamma • g + M *ᵥ p - (1 - gamma * lam) • (M *ᵥ y) with hr
  have hDMv : ∀ v : κ → ℝ, D *ᵥ (M *ᵥ v) = v := fun v => by rw [mulVec_mulVec, hDM, one_mulVec]
  have hrhs : gamma • (O *ᵥ (D *ᵥ g)) + O *ᵥ p - (1 - gamma * lam) • w = O *ᵥ (D *ᵥ r) := by
    rw [hw, hr]
    simp only [mulVec_sub, mulVec_add, mulVec_smul, hDMv]
  have hz : z = O *ᵥ (A⁻¹ *ᵥ r) := by
    change F⁻¹ *ᵥ _ = _
    rw [hrhs, solve]
  set q := A⁻¹ *ᵥ r with hq
  have hAq : A *ᵥ q = r := by rw [hq, mulVec_mulVec, hAi, one_mulVec]
  have hAy : A *ᵥ y = g := by rw [hy, mulVec_mulVec, hAi, one_mulVec]
  have hSv : ∀ v, S *ᵥ v = A *ᵥ v - lam • (M *ᵥ v) := by
    intro v; rw [hAdef, add_mulVec, smul_mulVec]; abel
  have hDS : D *ᵥ (Oᵀ *ᵥ z) = D *ᵥ r - lam • q := by
    rw [hz, mulVec_mulVec (M := Oᵀ)]
    change D *ᵥ (S *ᵥ q) = _
    rw [hSv, hAq, mulVec_sub, mulVec_smul, hDMv]
  have hDr : D *ᵥ r = gamma • (D *ᵥ g) + p - (1 - gamma * lam) • y := by
    rw [hr]; simp only [mulVec_sub, mulVec_add, mulVec_smul, hDMv]
  have hdelta : gamma • (D *ᵥ g) + p - D *ᵥ (Oᵀ *ᵥ z) = (1 - gamma * lam) • y + lam • q := by
    rw [hDS, hDr]; abel
  rw [hdelta]
  have hAd : A *ᵥ ((1 - gamma * lam) • y + lam • q) = (S + (gamma * lam ^ 2) • M) *ᵥ y + lam • (M *ᵥ p) := by
    rw [mulVec_add, mulVec_smul, mulVec_smul, hAy, hAq, add_mulVec, hSv, hAy, smul_mulVec, hr]
    funext j
    simp only [Pi.add_apply, Pi.sub_apply, Pi.smul_apply, smul_eq_mul]
    ring
  rw [← hAd, mulVec_mulVec, hAi', one_mulVec]

end Jaqmc.SR.Lemmas
