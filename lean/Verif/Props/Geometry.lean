import Verif.Spec.Geometry
import Mathlib.Tactic.Ring
import Mathlib.Tactic.Linarith
import Mathlib.Tactic.FieldSimp
import Mathlib.Tactic.Positivity
import Mathlib.Tactic.NormNum
import Mathlib.Analysis.InnerProductSpace.PiL2
/-! # Geometry: C28-C33 -/
namespace Jaqmc.Geometry.Props
open Jaqmc.Geometry Jaqmc.Geometry.Spec Matrix
open scoped Classical

variable {d : Nat}

theorem norm_eq_length (v : Vec d) : norm v = length v := by
  unfold norm length
  congr 1
  apply Finset.sum_congr rfl; intro k _; ring

theorem latticeVec_eq (L : Matrix (Fin d) (Fin d) ℝ) (m : Fin d → ℤ) : latticeVec L m = translation L m := by
  funext k; rfl

theorem length_le {u v : Vec d} (h : ∀ k, |u k| ≤ |v k|) : length u ≤ length v := by
  unfold length
  apply Real.sqrt_le_sqrt
  apply Finset.sum_le_sum
  intro k _
  exact abs_le_iff_mul_self_le.1 (h k)

/-! ### C28 -/

theorem pmod_half_bound (x l : ℝ) (hl : l ≠ 0) : |pmod (x + l / 2) l - l / 2| ≤ |l| / 2 := by
  unfold pmod
  have h1 := Int.floor_le ((x + l / 2) / l)
  have h2 := Int.lt_floor_add_one ((x + l / 2) / l)
  have e : (x + l / 2) / l = x / l + 1 / 2 := by field_simp
  have key : x + l / 2 - l * ⌊(x + l / 2) / l⌋ - l / 2 = l * (x / l - ⌊(x + l / 2) / l⌋) := by
    field_simp; ring
  rw [key, abs_mul]
  rw [e] at h1 h2 ⊢
  have : |x / l - (⌊x / l + 1 / 2⌋ : ℝ)| ≤ 1 / 2 := by
    rw [abs_le]; constructor <;> linarith
  calc |l| * _ ≤ |l| * (1 / 2) := mul_le_mul_of_nonneg_left this (abs_nonneg _)
    _ = |l| / 2 := by ring

theorem half_min (y l : ℝ) (h : |y| ≤ |l| / 2) (m : ℤ) : |y| ≤ |y + l * m| := by
  by_cases hm : m = 0
  · rw [hm]; simp
  · have h1 : (1 : ℝ) ≤ |(m : ℝ)| := by
      have : (1 : ℤ) ≤ |m| := Int.one_le_abs hm
      exact_mod_cast this
    have h2 : |l| ≤ |l * m| := by
      rw [abs_mul]; exact le_mul_of_one_le_right (abs_nonneg _) h1
    have h3 : |l * m| ≤ |y + l * m| + |y| := by
      have := abs_sub (y + l * m) y
      rw [add_sub_cancel_left] at this
      exact this
    linarith

theorem diag_translation (L : Matrix (Fin d) (Fin d) ℝ) (h : ∀ i j, i ≠ j → L i j = 0) (m : Fin d → ℤ) (k : Fin d) :
    translation L m k = L k k * m k := by
  unfold translation
  rw [Finset.sum_eq_single k]
  · ring
  · intro i _ hi; rw [h i k hi]; ring
  · simp

theorem isDiagonal_of (L : Matrix (Fin d) (Fin d) ℝ) (h : ∀ i j, i ≠ j → L i j = 0) : isDiagonal L := by
  intro i j
  split
  next e => subst e; norm_num
  next e => rw [h i j e]; norm_num

theorem pmod_add_mul (x l : ℝ) (hl : l ≠ 0) (m : ℤ) : pmod (x + l * m) l = pmod x l := by
  unfold pmod
  have : (x + l * m) / l = x / l + m := by field_simp
  rw [this, Int.floor_add_intCast]
  push_cast; ring

/-- C28: in a cell with diagonal lattice matrix (any signs, no zero) the displacement returned for a pair of
positions is a shortest periodic image of their difference and the distance is its length; both stay the same
when either particle is moved by a lattice translation. -/
theorem c28_diagonal (L : Matrix (Fin d) (Fin d) ℝ) (h : ∀ i j, i ≠ j → L i j = 0) (h0 : ∀ i, L i i ≠ 0)
    (ra rb : Vec d) :
    Shortest L (fun k => ra k - rb k) (minImage L ra rb).1 ∧ (minImage L ra rb).2 = length (minImage L ra rb).1 ∧
    ∀ m m', minImage L (fun k => ra k + translation L m k) (fun k => rb k + translation L m' k) = minImage L ra rb := by
  have hd := isDiagonal_of L h
  have e1 : ∀ ra rb : Vec d, minImage L ra rb
      = (dispDiagonal L (fun k => ra k - rb k), norm (dispDiagonal L (fun k => ra k - rb k))) := by
    intro ra rb; unfold minImage; dsimp only; rw [if_pos hd]
  refine ⟨⟨?_, ?_⟩, ?_, ?_⟩
  · rw [e1]
    refine ⟨fun k => -⌊(ra k - rb k + L k k / 2) / L k k⌋, fun k => ?_⟩
    rw [diag_translation L h]
    simp only [dispDiagonal, pmod]
    push_cast; ring
  · rintro w ⟨m, hw⟩
    rw [e1]
    apply length_le
    intro k
    have hb := pmod_half_bound (ra k - rb k) (L k k) (h0 k)
    have := half_min _ _ hb (m k + ⌊(ra k - rb k + L k k / 2) / L k k⌋)
    rw [hw k, diag_translation L h]
    simp only [dispDiagonal]
    refine le_trans this (le_of_eq ?_)
    congr 1
    simp only [pmod]
    push_cast; ring
  · rw [e1]; exact norm_eq_length _
  · intro m m'
    rw [e1, e1]
    have : dispDiagonal L (fun k => (ra k + translation L m k) - (rb k + translation L m' k))
        = dispDiagonal L (fun k => ra k - rb k) := by
      funext k
      simp only [dispDiagonal]
      rw [diag_translation L h, diag_translation L h]
      have : ra k + L k k * m k - (rb k + L k k * m' k) + L k k / 2
          = (ra k - rb k + L k k / 2) + L k k * ((m k - m' k : ℤ) : ℝ) := by push_cast; ring
      rw [this, pmod_add_mul _ _ (h0 k)]
    simp only [this]

/-- A left-handed orthorhombic cell in three dimensions meets the hypotheses of `c28_diagonal`. -/
example : ∃ L : Matrix (Fin 3) (Fin 3) ℝ, (∀ i j, i ≠ j → L i j = 0) ∧ (∀ i, L i i ≠ 0) ∧ L 0 0 = 2 ∧ L 2 2 = -3 := by
  refine ⟨Matrix.diagonal ![2, 1, -3], ?_, ?_, ?_, ?_⟩
  · intro i j hij; exact Matrix.diagonal_apply_ne _ hij
  · intro i; fin_cases i <;> simp
  · simp
  · simp

/-! ### C29 -/

theorem mem_points (m : Fin d → ℤ) : m ∈ points d ↔ ∀ i, m i = -1 ∨ m i = 0 ∨ m i = 1 := by
  unfold points
  simp only [List.mem_map, Finset.mem_toList, Finset.mem_univ, true_and]
  constructor
  · rintro ⟨q, rfl⟩ i
    have h := (q i).isLt
    have : (q i : ℕ) = 0 ∨ (q i : ℕ) = 1 ∨ (q i : ℕ) = 2 := by omega
    dsimp only
    rcases this with h | h | h <;> rw [h] <;> simp
  · intro h
    refine ⟨fun i => ⟨(m i + 1).toNat, ?_⟩, ?_⟩
    · rcases h i with e | e | e <;> rw [e] <;> decide
    · funext i
      dsimp only
      rcases h i with e | e | e <;> rw [e] <;> decide

/-- The general branch returns a shortest one of the images `diff + Σ m_i a_i` with all `m_i` in `{-1,0,1}`. -/
theorem dispGeneral_spec (L : Matrix (Fin d) (Fin d) ℝ) (diff : Vec d) :
    (∃ m : Fin d → ℤ, (∀ i, m i = -1 ∨ m i = 0 ∨ m i = 1) ∧ ∀ k, dispGeneral L diff k = diff k + translation L m k) ∧
    ∀ m : Fin d → ℤ, (∀ i, m i = -1 ∨ m i = 0 ∨ m i = 1) →
      length (dispGeneral L diff) ≤ length (fun k => diff k + translation L m k) := by
  have hz : (fun _ => 0 : Fin d → ℤ) ∈ points d := (mem_points _).2 (fun _ => Or.inr (Or.inl rfl))
  unfold dispGeneral
  dsimp only
  generalize hall : (points d).map (fun m => fun k => diff k + latticeVec L m k) = all
  have hne : all ≠ [] := by
    rw [← hall]
    intro h0
    rw [List.map_eq_nil_iff] at h0
    rw [h0] at hz; simp at hz
  obtain ⟨v, hv⟩ : ∃ v, all.argmin norm = some v := by
    cases hm : all.argmin norm with
    | none => rw [List.argmin_eq_none] at hm; exact absurd hm hne
    | some v => exact ⟨v, rfl⟩
  rw [hv]
  constructor
  · have := List.argmin_mem hv
    rw [← hall, List.mem_map] at this
    obtain ⟨m, hm, rfl⟩ := this
    exact ⟨m, (mem_points m).1 hm, fun k => rfl⟩
  · intro m hm
    have hmem : (fun k => diff k + latticeVec L m k) ∈ all := by
      rw [← hall]; exact List.mem_map.2 ⟨m, (mem_points m).2 hm, rfl⟩
    have := List.le_of_mem_argmin hmem hv
    rw [norm_eq_length, norm_eq_length] at this
    exact this

/-- C29, what is always true: in a cell handled by the general branch, the displacement is an image of the
difference and a shortest one among the images one cell away at most. -/
theorem c29_nearby_partial (L : Matrix (Fin d) (Fin d) ℝ) (hd : ¬ isDiagonal L) (ho : ¬ isOrthogonal L) (ra rb : Vec d) :
    (minImage L ra rb).2 = length (minImage L ra rb).1 ∧
    (∃ m : Fin d → ℤ, (∀ i, m i = -1 ∨ m i = 0 ∨ m i = 1) ∧
      ∀ k, (minImage L ra rb).1 k = (ra k - rb k) + translation L m k) ∧
    ∀ m : Fin d → ℤ, (∀ i, m i = -1 ∨ m i = 0 ∨ m i = 1) →
      length (minImage L ra rb).1 ≤ length (fun k => (ra k - rb k) + translation L m k) := by
  have e1 : minImage L ra rb
      = (dispGeneral L (fun k => ra k - rb k), norm (dispGeneral L (fun k => ra k - rb k))) := by
    unfold minImage; dsimp only; rw [if_neg hd, if_neg ho]
  rw [e1]
  obtain ⟨h1, h2⟩ := dispGeneral_spec L (fun k => ra k - rb k)
  exact ⟨norm_eq_length _, h1, h2⟩

theorem length_add_le (u v : Vec d) : length (fun k => u k + v k) ≤ length u + length v := by
  unfold length
  have h := norm_add_le (WithLp.toLp 2 u : EuclideanSpace ℝ (Fin d)) (WithLp.toLp 2 v)
  simp only [EuclideanSpace.norm_eq] at h
  simpa [sq_abs, pow_two] using h

theorem length_neg (u : Vec d) : length (fun k => -u k) = length u := by
  unfold length; simp

/-- C29 for any cell, when the distance found is at most half the length of every non-zero lattice
translation: then it is the shortest among *all* images. -/
theorem c29_inscribed_partial (L : Matrix (Fin d) (Fin d) ℝ) (hd : ¬ isDiagonal L) (ho : ¬ isOrthogonal L) (ra rb : Vec d)
    (hin : ∀ m : Fin d → ℤ, m ≠ 0 → 2 * (minImage L ra rb).2 ≤ length (translation L m)) :
    Shortest L (fun k => ra k - rb k) (minImage L ra rb).1 := by
  obtain ⟨h1, ⟨m, hm, hk⟩, h3⟩ := c29_nearby_partial L hd ho ra rb
  refine ⟨⟨m, hk⟩, ?_⟩
  rintro w ⟨q, hw⟩
  rw [h1] at hin
  by_cases hq : q = m
  · apply le_of_eq
    congr 1
    funext k
    rw [hk, hw, hq]
  · have h4 := hin (q - m) (by intro h0; exact hq (by rw [← sub_eq_zero]; exact h0))
    have e : translation L (q - m) = fun k => w k + -(minImage L ra rb).1 k := by
      funext k
      rw [hw, hk]
      unfold translation
      simp only [Pi.sub_apply, Int.cast_sub]
      rw [show ∑ i, ((q i : ℝ) - (m i : ℝ)) * L i k = ∑ i, ((q i : ℝ) * L i k - (m i : ℝ) * L i k) from
        Finset.sum_congr rfl (fun i _ => by ring), Finset.sum_sub_distrib]
      ring
    have h5 := length_add_le w (fun k => -(minImage L ra rb).1 k)
    rw [length_neg] at h5
    rw [e] at h4
    linarith

theorem comb_sq (L : Matrix (Fin d) (Fin d) ℝ) (ho : ∀ i j, i ≠ j → ∑ k, L i k * L j k = 0) (c : Fin d → ℝ) :
    ∑ k, (∑ i, c i * L i k) * (∑ i, c i * L i k) = ∑ i, c i * c i * ∑ k, L i k * L i k := by
  have : ∀ k, (∑ i, c i * L i k) * (∑ i, c i * L i k) = ∑ i, ∑ j, c i * c j * (L i k * L j k) := by
    intro k
    rw [Finset.sum_mul_sum]
    apply Finset.sum_congr rfl; intro i _
    apply Finset.sum_congr rfl; intro j _
    ring
  rw [Finset.sum_congr rfl (fun k _ => this k), Finset.sum_comm]
  apply Finset.sum_congr rfl; intro i _
  rw [Finset.sum_comm, Finset.sum_eq_single i]
  · rw [← Finset.mul_sum]
  · intro j _ hj
    rw [← Finset.mul_sum, ho i j (Ne.symm hj)]; ring
  · simp

/-- C29 for rotated orthogonal cells (the rows are orthogonal to each other) and positions whose difference has
lattice coefficients between -3/2 and 3/2, in particular any two positions in the home cell: the displacement is a
shortest one among all images. -/
theorem c29_orthogonal_partial (L : Matrix (Fin d) (Fin d) ℝ) (hd : ¬ isDiagonal L) (hno : ¬ isOrthogonal L)
    (ho : ∀ i j, i ≠ j → ∑ k, L i k * L j k = 0) (ra rb : Vec d) (f : Fin d → ℝ)
    (hf : ∀ k, ra k - rb k = ∑ i, f i * L i k) (hb : ∀ i, |f i| ≤ 3 / 2) :
    Shortest L (fun k => ra k - rb k) (minImage L ra rb).1 := by
  obtain ⟨h1, ⟨m, hm, hk⟩, h3⟩ := c29_nearby_partial L hd hno ra rb
  refine ⟨⟨m, hk⟩, ?_⟩
  have hlen : ∀ q : Fin d → ℤ, length (fun k => (ra k - rb k) + translation L q k)
      = Real.sqrt (∑ i, (f i + q i) * (f i + q i) * ∑ k, L i k * L i k) := by
    intro q
    unfold length
    congr 1
    rw [← comb_sq L ho (fun i => f i + q i)]
    apply Finset.sum_congr rfl; intro k _
    dsimp only
    rw [hf k]
    unfold translation
    rw [← Finset.sum_add_distrib]
    have : ∀ i, f i * L i k + (q i : ℝ) * L i k = (f i + q i) * L i k := fun i => by ring
    simp only [this]
  rintro w ⟨q, hw⟩
  have hbest : ∃ b : Fin d → ℤ, (∀ i, b i = -1 ∨ b i = 0 ∨ b i = 1) ∧ ∀ i, |f i + b i| ≤ 1 / 2 := by
    have : ∀ i, ∃ b : ℤ, (b = -1 ∨ b = 0 ∨ b = 1) ∧ |f i + b| ≤ 1 / 2 := by
      intro i
      have := abs_le.1 (hb i)
      by_cases c1 : f i < -(1 / 2)
      · exact ⟨1, by simp, by rw [abs_le]; push_cast; constructor <;> linarith⟩
      · by_cases c2 : 1 / 2 < f i
        · exact ⟨-1, by simp, by rw [abs_le]; push_cast; constructor <;> linarith⟩
        · exact ⟨0, by simp, by rw [abs_le]; push_cast; constructor <;> linarith⟩
    choose b hb1 hb2 using this
    exact ⟨b, hb1, hb2⟩
  obtain ⟨b, hb1, hb2⟩ := hbest
  have hwe : w = fun k => (ra k - rb k) + translation L q k := funext hw
  refine le_trans (h3 b hb1) ?_
  rw [hwe, hlen, hlen]
  apply Real.sqrt_le_sqrt
  apply Finset.sum_le_sum
  intro i _
  apply mul_le_mul_of_nonneg_right
  · rw [← abs_le_iff_mul_self_le]
    have := half_min (f i + b i) 1 (by simpa using hb2 i) (q i - b i)
    refine le_trans this (le_of_eq ?_)
    congr 1; push_cast; ring
  · exact Finset.sum_nonneg (fun k _ => mul_self_nonneg _)

/-- The square lattice turned by 90 degrees. -/
def rotated : Matrix (Fin 2) (Fin 2) ℝ := !![0, 1; -1, 0]

/-- A skewed cell. -/
noncomputable def skewed : Matrix (Fin 2) (Fin 2) ℝ := !![1, 0; 5 / 2, 1]

theorem rotated_general : ¬ isDiagonal rotated ∧ ¬ isOrthogonal rotated := by
  constructor
  · intro h
    have := h 0 1
    simp [rotated] at this
    norm_num at this
  · intro h
    have := h 0 0 (le_refl _)
    simp [rotated, Matrix.mul_apply, Fin.sum_univ_two] at this
    norm_num at this

theorem skewed_general : ¬ isDiagonal skewed ∧ ¬ isOrthogonal skewed := by
  constructor
  · intro h
    have := h 1 0
    simp [skewed] at this
    norm_num at this
  · intro h
    have := h 0 0 (le_refl _)
    simp [skewed, Matrix.mul_apply, Fin.sum_univ_two] at this
    norm_num at this

/-- C29 fails for positions that are not wrapped (here two cells apart): not a shortest image, and not invariant
under lattice translations. -/
theorem c29_far :
    ¬ Shortest rotated (fun k => ![(0 : ℝ), 2] k - ![0, 0] k) (minImage rotated ![0, 2] ![0, 0]).1 ∧
    ∃ m, (minImage rotated (fun k => ![(0 : ℝ), 2] k + translation rotated m k) ![0, 0]).2
      ≠ (minImage rotated ![0, 2] ![0, 0]).2 := by
  obtain ⟨hd, ho⟩ := rotated_general
  obtain ⟨h1, ⟨m, hm, hk⟩, h3⟩ := c29_nearby_partial rotated hd ho ![0, 2] ![0, 0]
  have hge : 1 ≤ length (minImage rotated ![0, 2] ![0, 0]).1 := by
    unfold length
    rw [Real.one_le_sqrt, Fin.sum_univ_two, hk 0, hk 1]
    simp only [translation, Fin.sum_univ_two, rotated]
    rcases hm 0 with e | e | e <;> rw [e] <;> simp <;> nlinarith [sq_nonneg ((m 1 : ℝ))]
  have hz : length (fun _ : Fin 2 => (0 : ℝ)) = 0 := by simp [length]
  constructor
  · rintro ⟨_, h⟩
    have := h (fun _ => 0) ⟨![-2, 0], by
      intro k; fin_cases k <;> simp [translation, rotated]⟩
    rw [hz] at this
    linarith
  · refine ⟨![-2, 0], ?_⟩
    have e : (fun k => ![(0 : ℝ), 2] k + translation rotated ![-2, 0] k) = ![0, 0] := by
      funext k; fin_cases k <;> simp [translation, rotated]
    rw [e]
    obtain ⟨g1, _, g3⟩ := c29_nearby_partial rotated hd ho ![0, 0] ![0, 0]
    have := g3 (fun _ => 0) (fun _ => Or.inr (Or.inl rfl))
    have e0 : (fun k => (![(0 : ℝ), 0] k - ![0, 0] k) + translation rotated (fun _ => 0) k) = fun _ => 0 := by
      funext k; fin_cases k <;> simp [translation]
    rw [e0, hz] at this
    rw [g1, h1]
    intro hc
    linarith

/-- C29 fails in a skewed cell even for two positions inside the home cell: the shortest image is two lattice
vectors away and is not looked at. -/
theorem c29_skewed :
    InCell skewed ![43 / 20, 1 / 2] ∧ InCell skewed ![0, 0] ∧
    ¬ Shortest skewed (fun k => ![(43 / 20 : ℝ), 1 / 2] k - ![0, 0] k) (minImage skewed ![43 / 20, 1 / 2] ![0, 0]).1 := by
  obtain ⟨hd, ho⟩ := skewed_general
  refine ⟨⟨![9 / 10, 1 / 2], ?_, ?_⟩, ⟨![0, 0], ?_, ?_⟩, ?_⟩
  · intro i; fin_cases i <;> norm_num
  · intro k; fin_cases k <;> simp [skewed, Fin.sum_univ_two] <;> norm_num
  · intro i; fin_cases i <;> norm_num
  · intro k; fin_cases k <;> simp [skewed, Fin.sum_univ_two]
  · obtain ⟨h1, ⟨m, hm, hk⟩, h3⟩ := c29_nearby_partial skewed hd ho ![43 / 20, 1 / 2] ![0, 0]
    rintro ⟨_, h⟩
    have hw := h ![3 / 20, 1 / 2] ⟨![-2, 0], by
      intro k; fin_cases k <;> simp [translation, skewed, Fin.sum_univ_two] <;> norm_num⟩
    unfold length at hw
    rw [Real.sqrt_le_sqrt_iff (Finset.sum_nonneg (fun k _ => mul_self_nonneg _)), Fin.sum_univ_two, Fin.sum_univ_two, hk 0, hk 1] at hw
    simp only [translation, Fin.sum_univ_two, skewed] at hw
    rcases hm 0 with e | e | e <;> rcases hm 1 with e' | e' | e' <;> rw [e, e'] at hw <;>
      norm_num at hw

/-! ### C30 -/

theorem pmod_one (x : ℝ) : pmod x 1 = Int.fract x := by
  unfold pmod Int.fract; simp

theorem vecMul_inv (L : Matrix (Fin d) (Fin d) ℝ) (h : IsUnit L.det) (v : Vec d) : (v ᵥ* L) ᵥ* L⁻¹ = v := by
  rw [Matrix.vecMul_vecMul, Matrix.mul_nonsing_inv L h, Matrix.vecMul_one]

theorem vecMul_inv' (L : Matrix (Fin d) (Fin d) ℝ) (h : IsUnit L.det) (v : Vec d) : (v ᵥ* L⁻¹) ᵥ* L = v := by
  rw [Matrix.vecMul_vecMul, Matrix.nonsing_inv_mul L h, Matrix.vecMul_one]

theorem vecMul_apply' (L : Matrix (Fin d) (Fin d) ℝ) (v : Vec d) (k : Fin d) : (v ᵥ* L) k = ∑ i, v i * L i k := rfl

theorem wrap_translate (L : Matrix (Fin d) (Fin d) ℝ) (h : IsUnit L.det) (p : Vec d) (m : Fin d → ℤ) :
    wrap L (fun k => p k + translation L m k) = wrap L p := by
  unfold wrap
  have e : (fun k => p k + translation L m k) = p + (fun i => (m i : ℝ)) ᵥ* L := rfl
  rw [e, Matrix.add_vecMul, vecMul_inv L h]
  congr 1
  funext i
  rw [pmod_one, pmod_one, Pi.add_apply, Int.fract_add_intCast]

/-- C30: for an invertible lattice the wrapped position lies in the home cell and is a periodic image of the
position; wrapping again changes nothing, and all periodic images wrap to the same position. -/
theorem c30_wrap (L : Matrix (Fin d) (Fin d) ℝ) (h : IsUnit L.det) (p : Vec d) :
    InCell L (wrap L p) ∧ Image L p (wrap L p) ∧ wrap L (wrap L p) = wrap L p ∧
    ∀ m, wrap L (fun k => p k + translation L m k) = wrap L p := by
  have himg : ∃ m : Fin d → ℤ, wrap L p = fun k => p k + translation L m k := by
    refine ⟨fun i => -⌊(p ᵥ* L⁻¹) i⌋, ?_⟩
    have h1 : wrap L p = (p ᵥ* L⁻¹ + fun i => ((-⌊(p ᵥ* L⁻¹) i⌋ : ℤ) : ℝ)) ᵥ* L := by
      unfold wrap
      congr 1
      funext i
      rw [pmod_one, Int.fract, Pi.add_apply]
      push_cast; ring
    rw [h1, Matrix.add_vecMul, vecMul_inv' L h]
    rfl
  refine ⟨⟨fun i => Int.fract ((p ᵥ* L⁻¹) i), fun i => ⟨Int.fract_nonneg _, Int.fract_lt_one _⟩, fun k => ?_⟩, ?_, ?_,
    wrap_translate L h p⟩
  · unfold wrap
    rw [vecMul_apply']
    simp only [pmod_one]
  · obtain ⟨m, hm⟩ := himg
    exact ⟨m, fun k => by rw [hm]⟩
  · obtain ⟨m, hm⟩ := himg
    conv_lhs => rw [hm]
    exact wrap_translate L h p m

/-- C30: two positions wrap to the same one exactly when they are periodic images of each other. -/
theorem c30_separates (L : Matrix (Fin d) (Fin d) ℝ) (h : IsUnit L.det) (p q : Vec d) :
    wrap L p = wrap L q ↔ Image L p q := by
  constructor
  · intro he
    obtain ⟨m, hm⟩ := (c30_wrap L h p).2.1
    obtain ⟨m', hm'⟩ := (c30_wrap L h q).2.1
    refine ⟨m - m', fun k => ?_⟩
    have e1 := hm k
    have e2 := hm' k
    rw [he, e2] at e1
    have : translation L (m - m') k = translation L m k - translation L m' k := by
      unfold translation
      rw [← Finset.sum_sub_distrib]
      apply Finset.sum_congr rfl; intro i _
      simp only [Pi.sub_apply, Int.cast_sub]; ring
    rw [this]; linarith
  · rintro ⟨m, hm⟩
    rw [show q = fun k => p k + translation L m k from funext hm, wrap_translate L h]

/-- C30 for the periodic proposal: whatever the noise and the width, the proposed position lies in the home cell
and is a periodic image of the unwrapped Gaussian move. -/
theorem c30_proposal (L : Matrix (Fin d) (Fin d) ℝ) (h : IsUnit L.det) (stddev : ℝ) (noise x : Vec d) :
    InCell L (pbcProposal L stddev noise x) ∧
    Image L (fun k => x k + noise k * stddev) (pbcProposal L stddev noise x) := by
  obtain ⟨h1, h2, _, _⟩ := c30_wrap L h (fun k => x k + noise k * stddev)
  exact ⟨h1, h2⟩

example : IsUnit skewed.det := by
  simp [skewed, Matrix.det_fin_two]

/-! ### C32 -/

/-- C32: within one species the displacement of `i` from `j` is `x_i - x_j`, antisymmetric; the distance is its
length, in particular symmetric and zero on the diagonal. -/
theorem c32_within {n : Nat} (pos : Fin n → Vec d) (i j : Fin n) :
    (∀ k, (pairWithin pos).1 i j k = pos i k - pos j k) ∧
    (∀ k, (pairWithin pos).1 i j k = -(pairWithin pos).1 j i k) ∧
    (pairWithin pos).2 i j = length (fun k => pos i k - pos j k) ∧
    (pairWithin pos).2 i j = (pairWithin pos).2 j i ∧ (pairWithin pos).2 i i = 0 := by
  have key : ∀ i j, (pairWithin pos).2 i j = length (fun k => pos i k - pos j k) := by
    intro i j
    unfold pairWithin
    dsimp only
    by_cases h : i = j
    · subst h; simp [length]
    · simp only [if_neg h]
      rw [norm_eq_length]
      simp
  refine ⟨fun k => rfl, fun k => by simp [pairWithin], key i j, ?_, ?_⟩
  · rw [key, key, ← length_neg]
    congr 1; funext k; ring
  · rw [key]; simp [length]

/-- C32: between two species the displacement is electron minus atom and the distance its length. -/
theorem c32_between {n m : Nat} (a : Fin n → Vec d) (b : Fin m → Vec d) (i : Fin n) (j : Fin m) :
    (∀ k, (pairBetween a b).1 i j k = a i k - b j k) ∧
    (pairBetween a b).2 i j = length (fun k => a i k - b j k) :=
  ⟨fun _ => rfl, norm_eq_length _⟩

end Jaqmc.Geometry.Props
