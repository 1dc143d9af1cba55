import Verif.Model.Presets
import Verif.Spec.Presets
import Mathlib.Analysis.SpecialFunctions.Trigonometric.Bounds
import Mathlib.LinearAlgebra.Matrix.Determinant.Basic
import Mathlib.LinearAlgebra.Matrix.Notation
/-!
C111: the geometry builders for crystals.
-/
namespace Jaqmc.Presets.Props
open Jaqmc.Presets Jaqmc.Presets.Spec Jaqmc.Geometry
open Jaqmc.MolEnergy (angstromInBohr)

/-- An angle is used as given: it is 90 or -90 degrees, or more than `1e-12` away. -/
def Exact (θ : ℝ) : Prop := |θ| = 90 ∨ 1e-12 < |(|θ| - 90)|

theorem cosd_eq {θ : ℝ} (h : Exact θ) : cosd θ = cosDeg θ := by
  unfold cosd cosDeg near90 rad
  rcases h with h | h
  · rw [if_pos (by rw [h]; norm_num)]
    rcases abs_eq (by norm_num : (0 : ℝ) ≤ 90) |>.mp h with rfl | rfl
    · rw [show (90 : ℝ) * Real.pi / 180 = Real.pi / 2 by ring, Real.cos_pi_div_two]
    · rw [show (-90 : ℝ) * Real.pi / 180 = -(Real.pi / 2) by ring, Real.cos_neg, Real.cos_pi_div_two]
  · rw [if_neg (not_le.mpr h)]

theorem sind_eq {θ : ℝ} (h : Exact θ) : sind θ = Real.sin (θ * Real.pi / 180) := by
  unfold sind near90 rad
  rcases h with h | h
  · rw [if_pos (by rw [h]; norm_num)]
    rcases abs_eq (by norm_num : (0 : ℝ) ≤ 90) |>.mp h with rfl | rfl
    · rw [if_pos (by norm_num), show (90 : ℝ) * Real.pi / 180 = Real.pi / 2 by ring, Real.sin_pi_div_two]
    · rw [if_neg (by norm_num), show (-90 : ℝ) * Real.pi / 180 = -(Real.pi / 2) by ring, Real.sin_neg, Real.sin_pi_div_two]
  · rw [if_neg (not_le.mpr h)]

/-- C111 (rounding of right angles): an angle within `1e-12` degrees of a right one is taken as right; the cosine changes by at most `3e-14`. -/
theorem c111_snap (θ : ℝ) : |cosd θ - cosDeg θ| ≤ 3e-14 := by
  unfold cosd cosDeg near90 rad
  split
  · rename_i h
    rw [zero_sub, abs_neg]
    have hb : |Real.cos (|θ| * Real.pi / 180)| ≤ |(|θ| - 90)| * Real.pi / 180 := by
      have : Real.cos (|θ| * Real.pi / 180) = -Real.sin ((|θ| - 90) * Real.pi / 180) := by
        rw [show (|θ| - 90) * Real.pi / 180 = |θ| * Real.pi / 180 - Real.pi / 2 by ring, Real.sin_sub_pi_div_two, neg_neg]
      rw [this, abs_neg]
      refine Real.abs_sin_le_abs.trans (le_of_eq ?_)
      rw [abs_div, abs_mul, abs_of_pos Real.pi_pos]
      norm_num
    have hc : Real.cos (|θ| * Real.pi / 180) = Real.cos (θ * Real.pi / 180) := by
      rcases abs_choice θ with h' | h' <;> rw [h']
      rw [show -θ * Real.pi / 180 = -(θ * Real.pi / 180) by ring, Real.cos_neg]
    rw [hc] at hb
    have := Real.pi_le_four
    have hp := Real.pi_pos
    refine hb.trans ?_
    have h0 := abs_nonneg (|θ| - 90)
    nlinarith
  · rw [sub_self, abs_zero]; norm_num

/-- C111 (cells): a cell that is accepted has the lengths and angles asked for. -/
theorem c111_cell (a b c α β γ : ℝ) (hα : Exact α) (hβ : Exact β) (hγ : Exact γ) (L : Cell) (h : toArray a b c α β γ = some L) :
    dot (L 0) (L 0) = a ^ 2 ∧ dot (L 1) (L 1) = b ^ 2 ∧ dot (L 2) (L 2) = c ^ 2 ∧
    dot (L 1) (L 2) = b * c * cosDeg α ∧ dot (L 0) (L 2) = a * c * cosDeg β ∧ dot (L 0) (L 1) = a * b * cosDeg γ := by
  unfold toArray at h
  simp only [cosd_eq hα, cosd_eq hβ, cosd_eq hγ, sind_eq hγ] at h
  split at h
  · cases h
  rename_i hs
  split at h
  · cases h
  rename_i hz
  have hz0 : 0 ≤ 1 - cosDeg β ^ 2 - ((cosDeg α - cosDeg β * cosDeg γ) / Real.sin (γ * Real.pi / 180)) ^ 2 := by
    by_contra h'
    exact hz (Or.inl (not_le.mp h'))
  have hsc : cosDeg γ ^ 2 + Real.sin (γ * Real.pi / 180) ^ 2 = 1 := by
    unfold cosDeg; rw [add_comm]; exact Real.sin_sq_add_cos_sq _
  obtain rfl := Option.some.inj h
  have hsq := Real.sq_sqrt hz0
  set s := Real.sin (γ * Real.pi / 180)
  set z := Real.sqrt (1 - cosDeg β ^ 2 - ((cosDeg α - cosDeg β * cosDeg γ) / s) ^ 2)
  set y := (cosDeg α - cosDeg β * cosDeg γ) / s with hy
  have hys : y * s = cosDeg α - cosDeg β * cosDeg γ := by rw [hy]; field_simp
  unfold dot
  simp only [Fin.sum_univ_three, Matrix.cons_val_zero, Matrix.cons_val_one, Matrix.cons_val]
  refine ⟨by ring, ?_, ?_, ?_, by ring, by ring⟩
  · linear_combination b ^ 2 * hsc
  · linear_combination c ^ 2 * hsq
  · linear_combination b * c * hys

/-- C111 (cells, acceptance): exactly the triples of angles spanning a cell whose normalised squared volume exceeds `1e-8 sin² γ` are
accepted; flat and impossible cells are refused, whatever the lengths. -/
theorem c111_accepted (a b c α β γ : ℝ) (hα : Exact α) (hβ : Exact β) (hγ : Exact γ) (hs : Real.sin (γ * Real.pi / 180) ≠ 0) :
    (toArray a b c α β γ).isSome ↔ 1e-8 * Real.sin (γ * Real.pi / 180) ^ 2 < gram α β γ := by
  unfold toArray
  simp only [cosd_eq hα, cosd_eq hβ, cosd_eq hγ, sind_eq hγ]
  rw [if_neg hs]
  have hsc : cosDeg γ ^ 2 + Real.sin (γ * Real.pi / 180) ^ 2 = 1 := by
    unfold cosDeg; rw [add_comm]; exact Real.sin_sq_add_cos_sq _
  have hp : 0 < Real.sin (γ * Real.pi / 180) ^ 2 := by positivity
  have hg : gram α β γ = (1 - cosDeg β ^ 2 - ((cosDeg α - cosDeg β * cosDeg γ) / Real.sin (γ * Real.pi / 180)) ^ 2) *
      Real.sin (γ * Real.pi / 180) ^ 2 := by
    unfold gram
    field_simp
    linear_combination (1 - cosDeg β ^ 2) * (-hsc)
  rw [hg, mul_lt_mul_iff_left₀ hp]
  generalize 1 - cosDeg β ^ 2 - ((cosDeg α - cosDeg β * cosDeg γ) / Real.sin (γ * Real.pi / 180)) ^ 2 = z
  split
  · rename_i h
    simp only [Option.isSome_none, Bool.false_eq_true, false_iff, not_lt]
    rcases h with h | h
    · linarith
    · exact (abs_le.mp h).2
  · rename_i h
    push Not at h
    simp only [Option.isSome_some, true_iff]
    rw [abs_of_nonneg h.1] at h
    exact h.2

/-- C111 (cells, orientation): with positive lengths and `0 < γ < 180` the cell is right-handed, with the volume `abc` times the root of
the Gram determinant. -/
theorem c111_volume (a b c α β γ : ℝ) (hα : Exact α) (hβ : Exact β) (hγ : Exact γ) (ha : 0 < a) (hb : 0 < b) (hc : 0 < c) (h0 : 0 < γ) (h180 : γ < 180)
    (L : Cell) (h : toArray a b c α β γ = some L) : (Matrix.of L).det = a * b * c * Real.sqrt (gram α β γ) ∧ 0 < (Matrix.of L).det := by
  have hs : 0 < Real.sin (γ * Real.pi / 180) := by
    apply Real.sin_pos_of_pos_of_lt_pi
    · have := Real.pi_pos; positivity
    · have := Real.pi_pos
      nlinarith
  have hacc := (c111_accepted a b c α β γ hα hβ hγ hs.ne').mp (by rw [h]; rfl)
  have hgp : 0 < gram α β γ := lt_of_le_of_lt (by positivity) hacc
  have key : (Matrix.of L).det = a * b * c * Real.sqrt (gram α β γ) := by
    unfold toArray at h
    simp only [cosd_eq hα, cosd_eq hβ, cosd_eq hγ, sind_eq hγ] at h
    rw [if_neg hs.ne'] at h
    split at h
    · cases h
    rename_i hz
    have hz0 : 0 ≤ 1 - cosDeg β ^ 2 - ((cosDeg α - cosDeg β * cosDeg γ) / Real.sin (γ * Real.pi / 180)) ^ 2 := by
      by_contra h'
      exact hz (Or.inl (not_le.mp h'))
    have hsc : cosDeg γ ^ 2 + Real.sin (γ * Real.pi / 180) ^ 2 = 1 := by
      unfold cosDeg; rw [add_comm]; exact Real.sin_sq_add_cos_sq _
    have hg : gram α β γ = (1 - cosDeg β ^ 2 - ((cosDeg α - cosDeg β * cosDeg γ) / Real.sin (γ * Real.pi / 180)) ^ 2) *
        Real.sin (γ * Real.pi / 180) ^ 2 := by
      unfold gram
      field_simp
      linear_combination (1 - cosDeg β ^ 2) * (-hsc)
    rw [hg, Real.sqrt_mul hz0, Real.sqrt_sq hs.le]
    obtain rfl := Option.some.inj h
    rw [Matrix.det_fin_three]
    simp
    ring
  exact ⟨key, by rw [key]; have := Real.sqrt_pos.mpr hgp; positivity⟩

theorem cos90 : cosDeg 90 = 0 := by
  unfold cosDeg
  rw [show (90 : ℝ) * Real.pi / 180 = Real.pi / 2 by ring, Real.cos_pi_div_two]

theorem cos120 : cosDeg 120 = -1 / 2 := by
  unfold cosDeg
  rw [show (120 : ℝ) * Real.pi / 180 = Real.pi - Real.pi / 3 by ring, Real.cos_pi_sub, Real.cos_pi_div_three]
  norm_num

theorem exact90 : Exact 90 := Or.inl (by norm_num)

theorem exact120 : Exact 120 := Or.inr (by norm_num)

/-- A hexagonal cell is accepted, and its volume is positive; the flat cell with three angles of 120 degrees is refused. -/
example : (∃ L, toArray 4 4 6 90 90 120 = some L ∧ 0 < (Matrix.of L).det) ∧ toArray 4 4 6 120 120 120 = none := by
  have hs : Real.sin (120 * Real.pi / 180) ≠ 0 := by
    rw [show (120 : ℝ) * Real.pi / 180 = Real.pi - Real.pi / 3 by ring, Real.sin_pi_sub, Real.sin_pi_div_three]
    positivity
  constructor
  · have h := (c111_accepted 4 4 6 90 90 120 exact90 exact90 exact120 hs).mpr (by
      have := Real.sin_sq_le_one (120 * Real.pi / 180)
      unfold gram
      rw [cos90, cos120]
      linarith)
    obtain ⟨L, hL⟩ := Option.isSome_iff_exists.mp h
    exact ⟨L, hL, (c111_volume 4 4 6 90 90 120 exact90 exact90 exact120 (by norm_num) (by norm_num) (by norm_num) (by norm_num) (by norm_num) L hL).2⟩
  · have h := (c111_accepted 4 4 6 120 120 120 exact120 exact120 exact120 hs).not.mpr (by
      have := sq_nonneg (Real.sin (120 * Real.pi / 180))
      unfold gram
      rw [cos120]
      norm_num
      norm_num at this
      positivity)
    simpa using h

/-! ### Rock salt -/

theorem cos60 : cosDeg 60 = 1 / 2 := by
  unfold cosDeg
  rw [show (60 : ℝ) * Real.pi / 180 = Real.pi / 3 by ring, Real.cos_pi_div_three]

theorem exact60 : Exact 60 := Or.inr (by norm_num)

/-- C111 (rock salt): for every lattice constant the crystal exists and is congruent to the documented one: every point has the same
distance from every other as in the face-centred cubic cell of that constant (in bohr), with the first element at the lattice
points and the second at the centre of the cube. -/
theorem c111_rock_salt (symA symB : String) (a : ℝ) (ang : Bool) (S : Fin 3 → ℤ) :
    ∃ c, rockSalt symA symB a ang S = some c ∧ c.atoms = [(symA, ![0, 0, 0]), (symB, ![1 / 2, 1 / 2, 1 / 2])] ∧
      c.supercell = Matrix.diagonal S ∧
      (∀ s t : Fin 3 → ℝ, separation (at' c.lattice s) (at' c.lattice t) =
        separation (at' (fcc (if ang then a * angstrom else a)) s) (at' (fcc (if ang then a * angstrom else a)) t)) ∧
      at' (fcc a) ![1 / 2, 1 / 2, 1 / 2] = ![a / 2, a / 2, a / 2] := by
  have hg : (toArray (a / Real.sqrt 2) (a / Real.sqrt 2) (a / Real.sqrt 2) 60 60 60).isSome := by
    have hs3 : Real.sin (60 * Real.pi / 180) = Real.sqrt 3 / 2 := by
      rw [show (60 : ℝ) * Real.pi / 180 = Real.pi / 3 by ring, Real.sin_pi_div_three]
    rw [c111_accepted _ _ _ _ _ _ exact60 exact60 exact60 (by rw [hs3]; positivity)]
    rw [hs3]
    unfold gram
    rw [cos60, div_pow, Real.sq_sqrt (by norm_num)]
    norm_num
  obtain ⟨L, hL⟩ := Option.isSome_iff_exists.mp hg
  obtain ⟨h00, h11, h22, h12, h02, h01⟩ := c111_cell _ _ _ _ _ _ exact60 exact60 exact60 L hL
  have hfrac : ¬ ∃ x ∈ [(symA, (![0.0, 0.0, 0.0] : Vec 3)), (symB, ![0.5, 0.5, 0.5])], ¬ fracOk x.2 := by
    rintro ⟨x, hx, hn⟩
    unfold fracOk at hn
    simp only [List.mem_cons, List.not_mem_nil, or_false] at hx
    rcases hx with rfl | rfl
    all_goals
      refine hn ?_
      rintro ⟨k, hk⟩
      fin_cases k <;> norm_num at hk
  refine ⟨⟨latticeVectors ang L, [(symA, ![0.0, 0.0, 0.0]), (symB, ![0.5, 0.5, 0.5])], !![S 0, 0, 0; 0, S 1, 0; 0, 0, S 2]⟩, ?_, ?_, ?_, ?_, ?_⟩
  · unfold rockSalt
    dsimp only
    rw [if_neg hfrac, hL]
    rfl
  · norm_num
  · ext i j
    fin_cases i <;> fin_cases j <;> simp
  · intro s t
    have hsq : (a / Real.sqrt 2) ^ 2 = a ^ 2 / 2 := by rw [div_pow, Real.sq_sqrt (by norm_num)]
    have hsq' : a / Real.sqrt 2 * (a / Real.sqrt 2) = a ^ 2 / 2 := by rw [← sq, hsq]
    rw [hsq] at h00 h11 h22
    rw [hsq', cos60] at h12 h02 h01
    unfold dot at h00 h11 h22 h12 h02 h01
    simp only [Fin.sum_univ_three] at h00 h11 h22 h12 h02 h01
    have hscale : ∃ κ : ℝ, (∀ i k, latticeVectors ang L i k = L i k * κ) ∧ (if ang then a * angstrom else a) = a * κ := by
      cases ang
      · exact ⟨1, fun i k => by simp [latticeVectors], by simp⟩
      · exact ⟨angstrom, fun i k => by simp [latticeVectors, angstromInBohr, angstrom], by simp⟩
    obtain ⟨κ, hκ, hκ'⟩ := hscale
    rw [hκ']
    unfold separation at'
    congr 1
    simp only [hκ]
    simp only [Fin.sum_univ_three, fcc, Matrix.cons_val_zero, Matrix.cons_val_one, Matrix.cons_val]
    linear_combination κ ^ 2 * ((s 0 - t 0) ^ 2 * h00 + (s 1 - t 1) ^ 2 * h11 + (s 2 - t 2) ^ 2 * h22 +
      2 * (s 0 - t 0) * (s 1 - t 1) * h01 + 2 * (s 0 - t 0) * (s 2 - t 2) * h02 + 2 * (s 1 - t 1) * (s 2 - t 2) * h12)
  · funext k
    unfold at' fcc
    fin_cases k <;> simp [Fin.sum_univ_three] <;> ring

/-- C111 (rock salt, neighbours): the nearest atoms of the other element are at half the lattice constant: no image is closer, six are
that close. -/
theorem c111_rock_salt_neighbours (a : ℝ) (ha : 0 < a) :
    (∀ z : Fin 3 → ℤ, a / 2 ≤ separation (at' (fcc a) ![1 / 2, 1 / 2, 1 / 2]) (at' (fcc a) fun i => z i)) ∧
    {z : Fin 3 → ℤ | separation (at' (fcc a) ![1 / 2, 1 / 2, 1 / 2]) (at' (fcc a) fun i => z i) = a / 2} =
      {![1, 0, 0], ![0, 1, 0], ![0, 0, 1], ![0, 1, 1], ![1, 0, 1], ![1, 1, 0]} := by
  have hd : ∀ z : Fin 3 → ℤ, separation (at' (fcc a) ![1 / 2, 1 / 2, 1 / 2]) (at' (fcc a) fun i => z i) =
      a / 2 * Real.sqrt ((1 - z 1 - z 2 : ℤ) ^ 2 + (1 - z 0 - z 2 : ℤ) ^ 2 + (1 - z 0 - z 1 : ℤ) ^ 2 : ℤ) := by
    intro z
    unfold separation at' fcc
    have h2 : a / 2 = Real.sqrt ((a / 2) ^ 2) := (Real.sqrt_sq (by positivity)).symm
    rw [h2, ← Real.sqrt_mul (sq_nonneg _)]
    congr 1
    rw [← h2]
    simp [Fin.sum_univ_three]
    ring
  have hpos : ∀ z : Fin 3 → ℤ, 1 ≤ (1 - z 1 - z 2 : ℤ) ^ 2 + (1 - z 0 - z 2 : ℤ) ^ 2 + (1 - z 0 - z 1 : ℤ) ^ 2 := by
    intro z
    by_contra h
    have h1 : (1 - z 1 - z 2 : ℤ) ^ 2 = 0 := by nlinarith [sq_nonneg (1 - z 1 - z 2), sq_nonneg (1 - z 0 - z 2), sq_nonneg (1 - z 0 - z 1)]
    have h2 : (1 - z 0 - z 2 : ℤ) ^ 2 = 0 := by nlinarith [sq_nonneg (1 - z 1 - z 2), sq_nonneg (1 - z 0 - z 2), sq_nonneg (1 - z 0 - z 1)]
    have h3 : (1 - z 0 - z 1 : ℤ) ^ 2 = 0 := by nlinarith [sq_nonneg (1 - z 1 - z 2), sq_nonneg (1 - z 0 - z 2), sq_nonneg (1 - z 0 - z 1)]
    rw [sq_eq_zero_iff] at h1 h2 h3
    omega
  have hp : 0 < a / 2 := by positivity
  constructor
  · intro z
    rw [hd]
    have : (1 : ℝ) ≤ Real.sqrt (((1 - z 1 - z 2 : ℤ) ^ 2 + (1 - z 0 - z 2 : ℤ) ^ 2 + (1 - z 0 - z 1 : ℤ) ^ 2 : ℤ) : ℝ) := by
      rw [Real.one_le_sqrt]
      exact_mod_cast hpos z
    nlinarith
  · ext z
    simp only [Set.mem_ofPred_eq, Set.mem_insert_iff, Set.mem_singleton_iff]
    rw [hd]
    have e1 : a / 2 * Real.sqrt (((1 - z 1 - z 2 : ℤ) ^ 2 + (1 - z 0 - z 2 : ℤ) ^ 2 + (1 - z 0 - z 1 : ℤ) ^ 2 : ℤ) : ℝ) = a / 2 ↔
        (1 - z 1 - z 2 : ℤ) ^ 2 + (1 - z 0 - z 2 : ℤ) ^ 2 + (1 - z 0 - z 1 : ℤ) ^ 2 = 1 := by
      rw [mul_eq_left₀ hp.ne', Real.sqrt_eq_one]
      exact_mod_cast Iff.rfl
    rw [e1]
    have hz : ∀ u : Fin 3 → ℤ, z = u ↔ z 0 = u 0 ∧ z 1 = u 1 ∧ z 2 = u 2 := by
      intro u
      constructor
      · rintro rfl; exact ⟨rfl, rfl, rfl⟩
      · rintro ⟨h0, h1, h2⟩
        funext k
        fin_cases k <;> assumption
    simp only [hz, Matrix.cons_val_zero, Matrix.cons_val_one, Matrix.cons_val]
    constructor
    · intro h
      have b1 : (1 - z 1 - z 2) ≤ 1 ∧ -1 ≤ (1 - z 1 - z 2) := by
        constructor <;> nlinarith [sq_nonneg (1 - z 1 - z 2), sq_nonneg (1 - z 0 - z 2), sq_nonneg (1 - z 0 - z 1)]
      have b2 : (1 - z 0 - z 2) ≤ 1 ∧ -1 ≤ (1 - z 0 - z 2) := by
        constructor <;> nlinarith [sq_nonneg (1 - z 1 - z 2), sq_nonneg (1 - z 0 - z 2), sq_nonneg (1 - z 0 - z 1)]
      have b3 : (1 - z 0 - z 1) ≤ 1 ∧ -1 ≤ (1 - z 0 - z 1) := by
        constructor <;> nlinarith [sq_nonneg (1 - z 1 - z 2), sq_nonneg (1 - z 0 - z 2), sq_nonneg (1 - z 0 - z 1)]
      have d1 : (1 - z 1 - z 2) = -1 ∨ (1 - z 1 - z 2) = 0 ∨ (1 - z 1 - z 2) = 1 := by omega
      have d2 : (1 - z 0 - z 2) = -1 ∨ (1 - z 0 - z 2) = 0 ∨ (1 - z 0 - z 2) = 1 := by omega
      have d3 : (1 - z 0 - z 1) = -1 ∨ (1 - z 0 - z 1) = 0 ∨ (1 - z 0 - z 1) = 1 := by omega
      rcases d1 with d1 | d1 | d1 <;> rcases d2 with d2 | d2 | d2 <;> rcases d3 with d3 | d3 | d3 <;>
        rw [d1, d2, d3] at h <;> norm_num at h <;> omega
    · rintro (⟨h0, h1, h2⟩ | ⟨h0, h1, h2⟩ | ⟨h0, h1, h2⟩ | ⟨h0, h1, h2⟩ | ⟨h0, h1, h2⟩ | ⟨h0, h1, h2⟩) <;> rw [h0, h1, h2] <;> norm_num

/-! ### The chain -/

/-- C111 (chain): the atoms of the periodic chain lie on a line along x, at all integer multiples of the bond length (in bohr); the cell holds
two of them, and the lattice in y and z is the vacuum separation in bohr whatever the unit. -/
theorem c111_chain (sym : String) (b : ℝ) (ang : Bool) (S : ℤ) (vac : ℝ) :
    ∃ c, twoAtomChain sym b ang S vac = some c ∧ c.atoms.map (·.1) = [sym, sym] ∧ c.supercell = Matrix.diagonal ![S, 1, 1] ∧
      c.lattice 1 = ![0, vac, 0] ∧ c.lattice 2 = ![0, 0, vac] ∧
      {p : Vec 3 | ∃ a ∈ c.atoms, ∃ z : ℤ, p = fun k => position a.2 c.lattice k + z * c.lattice 0 k} =
        {p | ∃ j : ℤ, p = ![j * (if ang then b * angstrom else b), vac / 2, vac / 2]} := by
  have hfrac : ¬ ∃ x ∈ [(sym, (![0.0, 0.5, 0.5] : Vec 3)), (sym, ![0.5, 0.5, 0.5])], ¬ fracOk x.2 := by
    rintro ⟨x, hx, hn⟩
    unfold fracOk at hn
    simp only [List.mem_cons, List.not_mem_nil, or_false] at hx
    rcases hx with rfl | rfl
    all_goals
      refine hn ?_
      rintro ⟨k, hk⟩
      fin_cases k <;> norm_num at hk
  have hb : (if ang then b * angstromInBohr else b) = if ang then b * angstrom else b := rfl
  refine ⟨_, by unfold twoAtomChain; dsimp only; rw [if_neg hfrac], rfl, ?_, rfl, rfl, ?_⟩
  · ext i j
    fin_cases i <;> fin_cases j <;> simp
  · rw [hb]
    generalize (if ang then b * angstrom else b) = β
    have pos0 : position ![0.0, 0.5, 0.5] (latticeVectors false ![![2 * β, 0, 0], ![0, vac, 0], ![0, 0, vac]]) = ![0, vac / 2, vac / 2] := by
      funext k
      unfold position latticeVectors
      fin_cases k <;> simp [Fin.sum_univ_three] <;> first | (left; norm_num; done) | ring
    have pos1 : position ![0.5, 0.5, 0.5] (latticeVectors false ![![2 * β, 0, 0], ![0, vac, 0], ![0, 0, vac]]) = ![β, vac / 2, vac / 2] := by
      funext k
      unfold position latticeVectors
      fin_cases k <;> simp [Fin.sum_univ_three] <;> ring
    ext p
    simp only [Set.mem_ofPred_eq, List.mem_cons, List.not_mem_nil, or_false]
    constructor
    · rintro ⟨x, rfl | rfl, z, rfl⟩
      · refine ⟨2 * z, ?_⟩
        rw [pos0]
        funext k
        fin_cases k <;> simp [latticeVectors]
        ring
      · refine ⟨2 * z + 1, ?_⟩
        rw [pos1]
        funext k
        fin_cases k <;> simp [latticeVectors]
        ring
    · rintro ⟨j, rfl⟩
      rcases Int.even_or_odd' j with ⟨z, rfl | rfl⟩
      · refine ⟨_, Or.inl rfl, z, ?_⟩
        rw [pos0]
        funext k
        fin_cases k <;> simp [latticeVectors]
        ring
      · refine ⟨_, Or.inr rfl, z, ?_⟩
        rw [pos1]
        funext k
        fin_cases k <;> simp [latticeVectors]
        ring

end Jaqmc.Presets.Props
