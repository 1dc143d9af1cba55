import Verif.Props.Geometry
/-! # Moves on the sphere: C33 -/
namespace Jaqmc.Geometry.Props
open Jaqmc.Geometry Jaqmc.Geometry.Spec Matrix
open scoped Classical

theorem target_components (theta phi stddev normal uniform : ℝ) :
    let a := Real.arctan (normal * stddev)
    let b := uniform * 2 * Real.pi
    let p := sphereTarget theta phi stddev normal uniform
    p 0 = Real.cos phi * (Real.cos theta * (Real.sin a * Real.cos b) + Real.sin theta * Real.cos a)
        - Real.sin phi * (Real.sin a * Real.sin b) ∧
    p 1 = Real.sin phi * (Real.cos theta * (Real.sin a * Real.cos b) + Real.sin theta * Real.cos a)
        + Real.cos phi * (Real.sin a * Real.sin b) ∧
    p 2 = -Real.sin theta * (Real.sin a * Real.cos b) + Real.cos theta * Real.cos a := by
  intro a b p
  have e : p = rotZ phi *ᵥ (rotY theta *ᵥ cartesian a b) := by
    show sphereTarget theta phi stddev normal uniform = _
    unfold sphereTarget
    rw [← Matrix.mulVec_mulVec]
  rw [e]
  refine ⟨?_, ?_, ?_⟩ <;>
    (simp [rotZ, rotY, cartesian, Matrix.mulVec, dotProduct, Fin.sum_univ_three, -Real.sin_arctan, -Real.cos_arctan] <;> ring)

theorem target_unit (theta phi stddev normal uniform : ℝ) :
    dot (sphereTarget theta phi stddev normal uniform) (sphereTarget theta phi stddev normal uniform) = 1 := by
  obtain ⟨h0, h1, h2⟩ := target_components theta phi stddev normal uniform
  unfold dot
  rw [h0, h1, h2]
  generalize Real.arctan (normal * stddev) = a
  generalize uniform * 2 * Real.pi = b
  have c1 := Real.sin_sq_add_cos_sq theta
  have c2 := Real.sin_sq_add_cos_sq phi
  have c3 := Real.sin_sq_add_cos_sq a
  have c4 := Real.sin_sq_add_cos_sq b
  set X := Real.cos theta * (Real.sin a * Real.cos b) + Real.sin theta * Real.cos a with hX
  set Y := Real.sin a * Real.sin b with hY
  have e1 : (Real.cos phi * X - Real.sin phi * Y) * (Real.cos phi * X - Real.sin phi * Y)
      + (Real.sin phi * X + Real.cos phi * Y) * (Real.sin phi * X + Real.cos phi * Y)
      = (Real.sin phi ^ 2 + Real.cos phi ^ 2) * (X ^ 2 + Y ^ 2) := by ring
  have e2 : X ^ 2 + (-Real.sin theta * (Real.sin a * Real.cos b) + Real.cos theta * Real.cos a) ^ 2
      = (Real.sin theta ^ 2 + Real.cos theta ^ 2) * ((Real.sin a * Real.cos b) ^ 2 + Real.cos a ^ 2) := by
    rw [hX]; ring
  have e3 : (Real.sin a * Real.cos b) ^ 2 + Real.cos a ^ 2 + Y ^ 2
      = Real.sin a ^ 2 * (Real.sin b ^ 2 + Real.cos b ^ 2) + Real.cos a ^ 2 := by rw [hY]; ring
  rw [c1, one_mul] at e2
  rw [c2, one_mul] at e1
  rw [c4, mul_one, c3] at e3
  nlinarith

theorem target_angle (theta phi stddev normal uniform : ℝ) :
    dot (sphereTarget theta phi stddev normal uniform) (cartesian theta phi)
      = Real.cos (Real.arctan (normal * stddev)) := by
  obtain ⟨h0, h1, h2⟩ := target_components theta phi stddev normal uniform
  unfold dot
  rw [h0, h1, h2]
  simp only [cartesian]
  generalize Real.arctan (normal * stddev) = a
  generalize uniform * 2 * Real.pi = b
  have c1 := Real.sin_sq_add_cos_sq theta
  have c2 := Real.sin_sq_add_cos_sq phi
  simp only [Matrix.cons_val_zero, Matrix.cons_val_one, Matrix.cons_val]
  set X := Real.cos theta * (Real.sin a * Real.cos b) + Real.sin theta * Real.cos a with hX
  set Y := Real.sin a * Real.sin b with hY
  have e : (Real.cos phi * X - Real.sin phi * Y) * (Real.sin theta * Real.cos phi)
      + (Real.sin phi * X + Real.cos phi * Y) * (Real.sin theta * Real.sin phi)
      + (-Real.sin theta * (Real.sin a * Real.cos b) + Real.cos theta * Real.cos a) * Real.cos theta
      = (Real.sin phi ^ 2 + Real.cos phi ^ 2) * X * Real.sin theta
        + (-Real.sin theta * (Real.sin a * Real.cos b) + Real.cos theta * Real.cos a) * Real.cos theta := by ring
  rw [e, c2, one_mul, hX]
  have : (Real.cos theta * (Real.sin a * Real.cos b) + Real.sin theta * Real.cos a) * Real.sin theta
      + (-Real.sin theta * (Real.sin a * Real.cos b) + Real.cos theta * Real.cos a) * Real.cos theta
      = (Real.sin theta ^ 2 + Real.cos theta ^ 2) * Real.cos a := by ring
  rw [this, c1, one_mul]

theorem clip1_of {x : ℝ} (h1 : -1 ≤ x) (h2 : x ≤ 1) : clip1 x = x := by
  unfold clip1; rw [max_eq_left h1, min_eq_left h2]

theorem sign_mul_bounds (y a : ℝ) (h1 : 0 ≤ a) (h2 : a ≤ Real.pi) :
    -Real.pi ≤ ((SignType.sign y : SignType) : ℝ) * a ∧ ((SignType.sign y : SignType) : ℝ) * a ≤ Real.pi := by
  have h3 := Real.pi_pos
  rcases lt_trichotomy y 0 with h | h | h
  · have e : (((-1 : SignType) : ℝ)) * a = -a := by simp
    rw [sign_neg h, e]; constructor <;> linarith
  · have e : (((0 : SignType) : ℝ)) * a = 0 := by simp
    rw [h, sign_zero, e]; constructor <;> linarith
  · have e : (((1 : SignType) : ℝ)) * a = a := by simp
    rw [sign_pos h, e]; constructor <;> linarith

/-- Conversion to angles is right for every point of the sphere off the half circle `y = 0, x ≤ 0`. -/
theorem toAngles_spec (p : Fin 3 → ℝ) (hp : dot p p = 1) (hy : p 1 ≠ 0 ∨ 0 < p 0) :
    ∃ theta phi, toAngles p = some (theta, phi) ∧ 0 < theta ∧ theta < Real.pi ∧ -Real.pi ≤ phi ∧ phi ≤ Real.pi ∧
      cartesian theta phi = p := by
  unfold dot at hp
  have hpos : 0 < p 0 * p 0 + p 1 * p 1 := by
    rcases hy with h | h
    · have := mul_self_pos.2 h
      nlinarith [mul_self_nonneg (p 0)]
    · have := mul_self_pos.2 h.ne'
      nlinarith [mul_self_nonneg (p 1)]
  have hz : p 2 * p 2 < 1 := by linarith
  have hz1 : -1 < p 2 := by nlinarith
  have hz2 : p 2 < 1 := by nlinarith
  have hcz : clip1 (p 2) = p 2 := clip1_of hz1.le hz2.le
  have hs : Real.sin (Real.arccos (p 2)) = Real.sqrt (1 - p 2 ^ 2) := Real.sin_arccos _
  have hq : 0 < 1 - p 2 ^ 2 := by nlinarith
  have hsp : 0 < Real.sqrt (1 - p 2 ^ 2) := Real.sqrt_pos.2 hq
  have hsq : Real.sqrt (1 - p 2 ^ 2) ^ 2 = 1 - p 2 ^ 2 := Real.sq_sqrt hq.le
  set S := Real.sqrt (1 - p 2 ^ 2) with hS
  have hxS : (p 0 / S) ^ 2 ≤ 1 := by
    rw [div_pow, hsq, div_le_one hq]
    nlinarith [mul_self_nonneg (p 1)]
  have hx1 : -1 ≤ p 0 / S := by nlinarith
  have hx2 : p 0 / S ≤ 1 := by nlinarith
  have hcx : clip1 (p 0 / S) = p 0 / S := clip1_of hx1 hx2
  unfold toAngles
  dsimp only
  rw [hcz, hs, if_neg hsp.ne', hcx]
  refine ⟨_, _, rfl, Real.arccos_pos.2 hz2, ?_, ?_, ?_, ?_⟩
  · rw [lt_iff_le_and_ne]
    refine ⟨Real.arccos_le_pi _, ?_⟩
    intro h
    rw [Real.arccos_eq_pi] at h
    linarith
  · exact (sign_mul_bounds _ _ (Real.arccos_nonneg _) (Real.arccos_le_pi _)).1
  · exact (sign_mul_bounds _ _ (Real.arccos_nonneg _) (Real.arccos_le_pi _)).2
  · have hy2 : S ^ 2 - p 0 ^ 2 = p 1 ^ 2 := by rw [hsq]; nlinarith
    have hsin : Real.sin (Real.arccos (p 0 / S)) = |p 1| / S := by
      rw [Real.sin_arccos]
      have : 1 - (p 0 / S) ^ 2 = (|p 1| / S) ^ 2 := by
        rw [div_pow, div_pow, sq_abs, ← hy2]
        field_simp
      rw [this, Real.sqrt_sq (by positivity)]
    have hcos : Real.cos (Real.arccos (p 0 / S)) = p 0 / S := Real.cos_arccos hx1 hx2
    have hct : Real.cos (Real.arccos (p 2)) = p 2 := Real.cos_arccos hz1.le hz2.le
    unfold cartesian
    rw [hs, hct]
    rcases lt_trichotomy (p 1) 0 with h | h | h
    · rw [sign_neg h]
      have e : (((-1 : SignType) : ℝ)) * Real.arccos (p 0 / S) = -Real.arccos (p 0 / S) := by simp
      rw [e, Real.cos_neg, Real.sin_neg, hcos, hsin, abs_of_neg h]
      funext k
      fin_cases k
      · show S * (p 0 / S) = p 0
        field_simp
      · show S * -(-p 1 / S) = p 1
        field_simp
      · rfl
    · rw [h, sign_zero]
      have h0 : 0 < p 0 := by
        rcases hy with h' | h'
        · exact absurd h h'
        · exact h'
      have hSp : S = p 0 := by
        have : S ^ 2 = p 0 ^ 2 := by rw [h] at hy2; linarith
        exact (sq_eq_sq₀ hsp.le h0.le).1 this
      have e : (((0 : SignType) : ℝ)) * Real.arccos (p 0 / S) = 0 := by simp
      rw [e, Real.cos_zero, Real.sin_zero]
      funext k
      fin_cases k
      · show S * 1 = p 0
        rw [hSp]; ring
      · show S * 0 = p 1
        rw [h]; ring
      · rfl
    · rw [sign_pos h]
      have e : (((1 : SignType) : ℝ)) * Real.arccos (p 0 / S) = Real.arccos (p 0 / S) := by simp
      rw [e, hcos, hsin, abs_of_pos h]
      funext k
      fin_cases k
      · show S * (p 0 / S) = p 0
        field_simp
      · show S * (p 1 / S) = p 1
        field_simp
      · rfl

/-- C33: whatever the old angles, the width and the two draws, the proposed point is on the sphere at the angle
`arctan(normal * stddev)` from the old point; and unless it falls on the half circle `y = 0, x ≤ 0` (an event of
probability zero for ideal draws) the returned angles are valid and are those of that point. -/
theorem c33_sphere_partial (theta phi stddev normal uniform : ℝ) :
    let p := sphereTarget theta phi stddev normal uniform
    dot p p = 1 ∧ dot p (cartesian theta phi) = Real.cos (Real.arctan (normal * stddev)) ∧
    (p 1 ≠ 0 ∨ 0 < p 0 → ∃ theta' phi', sphereMove theta phi stddev normal uniform = some (theta', phi') ∧
      0 < theta' ∧ theta' < Real.pi ∧ -Real.pi ≤ phi' ∧ phi' ≤ Real.pi ∧ cartesian theta' phi' = p) := by
  intro p
  exact ⟨target_unit _ _ _ _ _, target_angle _ _ _ _ _, fun h => toAngles_spec p (target_unit _ _ _ _ _) h⟩

/-- C33 fails on that half circle: the null move (draw 0) of the electron at `theta = π/2, phi = π` sends it to the
opposite point of the equator. -/
theorem c33_seam : sphereMove (Real.pi / 2) Real.pi 1 0 0 = some (Real.pi / 2, 0) ∧
    cartesian (Real.pi / 2) 0 ≠ sphereTarget (Real.pi / 2) Real.pi 1 0 0 := by
  obtain ⟨h0, h1, h2⟩ := target_components (Real.pi / 2) Real.pi 1 0 0
  simp at h0 h1 h2
  constructor
  · unfold sphereMove toAngles
    dsimp only
    rw [h1, h2]
    have : clip1 0 = 0 := clip1_of (by norm_num) (by norm_num)
    rw [this, Real.arccos_zero, if_neg (by simp)]
    simp
  · intro h
    have := congrFun h 0
    rw [h0] at this
    simp [cartesian] at this
    norm_num at this

/-- C33 fails at the pole: the null move there gives NaN. -/
theorem c33_pole : sphereMove 0 0 1 0 0 = none := by
  obtain ⟨h0, h1, h2⟩ := target_components 0 0 1 0 0
  simp at h0 h1 h2
  unfold sphereMove toAngles
  dsimp only
  rw [h2]
  have : clip1 1 = 1 := clip1_of (by norm_num) (by norm_num)
  rw [this, Real.arccos_one, if_pos Real.sin_zero]

/-- The condition of `c33_sphere_partial` is met, for example, by a quarter-turn from the point on the x axis. -/
example : (sphereTarget (Real.pi / 2) (Real.pi / 2) 1 0 0) 1 ≠ 0 := by
  obtain ⟨h0, h1, h2⟩ := target_components (Real.pi / 2) (Real.pi / 2) 1 0 0
  rw [h1]; simp

end Jaqmc.Geometry.Props
