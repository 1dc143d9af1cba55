import Verif.Model.Supercell
import Verif.Spec.Supercell
import Verif.Props.Geometry
import Mathlib.LinearAlgebra.FreeModule.Finite.CardQuotient
import Mathlib.LinearAlgebra.Matrix.ToLin
import Mathlib.LinearAlgebra.Matrix.Nondegenerate
/-! C36: supercell tiling; C37: folded k-points. -/
namespace Jaqmc.Supercell.Props
open Jaqmc.Geometry Jaqmc.Geometry.Spec Jaqmc.Geometry.Props Jaqmc.Supercell Jaqmc.Supercell.Spec Matrix
open scoped Classical

/-! ### The scanned box -/

theorem mem_arange (lo hi x : ℤ) : x ∈ arange lo hi ↔ lo ≤ x ∧ x < hi := by
  unfold arange
  simp only [List.mem_map, List.mem_range]
  constructor
  · rintro ⟨k, hk, rfl⟩; omega
  · rintro ⟨h1, h2⟩; exact ⟨(x - lo).toNat, by omega, by omega⟩

theorem arange_nodup (lo hi : ℤ) : (arange lo hi).Nodup := by
  unfold arange
  exact List.Nodup.map (fun a b h => by simpa using h) List.nodup_range

theorem mem_mesh (lo hi n : IVec) : n ∈ mesh lo hi ↔ ∀ j, lo j ≤ n j ∧ n j < hi j := by
  unfold mesh
  simp only [List.mem_flatMap, List.mem_map, mem_arange]
  constructor
  · rintro ⟨a, ha, b, hb, c, hc, rfl⟩ j
    fin_cases j
    · exact ha
    · exact hb
    · exact hc
  · intro h
    refine ⟨n 0, h 0, n 1, h 1, n 2, h 2, ?_⟩
    funext j; fin_cases j <;> rfl

theorem mesh_nodup (lo hi : IVec) : (mesh lo hi).Nodup := by
  unfold mesh
  rw [List.nodup_flatMap]
  refine ⟨fun a _ => ?_, ?_⟩
  · rw [List.nodup_flatMap]
    refine ⟨fun b _ => ?_, ?_⟩
    · exact List.Nodup.map (fun x y h => by simpa using congrFun h 2) (arange_nodup _ _)
    · refine (arange_nodup _ _).imp ?_
      intro b b' hb
      simp only [Function.onFun, List.disjoint_left, List.mem_map, not_exists, not_and]
      rintro _ ⟨c, _, rfl⟩ c' _ h
      exact hb (by simpa using (congrFun h 1).symm)
  · refine (arange_nodup _ _).imp ?_
    intro a a' ha
    simp only [Function.onFun, List.disjoint_left, List.mem_flatMap, List.mem_map, not_exists, not_and]
    rintro _ ⟨b, _, c, _, rfl⟩ b' _ c' _ h
    exact ha (by simpa using (congrFun h 0).symm)

theorem mem_unitBox (u : IVec) : u ∈ unitBox ↔ ∀ j, u j = 0 ∨ u j = 1 := by
  unfold unitBox
  simp only [List.mem_flatMap, List.mem_map, List.mem_cons, List.not_mem_nil, or_false]
  constructor
  · rintro ⟨a, ha, b, hb, c, hc, rfl⟩ j
    fin_cases j
    · exact ha
    · exact hb
    · exact hc
  · intro h
    refine ⟨u 0, h 0, u 1, h 1, u 2, h 2, ?_⟩
    funext j; fin_cases j <;> rfl

theorem amin_le {pts : List IVec} {p : IVec} (h : p ∈ pts) (j : Fin 3) : amin pts j ≤ p j := by
  unfold amin
  have hm : p j ∈ pts.map (fun p => p j) := List.mem_map_of_mem h
  cases hc : (pts.map (fun p => p j)).min? with
  | none => rw [List.min?_eq_none_iff.1 hc] at hm; simp at hm
  | some a => exact ((List.min?_eq_some_iff).1 hc).2 _ hm

theorem le_amax {pts : List IVec} {p : IVec} (h : p ∈ pts) (j : Fin 3) : p j ≤ amax pts j := by
  unfold amax
  have hm : p j ∈ pts.map (fun p => p j) := List.mem_map_of_mem h
  cases hc : (pts.map (fun p => p j)).max? with
  | none => rw [List.max?_eq_none_iff.1 hc] at hm; simp at hm
  | some a => exact ((List.max?_eq_some_iff).1 hc).2 _ hm

theorem amax_mem {pts : List IVec} (h : pts ≠ []) (j : Fin 3) : ∃ p ∈ pts, amax pts j = p j := by
  unfold amax
  cases hc : (pts.map (fun p => p j)).max? with
  | none => simp at hc; exact absurd hc h
  | some a =>
    obtain ⟨p, hp, hpa⟩ := List.mem_map.1 ((List.max?_eq_some_iff).1 hc).1
    exact ⟨p, hp, by simp [hpa]⟩

/-- A point of the unit cube, transformed, is in the bounding box of the transformed corners. -/
theorem box_bounds (S : Matrix (Fin 3) (Fin 3) ℤ) (f : Vec 3) (hf : ∀ i, 0 ≤ f i ∧ f i < 1) (j : Fin 3) :
    (amin (unitBox.map (fun u => u ᵥ* S)) j : ℝ) ≤ ∑ i, f i * S i j ∧
    ∑ i, f i * S i j ≤ (amax (unitBox.map (fun u => u ᵥ* S)) j : ℝ) ∧
    ((∃ i, 0 < S i j) → ∑ i, f i * S i j < (amax (unitBox.map (fun u => u ᵥ* S)) j : ℝ)) := by
  have lo : ∃ u ∈ unitBox, ∀ i, ((u i : ℤ) : ℝ) * S i j ≤ f i * S i j := by
    refine ⟨fun i => if S i j < 0 then 1 else 0, (mem_unitBox _).2 (fun i => by split <;> simp), fun i => ?_⟩
    dsimp only
    split
    · rename_i h
      have : (S i j : ℝ) < 0 := by exact_mod_cast h
      push_cast; nlinarith [(hf i).2]
    · rename_i h
      have : (0 : ℝ) ≤ S i j := by exact_mod_cast not_lt.1 h
      push_cast; nlinarith [(hf i).1]
  have hi : ∃ u ∈ unitBox, ∀ i, f i * S i j ≤ ((u i : ℤ) : ℝ) * S i j ∧
      (0 < S i j → f i * S i j < ((u i : ℤ) : ℝ) * S i j) := by
    refine ⟨fun i => if 0 < S i j then 1 else 0, (mem_unitBox _).2 (fun i => by split <;> simp), fun i => ?_⟩
    dsimp only
    split
    · rename_i h
      have : (0 : ℝ) < S i j := by exact_mod_cast h
      push_cast
      exact ⟨by nlinarith [(hf i).2], fun _ => by nlinarith [(hf i).2]⟩
    · rename_i h
      have : (S i j : ℝ) ≤ 0 := by exact_mod_cast not_lt.1 h
      push_cast
      exact ⟨by nlinarith [(hf i).1], fun h' => absurd h' h⟩
  have cast : ∀ u : IVec, (((u ᵥ* S) j : ℤ) : ℝ) = ∑ i, ((u i : ℤ) : ℝ) * S i j := by
    intro u
    simp [Matrix.vecMul, dotProduct]
  obtain ⟨u, hu, hlo⟩ := lo
  obtain ⟨v, hv, hhi⟩ := hi
  have h1 : (amin (unitBox.map (fun u => u ᵥ* S)) j : ℝ) ≤ (((u ᵥ* S) j : ℤ) : ℝ) :=
    by exact_mod_cast amin_le (List.mem_map_of_mem (f := fun u => u ᵥ* S) hu) j
  have h2 : (((v ᵥ* S) j : ℤ) : ℝ) ≤ (amax (unitBox.map (fun u => u ᵥ* S)) j : ℝ) :=
    by exact_mod_cast le_amax (List.mem_map_of_mem (f := fun u => u ᵥ* S) hv) j
  rw [cast] at h1 h2
  refine ⟨h1.trans (Finset.sum_le_sum fun i _ => hlo i), (Finset.sum_le_sum fun i _ => (hhi i).1).trans h2, ?_⟩
  rintro ⟨i, hi⟩
  exact lt_of_lt_of_le (Finset.sum_lt_sum (fun i _ => (hhi i).1) ⟨i, Finset.mem_univ i, (hhi i).2 hi⟩) h2

/-! ### Fractional coordinates -/

theorem det_real (S : Matrix (Fin 3) (Fin 3) ℤ) : (real S).det = (S.det : ℝ) := by
  have := (Int.castRingHom ℝ).map_det S
  simp only [RingHom.mapMatrix_apply, Int.coe_castRingHom] at this
  rw [this]; rfl

theorem unit_real {S : Matrix (Fin 3) (Fin 3) ℤ} (h : S.det ≠ 0) : IsUnit (real S).det := by
  rw [det_real, isUnit_iff_ne_zero]; exact_mod_cast h

/-- Fractional coordinates are multiples of `1 / det S`. -/
theorem frac_denominator {S : Matrix (Fin 3) (Fin 3) ℤ} (h : S.det ≠ 0) (n : IVec) (j : Fin 3) :
    ∃ z : ℤ, (S.det : ℝ) * frac S n j = z := by
  refine ⟨(n ᵥ* S.adjugate) j, ?_⟩
  have hadj : (real S).adjugate = S.adjugate.map (fun x => (x : ℝ)) := by
    have := (Int.castRingHom ℝ).map_adjugate S
    simp only [RingHom.mapMatrix_apply, Int.coe_castRingHom] at this
    exact this.symm
  unfold frac
  have hd : (S.det : ℝ) ≠ 0 := by exact_mod_cast h
  rw [Matrix.inv_def, Ring.inverse_eq_inv', det_real, Matrix.vecMul_smul, Pi.smul_apply, smul_eq_mul,
    mul_inv_cancel_left₀ hd, hadj]
  simp [Matrix.vecMul, dotProduct]

theorem frac_spec {S : Matrix (Fin 3) (Fin 3) ℤ} (h : S.det ≠ 0) (n : IVec) (j : Fin 3) :
    (n j : ℝ) = ∑ i, frac S n i * S i j := by
  have := vecMul_inv' (real S) (unit_real h) (fun i => (n i : ℝ))
  exact (congrFun this j).symm

theorem frac_add_lattice {S : Matrix (Fin 3) (Fin 3) ℤ} (h : S.det ≠ 0) (n t : IVec) :
    frac S (fun j => n j + (t ᵥ* S) j) = fun j => frac S n j + t j := by
  unfold frac
  have e : (fun i => ((n i + (t ᵥ* S) i : ℤ) : ℝ)) = (fun i => (n i : ℝ)) + (fun i => (t i : ℝ)) ᵥ* real S := by
    funext i
    simp [Matrix.vecMul, dotProduct, real]
  rw [e, Matrix.add_vecMul, vecMul_inv _ (unit_real h)]
  rfl

/-- Below the tolerance, the filter is exactly `0 ≤ f < 1`. -/
theorem inBox_iff {S : Matrix (Fin 3) (Fin 3) ℤ} (h : S.det ≠ 0) (hb : |S.det| < 100000) (n : IVec) :
    inBox (frac S n) ↔ ∀ j, 0 ≤ frac S n j ∧ frac S n j < 1 := by
  have hb' : |(S.det : ℝ)| < 100000 := by exact_mod_cast hb
  have hd : (S.det : ℝ) ≠ 0 := by exact_mod_cast h
  have hpos : 0 < |(S.det : ℝ)| := abs_pos.2 hd
  have key : ∀ j (z : ℤ), |frac S n j - z| < 1e-5 → frac S n j = z := by
    intro j z hz
    obtain ⟨w, hw⟩ := frac_denominator h n j
    have e : |((w - S.det * z : ℤ) : ℝ)| < 1 := by
      have : ((w - S.det * z : ℤ) : ℝ) = S.det * (frac S n j - z) := by rw [Int.cast_sub, Int.cast_mul, ← hw]; ring
      rw [this, abs_mul]
      calc |(S.det : ℝ)| * |frac S n j - z| < 100000 * 1e-5 := by
            apply mul_lt_mul'' hb' hz (abs_nonneg _) (abs_nonneg _)
        _ = 1 := by norm_num
    have e' : |w - S.det * z| < 1 := by exact_mod_cast e
    have e2 : w = S.det * z := by
      have := Int.abs_lt_one_iff.1 e'; omega
    rw [e2] at hw
    rw [Int.cast_mul] at hw
    exact mul_left_cancel₀ hd hw
  unfold inBox
  refine forall_congr' fun j => ?_
  have k0 := key j 0
  have k1 := key j 1
  simp only [Int.cast_zero, Int.cast_one, sub_zero] at k0 k1
  rw [abs_lt] at k0 k1
  constructor
  · rintro ⟨h1, h2⟩
    refine ⟨?_, by linarith⟩
    by_contra hc
    rcases lt_or_eq_of_le h1 with h3 | h3
    · have := k0 ⟨h3, by linarith⟩
      exact hc this.ge
    · -- exactly at the tolerance: excluded since the denominator is below `10^5`
      obtain ⟨w, hw⟩ := frac_denominator h n j
      rw [← h3] at hw
      have h4 : |(w : ℝ)| < 1 := by
        rw [← hw, abs_mul]
        have : |(-1e-5 : ℝ)| = 1e-5 := by rw [abs_neg, abs_of_pos]; norm_num
        rw [this]; nlinarith
      have h5 : w = 0 := by
        have : |w| < 1 := by exact_mod_cast h4
        exact Int.abs_lt_one_iff.1 this
      rw [h5] at hw
      rw [Int.cast_zero] at hw
      rcases mul_eq_zero.1 hw with h6 | h6
      · exact hd h6
      · norm_num at h6
  · rintro ⟨h1, h2⟩
    refine ⟨by linarith, ?_⟩
    by_contra hc
    rcases lt_or_eq_of_le (not_lt.1 hc) with h3 | h3
    · have := k1 ⟨by linarith, by linarith⟩
      linarith
    · obtain ⟨w, hw⟩ := frac_denominator h n j
      rw [← h3] at hw
      have h4 : |((S.det - w : ℤ) : ℝ)| < 1 := by
        rw [Int.cast_sub, ← hw, show (S.det : ℝ) - S.det * (1 - 1e-5) = S.det * 1e-5 by ring, abs_mul]
        have : |(1e-5 : ℝ)| = 1e-5 := by rw [abs_of_pos]; norm_num
        rw [this]; nlinarith
      have h5 : S.det = w := by
        have : |S.det - w| < 1 := by exact_mod_cast h4
        have := Int.abs_lt_one_iff.1 this
        omega
      rw [← h5] at hw
      have : (1 - 1e-5 : ℝ) = 1 := mul_left_cancel₀ hd (by rw [hw, mul_one])
      norm_num at this

/-! ### The fundamental domain -/

/-- Integer points with fractional coordinates in `[0, 1)`. -/
def Dom (S : Matrix (Fin 3) (Fin 3) ℤ) (n : IVec) : Prop := ∀ j, 0 ≤ frac S n j ∧ frac S n j < 1

theorem dom_exists {S : Matrix (Fin 3) (Fin 3) ℤ} (h : S.det ≠ 0) (n : IVec) :
    ∃ t : IVec, Dom S (fun j => n j + (t ᵥ* S) j) := by
  refine ⟨fun i => -⌊frac S n i⌋, fun j => ?_⟩
  rw [frac_add_lattice h]
  dsimp only
  have e : frac S n j + ((-⌊frac S n j⌋ : ℤ) : ℝ) = Int.fract (frac S n j) := by
    push_cast; rw [Int.fract]; ring
  rw [e]
  exact ⟨Int.fract_nonneg _, Int.fract_lt_one _⟩

theorem dom_unique {S : Matrix (Fin 3) (Fin 3) ℤ} (h : S.det ≠ 0) {n n' t : IVec} (hn : Dom S n) (hn' : Dom S n')
    (he : ∀ j, n' j = n j + (t ᵥ* S) j) : n = n' := by
  have e : n' = fun j => n j + (t ᵥ* S) j := funext he
  have ht : t = 0 := by
    funext j
    have h1 := hn j
    have h2 := hn' j
    rw [e, frac_add_lattice h] at h2
    have h3 : (t j : ℝ) < 1 := by linarith
    have h4 : (-1 : ℝ) < t j := by linarith
    have h5 : t j < 1 := by exact_mod_cast h3
    have h6 : -1 < t j := by exact_mod_cast h4
    show t j = 0
    omega
  rw [e, ht]
  funext j; simp

/-- The sublattice generated by the rows. -/
def sub (S : Matrix (Fin 3) (Fin 3) ℤ) : Submodule ℤ IVec := LinearMap.range (Matrix.vecMulLinear S)

theorem mem_sub (S : Matrix (Fin 3) (Fin 3) ℤ) (n : IVec) : n ∈ sub S ↔ ∃ t : IVec, t ᵥ* S = n := Iff.rfl

theorem card_quotient {S : Matrix (Fin 3) (Fin 3) ℤ} (h : S.det ≠ 0) : Nat.card (IVec ⧸ sub S) = S.det.natAbs := by
  have inj : Function.Injective (Matrix.vecMulLinear S) := by
    intro a b hab
    have : (a - b) ᵥ* S = 0 := by
      have h1 : a ᵥ* S = b ᵥ* S := hab
      rw [Matrix.sub_vecMul, h1, sub_self]
    have := Matrix.eq_zero_of_vecMul_eq_zero h this
    exact sub_eq_zero.1 this
  let e : IVec ≃ₗ[ℤ] sub S := LinearEquiv.ofInjective (Matrix.vecMulLinear S) inj
  rw [← Submodule.natAbs_det_equiv (sub S) e]
  congr 1
  have : (sub S).subtype ∘ₗ AddMonoidHom.toIntLinearMap (e : IVec →+ sub S) = Matrix.vecMulLinear S := by
    ext x; rfl
  rw [this]
  have : Matrix.vecMulLinear S = Matrix.mulVecLin Sᵀ := by
    ext x; simp
  rw [this, ← Matrix.toLin'_apply', LinearMap.det_toLin', Matrix.det_transpose]

/-- A duplicate-free listing of the domain has `|det S|` entries. -/
theorem dom_length {S : Matrix (Fin 3) (Fin 3) ℤ} (h : S.det ≠ 0) (l : List IVec) (hl : l.Nodup)
    (hm : ∀ n, n ∈ l ↔ Dom S n) : l.length = S.det.natAbs := by
  rw [← card_quotient h, ← List.toFinset_card_of_nodup hl, ← Fintype.card_coe, ← Nat.card_eq_fintype_card]
  refine Nat.card_congr (Equiv.ofBijective (fun n => Submodule.Quotient.mk (p := sub S) n.1) ⟨?_, ?_⟩)
  · rintro ⟨n, hn⟩ ⟨n', hn'⟩ he
    have h1 := (Submodule.Quotient.eq (sub S)).1 he
    obtain ⟨t, ht⟩ := (mem_sub S _).1 h1
    rw [List.mem_toFinset, hm] at hn hn'
    exact Subtype.ext (dom_unique h hn' hn (t := t) (fun j => by rw [ht]; simp)).symm
  · intro q
    obtain ⟨n, rfl⟩ := Submodule.Quotient.mk_surjective (sub S) q
    obtain ⟨t, ht⟩ := dom_exists h n
    refine ⟨⟨_, List.mem_toFinset.2 ((hm _).2 ht)⟩, ?_⟩
    refine (Submodule.Quotient.eq (sub S)).2 ((mem_sub S _).2 ⟨t, ?_⟩)
    funext j; simp

/-! ### C36 -/

theorem mem_copyIndices {S : Matrix (Fin 3) (Fin 3) ℤ} (h : S.det ≠ 0) (hb : |S.det| < 100000)
    (hcol : ∀ j, ∃ i, 0 < S i j) (n : IVec) : n ∈ copyIndices S ↔ Dom S n := by
  unfold copyIndices
  simp only [List.mem_filter, decide_eq_true_eq, inBox_iff h hb, mem_mesh]
  refine ⟨fun hn => hn.2, fun hn => ⟨fun j => ?_, hn⟩⟩
  obtain ⟨h1, _, h3⟩ := box_bounds S (frac S n) hn j
  have h4 := h3 (hcol j)
  rw [← frac_spec h] at h1 h4
  exact ⟨by exact_mod_cast h1, by exact_mod_cast h4⟩

theorem translation_inj {A : Matrix (Fin 3) (Fin 3) ℝ} (hA : IsUnit A.det) {v w : Vec 3} (he : v ᵥ* A = w ᵥ* A) : v = w := by
  rw [← vecMul_inv A hA v, he, vecMul_inv A hA w]

theorem super_translation (A : Matrix (Fin 3) (Fin 3) ℝ) (S : Matrix (Fin 3) (Fin 3) ℤ) (t : IVec) :
    translation (supercellLattice A S) t = (fun i => (((t ᵥ* S) i : ℤ) : ℝ)) ᵥ* A := by
  have e : translation (supercellLattice A S) t = ((fun i => (t i : ℝ)) ᵥ* real S) ᵥ* A := by
    rw [Matrix.vecMul_vecMul]; rfl
  rw [e]
  congr 1
  funext i
  simp [Matrix.vecMul, dotProduct, real]

/-- Two primitive translations are images modulo the supercell exactly when they differ by a row combination. -/
theorem image_iff {A : Matrix (Fin 3) (Fin 3) ℝ} (hA : IsUnit A.det) (S : Matrix (Fin 3) (Fin 3) ℤ) (n n' : IVec) :
    Image (supercellLattice A S) (translation A n) (translation A n') ↔ ∃ t : IVec, ∀ j, n' j = n j + (t ᵥ* S) j := by
  have tr : ∀ m : IVec, translation A m = (fun i => (m i : ℝ)) ᵥ* A := fun _ => rfl
  constructor
  · rintro ⟨t, ht⟩
    refine ⟨t, fun j => ?_⟩
    have : (fun i => (n' i : ℝ)) ᵥ* A = (fun i => ((n i + (t ᵥ* S) i : ℤ) : ℝ)) ᵥ* A := by
      have e : (fun i => ((n i + (t ᵥ* S) i : ℤ) : ℝ)) = (fun i => (n i : ℝ)) + fun i => (((t ᵥ* S) i : ℤ) : ℝ) := by
        funext i; rw [Pi.add_apply, Int.cast_add]
      rw [e, Matrix.add_vecMul, ← super_translation, ← tr, ← tr]
      exact funext ht
    have := congrFun (translation_inj hA this) j
    exact_mod_cast this
  · rintro ⟨t, ht⟩
    refine ⟨t, fun k => ?_⟩
    rw [super_translation, tr, tr]
    have e : (fun i => (n' i : ℝ)) = (fun i => (n i : ℝ)) + fun i => (((t ᵥ* S) i : ℤ) : ℝ) := by
      funext i; rw [ht i, Pi.add_apply, Int.cast_add]
    rw [e, Matrix.add_vecMul]; rfl

/-- The configured supercell lattice consists of the vectors `Σ_j S_ij a_j`. -/
theorem c36_lattice (A : Matrix (Fin 3) (Fin 3) ℝ) (S : Matrix (Fin 3) (Fin 3) ℤ) :
    IsSupercell S A (supercellLattice A S) := fun _ _ => rfl

/-- C36: if every column of the supercell matrix has a positive entry and the supercell has fewer than 100000
primitive cells, the copies are `|det S|` primitive translations, one for each class of primitive translations
modulo the supercell lattice. -/
theorem c36_tiling_partial (A : Matrix (Fin 3) (Fin 3) ℝ) (hA : IsUnit A.det) (S : Matrix (Fin 3) (Fin 3) ℤ)
    (h : S.det ≠ 0) (hb : |S.det| < 100000) (hcol : ∀ j, ∃ i, 0 < S i j) :
    ((copies A S).length : ℤ) = |S.det| ∧ (copies A S).length = scale S ∧
    (∀ c ∈ copies A S, ∃ m, c = translation A m) ∧
    (copies A S).Pairwise (fun c c' => ¬ Image (supercellLattice A S) c c') ∧
    ∀ m, ∃ c ∈ copies A S, Image (supercellLattice A S) (translation A m) c := by
  have hm := mem_copyIndices h hb hcol
  have hl : (copies A S).length = S.det.natAbs := by
    unfold copies
    rw [List.length_map]
    exact dom_length h _ ((mesh_nodup _ _).filter _) hm
  refine ⟨by rw [hl, Int.natCast_natAbs], hl, ?_, ?_, ?_⟩
  · intro c hc
    obtain ⟨n, _, rfl⟩ := List.mem_map.1 hc
    exact ⟨n, rfl⟩
  · unfold copies
    rw [List.pairwise_map]
    have hnd : (copyIndices S).Nodup := (mesh_nodup _ _).filter _
    refine hnd.imp_of_mem ?_
    intro n n' hn hn' hne himg
    obtain ⟨t, ht⟩ := (image_iff hA S n n').1 himg
    exact hne (dom_unique h ((hm n).1 hn) ((hm n').1 hn') ht)
  · intro m
    obtain ⟨t, ht⟩ := dom_exists h m
    exact ⟨_, List.mem_map_of_mem ((hm _).2 ht), (image_iff hA S m _).2 ⟨t, fun _ => rfl⟩⟩

/-- C36 fails for every other sign pattern: if a column has no positive entry, no copy represents the primitive cell
at the origin. -/
theorem c36_origin_missing (A : Matrix (Fin 3) (Fin 3) ℝ) (hA : IsUnit A.det) (S : Matrix (Fin 3) (Fin 3) ℤ)
    (h : S.det ≠ 0) (j : Fin 3) (hcol : ∀ i, S i j ≤ 0) :
    ∀ c ∈ copies A S, ¬ Image (supercellLattice A S) (translation A 0) c := by
  intro c hc himg
  obtain ⟨n, hn, rfl⟩ := List.mem_map.1 hc
  obtain ⟨t, ht⟩ := (image_iff hA S 0 n).1 himg
  unfold copyIndices at hn
  simp only [List.mem_filter, decide_eq_true_eq, mem_mesh] at hn
  have hf : frac S n = fun k => (t k : ℝ) := by
    have e : n = fun k => (0 : IVec) k + (t ᵥ* S) k := funext ht
    rw [e, frac_add_lattice h]
    funext k
    have : frac S 0 k = 0 := by simp [frac, Matrix.vecMul, dotProduct]
    rw [this, zero_add]
  have ht0 : t = 0 := by
    funext k
    have h1 := hn.2 k
    rw [hf] at h1
    have h2 : (-1 : ℝ) < t k := by have := h1.1; norm_num at this ⊢; linarith
    have h3 : (t k : ℝ) < 1 := by have := h1.2; norm_num at this ⊢; linarith
    have h4 : -1 < t k := by exact_mod_cast h2
    have h5 : t k < 1 := by exact_mod_cast h3
    show t k = 0
    omega
  have hnj : n j = 0 := by rw [ht j, ht0]; simp
  have hmax : amax (unitBox.map (fun u => u ᵥ* S)) j ≤ 0 := by
    obtain ⟨p, hp, he⟩ := amax_mem (pts := unitBox.map (fun u => u ᵥ* S)) (by simp [unitBox]) j
    rw [he]
    obtain ⟨u, hu, rfl⟩ := List.mem_map.1 hp
    rw [mem_unitBox] at hu
    show ∑ i, u i * S i j ≤ 0
    refine Finset.sum_nonpos fun i _ => ?_
    have := hcol i
    rcases hu i with h0 | h0 <;> rw [h0] <;> simp [this]
  have := (hn.1 j).2
  omega

theorem frac_eq {S : Matrix (Fin 3) (Fin 3) ℤ} (h : S.det ≠ 0) {n : IVec} {f : Vec 3}
    (hf : ∀ j, (n j : ℝ) = ∑ i, f i * S i j) : frac S n = f := by
  refine translation_inj (unit_real h) ?_
  funext j
  have h1 := frac_spec h n j
  rw [hf j] at h1
  exact h1.symm

/-- C36 fails for large supercells, where the tolerance drops cells: of the 200000 cells of `diag(200000, 1, 1)` the
last one has no copy. -/
theorem c36_large (A : Matrix (Fin 3) (Fin 3) ℝ) (hA : IsUnit A.det) :
    ∀ c ∈ copies A !![200000, 0, 0; 0, 1, 0; 0, 0, 1],
      ¬ Image (supercellLattice A !![200000, 0, 0; 0, 1, 0; 0, 0, 1]) (translation A ![199999, 0, 0]) c := by
  intro c hc himg
  set S : Matrix (Fin 3) (Fin 3) ℤ := !![200000, 0, 0; 0, 1, 0; 0, 0, 1] with hS
  have h : S.det ≠ 0 := by rw [hS]; simp [Matrix.det_fin_three]
  obtain ⟨n, hn, rfl⟩ := List.mem_map.1 hc
  obtain ⟨t, ht⟩ := (image_iff hA S _ n).1 himg
  unfold copyIndices at hn
  simp only [List.mem_filter, decide_eq_true_eq, mem_mesh] at hn
  have hlo : 0 ≤ amin (unitBox.map (fun u => u ᵥ* S)) 0 := by decide
  have h0 := (hn.1 0).1
  have h1 := (hn.2 0).2
  have hf : (n 0 : ℝ) = frac S n 0 * 200000 := by
    rw [frac_spec h n 0, hS]; simp [Fin.sum_univ_three]
  have h2 : (n 0 : ℝ) < 199998 := by rw [hf]; norm_num at h1 ⊢; linarith
  have h3 : n 0 < 199998 := by exact_mod_cast h2
  have h4 := ht 0
  have h5 : (t ᵥ* S) 0 = t 0 * 200000 := by rw [hS]; simp [Matrix.vecMul, dotProduct, Fin.sum_univ_three]
  rw [h5] at h4
  simp at h4
  omega

/-- The conditions of `c36_tiling_partial` hold for the conventional cell of an fcc crystal (4 primitive cells). -/
example : let S : Matrix (Fin 3) (Fin 3) ℤ := !![-1, 1, 1; 1, -1, 1; 1, 1, -1]
    S.det ≠ 0 ∧ |S.det| < 100000 ∧ ∀ j, ∃ i, 0 < S i j := by
  refine ⟨by simp [Matrix.det_fin_three], by simp [Matrix.det_fin_three], by decide⟩

/-- Those of `c36_origin_missing` by a mirrored or half-turned cell. -/
example : let S : Matrix (Fin 3) (Fin 3) ℤ := !![-1, 0, 0; 0, -1, 0; 0, 0, 1]
    S.det ≠ 0 ∧ ∀ i, S i 0 ≤ 0 := by
  refine ⟨by simp [Matrix.det_fin_three], by decide⟩

/-! ### C37 -/

theorem mem_kIndices {S : Matrix (Fin 3) (Fin 3) ℤ} (hs : Sᵀ = S) (h : S.det ≠ 0) (hb : |S.det| < 100000) (n : IVec) :
    n ∈ kIndices S ↔ Dom S n := by
  unfold kIndices
  rw [hs]
  simp only [List.mem_filter, decide_eq_true_eq, inBox_iff h hb, mem_mesh]
  refine ⟨fun hn => hn.2, fun hn => ⟨fun j => ?_, hn⟩⟩
  obtain ⟨h1, h2, _⟩ := box_bounds S (frac S n) hn j
  rw [← frac_spec h] at h1 h2
  have h3 : n j ≤ amax (unitBox.map (fun u => u ᵥ* S)) j := by exact_mod_cast h2
  exact ⟨by exact_mod_cast h1, by omega⟩

/-- `(f @ B) · (v @ A) = 2π f · v` for the reciprocal lattice `B` of `A`. -/
theorem dot_reciprocal {A : Matrix (Fin 3) (Fin 3) ℝ} (hA : IsUnit A.det) (f v : Vec 3) :
    dot (f ᵥ* reciprocal A) (v ᵥ* A) = 2 * Real.pi * ∑ j, f j * v j := by
  have e : dot (f ᵥ* reciprocal A) (v ᵥ* A) = (f ᵥ* reciprocal A) ⬝ᵥ (v ᵥ* A) := by
    simp [dot, dotProduct, Fin.sum_univ_three]
  rw [e, ← Matrix.mulVec_transpose A v, Matrix.dotProduct_mulVec, Matrix.vecMul_vecMul]
  unfold reciprocal
  rw [Matrix.smul_mul, ← Matrix.transpose_mul, Matrix.mul_nonsing_inv A hA, Matrix.transpose_one, Matrix.vecMul_smul,
    Matrix.vecMul_one]
  simp [dotProduct, Finset.mul_sum, mul_assoc]

theorem dot_sub_left (a b c : Vec 3) : dot (fun j => a j - b j) c = dot a c - dot b c := by
  unfold dot; ring

/-- Expansion of a vector in reciprocal vectors. -/
theorem expand {A : Matrix (Fin 3) (Fin 3) ℝ} (hA : IsUnit A.det) (q : Vec 3) :
    ∃ g : Vec 3, q = g ᵥ* reciprocal A := by
  refine ⟨(1 / (2 * Real.pi)) • (q ᵥ* Aᵀ), ?_⟩
  unfold reciprocal
  rw [Matrix.smul_vecMul, Matrix.vecMul_smul, Matrix.vecMul_vecMul, ← Matrix.transpose_mul,
    Matrix.nonsing_inv_mul A hA, Matrix.transpose_one, Matrix.vecMul_one, smul_smul]
  have : 1 / (2 * Real.pi) * (2 * Real.pi) = 1 := by
    have := Real.pi_ne_zero
    field_simp
  rw [this, one_smul]

theorem pmod_unit {x : ℝ} (h0 : 0 ≤ x) (h1 : x < 1) : pmod x 1 = x := by
  rw [pmod_one, Int.fract_eq_self.2 ⟨h0, h1⟩]

theorem kpts_eq {S : Matrix (Fin 3) (Fin 3) ℤ} (hs : Sᵀ = S) (h : S.det ≠ 0) (hb : |S.det| < 100000)
    (B : Matrix (Fin 3) (Fin 3) ℝ) : kpts S B = (kIndices S).map (fun n => frac S n ᵥ* B) := by
  unfold kpts
  refine List.map_congr_left fun n hn => ?_
  have := (mem_kIndices hs h hb n).1 hn
  congr 1
  funext j
  exact pmod_unit (this j).1 (this j).2

theorem sum_comm_S (S : Matrix (Fin 3) (Fin 3) ℤ) (hs : Sᵀ = S) (f : Vec 3) (m : IVec) :
    ∑ j, f j * (((m ᵥ* S) j : ℤ) : ℝ) = ∑ i, (m i : ℝ) * ∑ j, f j * S j i := by
  have e : ∀ i j, S i j = S j i := fun i j => by
    conv_lhs => rw [← hs]
    rfl
  simp only [Matrix.vecMul, dotProduct, Fin.sum_univ_three]
  push_cast
  rw [e 1 0, e 2 0, e 2 1]
  ring

/-- C37: for a symmetric supercell matrix (in particular a diagonal one) with fewer than 100000 cells, the k-points
are `|det S|` wave vectors of the supercell, pairwise inequivalent in the primitive lattice, and every wave vector of
the supercell is equivalent to one of them. -/
theorem c37_symmetric_partial (A : Matrix (Fin 3) (Fin 3) ℝ) (hA : IsUnit A.det) (S : Matrix (Fin 3) (Fin 3) ℤ)
    (hs : Sᵀ = S) (h : S.det ≠ 0) (hb : |S.det| < 100000) :
    ((kpts S (reciprocal A)).length : ℤ) = |S.det| ∧
    (∀ k ∈ kpts S (reciprocal A), WaveVector (supercellLattice A S) k) ∧
    (kpts S (reciprocal A)).Pairwise (fun k k' => ¬ Equivalent A k k') ∧
    ∀ q, WaveVector (supercellLattice A S) q → ∃ k ∈ kpts S (reciprocal A), Equivalent A q k := by
  have hm := mem_kIndices hs h hb
  have hnd : (kIndices S).Nodup := (mesh_nodup _ _).filter _
  have tr : ∀ m : IVec, translation A m = (fun i => (m i : ℝ)) ᵥ* A := fun _ => rfl
  have hpi := Real.pi_pos
  rw [kpts_eq hs h hb]
  refine ⟨?_, ?_, ?_, ?_⟩
  · rw [List.length_map, dom_length h _ hnd hm, Int.natCast_natAbs]
  · intro k hk m
    obtain ⟨n, _, rfl⟩ := List.mem_map.1 hk
    refine ⟨∑ i, m i * n i, ?_⟩
    rw [super_translation, dot_reciprocal hA, sum_comm_S S hs]
    congr 1
    push_cast
    exact Finset.sum_congr rfl fun i _ => by rw [frac_spec h n i]
  · rw [List.pairwise_map]
    refine hnd.imp_of_mem ?_
    intro n n' hn hn' hne heq
    apply hne
    have key : ∀ j, frac S n j = frac S n' j := by
      intro j
      obtain ⟨z, hz⟩ := heq (fun i => if i = j then 1 else 0)
      rw [dot_sub_left, tr, dot_reciprocal hA, dot_reciprocal hA] at hz
      simp at hz
      have e : frac S n j - frac S n' j = z := by
        have h1 : (2 * Real.pi) * (frac S n j - frac S n' j) = 2 * Real.pi * z := by rw [← hz]; ring
        exact mul_left_cancel₀ (by positivity) h1
      have h1 := (hm n).1 hn j
      have h2 := (hm n').1 hn' j
      have h3 : (z : ℝ) < 1 := by rw [← e]; linarith
      have h4 : (-1 : ℝ) < z := by rw [← e]; linarith
      have h5 : z < 1 := by exact_mod_cast h3
      have h6 : -1 < z := by exact_mod_cast h4
      have h7 : z = 0 := by omega
      rw [h7] at e
      push_cast at e
      linarith
    funext j
    have h1 := frac_spec h n j
    rw [Finset.sum_congr rfl (fun i _ => by rw [key i]), ← frac_spec h n' j] at h1
    exact_mod_cast h1
  · intro q hq
    obtain ⟨g, rfl⟩ := expand hA q
    have hint : ∀ i, ∃ z : ℤ, ∑ j, g j * S j i = z := by
      intro i
      obtain ⟨z, hz⟩ := hq (fun k => if k = i then 1 else 0)
      rw [super_translation, dot_reciprocal hA, sum_comm_S S hs] at hz
      refine ⟨z, ?_⟩
      have := mul_left_cancel₀ (by positivity) hz
      rw [← this]
      simp
    choose n hn using hint
    have hg : frac S n = g := frac_eq h (fun j => (hn j).symm)
    obtain ⟨t, ht⟩ := dom_exists h n
    refine ⟨_, List.mem_map_of_mem ((hm _).2 ht), ?_⟩
    intro m
    rw [frac_add_lattice h, hg, dot_sub_left, tr, dot_reciprocal hA, dot_reciprocal hA]
    refine ⟨-∑ j, t j * m j, ?_⟩
    push_cast
    rw [← mul_sub, ← Finset.sum_sub_distrib]
    congr 1
    rw [← Finset.sum_neg_distrib]
    exact Finset.sum_congr rfl fun j _ => by ring

/-- C37 fails for matrices that are not symmetric: for `S = [[1,1,0],[0,2,0],[0,0,1]]` one of the two k-points is not a
wave vector of the supercell (the code solves `n @ inv(S)` where `n @ inv(S.T)` is needed). -/
theorem c37_wrong_point (A : Matrix (Fin 3) (Fin 3) ℝ) (hA : IsUnit A.det) :
    ∃ k ∈ kpts !![1, 1, 0; 0, 2, 0; 0, 0, 1] (reciprocal A),
      ¬ WaveVector (supercellLattice A !![1, 1, 0; 0, 2, 0; 0, 0, 1]) k := by
  set S : Matrix (Fin 3) (Fin 3) ℤ := !![1, 1, 0; 0, 2, 0; 0, 0, 1] with hS
  have h : S.det ≠ 0 := by rw [hS]; simp [Matrix.det_fin_three]
  have hb : |S.det| < 100000 := by rw [hS]; simp [Matrix.det_fin_three]
  have hf : frac S ![0, 1, 0] = ![0, 1 / 2, 0] := by
    apply frac_eq h
    intro j
    fin_cases j <;> simp [hS, Fin.sum_univ_three]
  have hmem : (![0, 1, 0] : IVec) ∈ kIndices S := by
    unfold kIndices
    simp only [List.mem_filter, decide_eq_true_eq, inBox_iff h hb, mem_mesh]
    refine ⟨by decide, ?_⟩
    rw [hf]
    intro j
    fin_cases j <;> norm_num
  refine ⟨_, List.mem_map_of_mem hmem, ?_⟩
  intro hw
  obtain ⟨z, hz⟩ := hw ![1, 0, 0]
  have hp : (fun j => pmod (frac S ![0, 1, 0] j) 1) = ![0, 1 / 2, 0] := by
    rw [hf]
    funext j
    have : pmod 0 1 = 0 := pmod_unit le_rfl one_pos
    have h2 : pmod (1 / 2) 1 = 1 / 2 := pmod_unit (by norm_num) (by norm_num)
    fin_cases j
    · exact this
    · exact h2
    · exact this
  rw [hp, super_translation, dot_reciprocal hA] at hz
  have hpi := Real.pi_pos
  have := mul_left_cancel₀ (by positivity) hz
  simp [hS, Fin.sum_univ_three, Matrix.vecMul, dotProduct] at this
  have h2 : (1 : ℝ) = 2 * z := by linarith
  have h3 : (1 : ℤ) = 2 * z := by exact_mod_cast h2
  omega

/-- C37 fails: for `S = [[0,-1,0],[2,0,0],[0,0,1]]` (two cells) there is only one k-point. -/
theorem c37_missing_point (B : Matrix (Fin 3) (Fin 3) ℝ) :
    (kpts !![0, -1, 0; 2, 0, 0; 0, 0, 1] B).length ≤ 1 ∧
    |(!![0, -1, 0; 2, 0, 0; 0, 0, 1] : Matrix (Fin 3) (Fin 3) ℤ).det| = 2 := by
  set S : Matrix (Fin 3) (Fin 3) ℤ := !![0, -1, 0; 2, 0, 0; 0, 0, 1] with hS
  have hd : S.det = 2 := by rw [hS]; simp [Matrix.det_fin_three]
  have h : S.det ≠ 0 := by rw [hd]; norm_num
  have hb : |S.det| < 100000 := by rw [hd]; norm_num
  refine ⟨?_, by rw [hd]; rfl⟩
  unfold kpts
  rw [List.length_map]
  have hall : ∀ n ∈ kIndices S, n = 0 := by
    intro n hn
    unfold kIndices at hn
    simp only [List.mem_filter, decide_eq_true_eq, inBox_iff h hb, mem_mesh] at hn
    obtain ⟨hbox, hdom⟩ := hn
    have hhi : amax (unitBox.map (fun u => u ᵥ* Sᵀ)) 0 ≤ 0 := by decide
    have b0 := (hbox 0).2
    have f0 := frac_spec h n 0
    have f1 := frac_spec h n 1
    have f2 := frac_spec h n 2
    simp [hS, Fin.sum_univ_three] at f0 f1 f2
    rw [← hS] at f0 f1 f2
    have d0 := hdom 0
    have d1 := hdom 1
    have d2 := hdom 2
    have g0 : (0 : ℝ) ≤ n 0 := by rw [f0]; linarith
    have g1 : (n 1 : ℝ) ≤ 0 := by rw [f1]; linarith
    have g1' : (-1 : ℝ) < n 1 := by rw [f1]; linarith
    have g2 : (0 : ℝ) ≤ n 2 := by rw [f2]; linarith
    have g2' : (n 2 : ℝ) < 1 := by rw [f2]; linarith
    have i0 : 0 ≤ n 0 := by exact_mod_cast g0
    have i1 : n 1 ≤ 0 := by exact_mod_cast g1
    have i1' : -1 < n 1 := by exact_mod_cast g1'
    have i2 : 0 ≤ n 2 := by exact_mod_cast g2
    have i2' : n 2 < 1 := by exact_mod_cast g2'
    funext j
    fin_cases j
    · show n 0 = 0; omega
    · show n 1 = 0; omega
    · show n 2 = 0; omega
  have hnd : (kIndices S).Nodup := (mesh_nodup _ _).filter _
  cases hk : kIndices S with
  | nil => simp
  | cons a l =>
    cases l with
    | nil => simp
    | cons b l =>
      rw [hk] at hnd hall
      have ha := hall a (by simp)
      have hb' := hall b (by simp)
      simp [ha, hb'] at hnd

/-- The conditions of `c37_symmetric_partial` hold for the conventional fcc cell. -/
example : let S : Matrix (Fin 3) (Fin 3) ℤ := !![-1, 1, 1; 1, -1, 1; 1, 1, -1]
    Sᵀ = S ∧ S.det ≠ 0 ∧ |S.det| < 100000 := by
  refine ⟨by decide, by simp [Matrix.det_fin_three], by simp [Matrix.det_fin_three]⟩

end Jaqmc.Supercell.Props
