import Verif.Model.Ewald
import Verif.Spec.Ewald
import Verif.Props.Supercell
import Mathlib.Analysis.Real.Pi.Bounds
/-! C34, C35, C58: the Ewald sum. -/
namespace Jaqmc.Ewald.Props
open Jaqmc.Geometry Jaqmc.Geometry.Spec Jaqmc.Geometry.Props Jaqmc.Supercell Jaqmc.Supercell.Props Jaqmc.Ewald Matrix
open scoped Classical

variable {n : Nat}

/-! ### C34: the half-space grid -/

/-- The whole grid before selection by weight. -/
def grid (gmax : Nat) : List IVec := gridXpos gmax ++ gridX0Ypos gmax ++ gridX0Y0Zpos gmax

theorem kept_eq (L : Matrix (Fin 3) (Fin 3) ℝ) (gmax : Nat) :
    kept L gmax = (grid gmax).filter (fun g => decide (gweight L g > 1e-12)) := by
  simp [kept, grid, selectBig, List.filter_append]

theorem forall_three {P : Fin 3 → Prop} : (∀ j, P j) ↔ P 0 ∧ P 1 ∧ P 2 := by
  constructor
  · intro h; exact ⟨h 0, h 1, h 2⟩
  · rintro ⟨h0, h1, h2⟩ j; fin_cases j <;> assumption

theorem mem_grid (gmax : Nat) (g : IVec) : g ∈ grid gmax ↔
    (∀ j, -(gmax : ℤ) ≤ g j ∧ g j ≤ gmax) ∧
      (0 < g 0 ∨ (g 0 = 0 ∧ 0 < g 1) ∨ (g 0 = 0 ∧ g 1 = 0 ∧ 0 < g 2)) := by
  unfold grid gridXpos gridX0Ypos gridX0Y0Zpos
  simp only [List.mem_append, mem_mesh, forall_three, Matrix.cons_val_zero, Matrix.cons_val_one, Matrix.cons_val]
  omega

theorem nodup_grid (gmax : Nat) : (grid gmax).Nodup := by
  have disj : ∀ {lo hi lo' hi' : IVec}, (∀ g : IVec, (∀ j, lo j ≤ g j ∧ g j < hi j) → (∀ j, lo' j ≤ g j ∧ g j < hi' j) → False) →
      List.Disjoint (mesh lo hi) (mesh lo' hi') := by
    intro lo hi lo' hi' h
    rw [List.disjoint_left]
    intro g h1 h2
    exact h g ((mem_mesh _ _ _).1 h1) ((mem_mesh _ _ _).1 h2)
  unfold grid gridXpos gridX0Ypos gridX0Y0Zpos
  rw [List.nodup_append', List.nodup_append']
  refine ⟨⟨mesh_nodup _ _, mesh_nodup _ _, disj ?_⟩, mesh_nodup _ _, ?_⟩
  · intro g h1 h2
    simp only [forall_three, Matrix.cons_val_zero, Matrix.cons_val_one, Matrix.cons_val] at h1 h2
    omega
  · rw [List.disjoint_append_left]
    constructor <;> apply disj <;> intro g h1 h2 <;>
      simp only [forall_three, Matrix.cons_val_zero, Matrix.cons_val_one, Matrix.cons_val] at h1 h2 <;> omega

/-- C34: for every nonzero vector in the cut-off box exactly one of `g` and `-g` is in the grid, once; zero and
vectors outside the box are not. -/
theorem c34_half (gmax : Nat) (g : Fin 3 → ℤ) :
    let all := gridXpos gmax ++ gridX0Ypos gmax ++ gridX0Y0Zpos gmax
    List.count g all + List.count (-g) all
      = if g ≠ 0 ∧ (∀ j, |g j| ≤ gmax) then 1 else 0 := by
  have hc : ∀ g, List.count g (grid gmax) = if g ∈ grid gmax then 1 else 0 := by
    intro g
    split
    · rename_i h; exact List.count_eq_one_of_mem (nodup_grid gmax) h
    · rename_i h; exact List.count_eq_zero_of_not_mem h
  have hz : g ≠ 0 ↔ ¬ (g 0 = 0 ∧ g 1 = 0 ∧ g 2 = 0) := by
    rw [not_iff_not, funext_iff, forall_three]; rfl
  show List.count g (grid gmax) + List.count (-g) (grid gmax) = _
  simp only [hc, mem_grid, hz, forall_three, Pi.neg_apply, abs_le]
  split_ifs <;> omega

theorem mem_box (c : Nat) (g : Fin 3 → ℤ) : g ∈ Spec.box c ↔ ∀ j, -(c : ℤ) ≤ g j ∧ g j ≤ c := by
  simp [Spec.box, Fintype.mem_piFinset, Finset.mem_Icc]

/-- Sums over the full box are twice the sums over the grid, for even functions. -/
theorem sum_box {f : IVec → ℝ} {P : IVec → Prop} (hf : ∀ g, f (-g) = f g) (hP : ∀ g, P (-g) ↔ P g) (gmax : Nat) :
    ∑ g ∈ (Spec.box gmax).filter (fun g => g ≠ 0 ∧ P g), f g
      = 2 * (((grid gmax).filter (fun g => decide (P g))).map f).sum := by
  have hnd : ((grid gmax).filter (fun g => decide (P g))).Nodup := (nodup_grid gmax).filter _
  rw [← List.sum_toFinset f hnd]
  set H := ((grid gmax).filter (fun g => decide (P g))).toFinset with hH
  have hmemH : ∀ g, g ∈ H ↔ g ∈ grid gmax ∧ P g := by intro g; simp [hH]
  have hsplit : (Spec.box gmax).filter (fun g => g ≠ 0 ∧ P g) = H ∪ H.image (fun g => -g) := by
    ext g
    have hz : g ≠ 0 ↔ ¬ (g 0 = 0 ∧ g 1 = 0 ∧ g 2 = 0) := by
      rw [not_iff_not, funext_iff, forall_three]; rfl
    have hi : g ∈ H.image (fun g => -g) ↔ -g ∈ H := by
      rw [Finset.mem_image]
      constructor
      · rintro ⟨a, ha, rfl⟩; rwa [neg_neg]
      · intro h; exact ⟨-g, h, neg_neg g⟩
    rw [Finset.mem_union, hi, Finset.mem_filter, mem_box, hmemH, hmemH, hP, hz, mem_grid, mem_grid]
    simp only [forall_three, Pi.neg_apply]
    by_cases hp : P g
    · simp only [hp, and_true]; omega
    · simp [hp]
  have hdisj : Disjoint H (H.image (fun g => -g)) := by
    rw [Finset.disjoint_left]
    intro g h1 h2
    obtain ⟨a, ha, rfl⟩ := Finset.mem_image.1 h2
    rw [hmemH, mem_grid] at h1 ha
    have h3 := h1.1.2
    have h4 := ha.1.2
    simp only [Pi.neg_apply] at h3
    omega
  rw [hsplit, Finset.sum_union hdisj, Finset.sum_image (fun a _ b _ h => neg_injective h)]
  simp only [hf]
  ring

theorem gvec_eq (L : Matrix (Fin 3) (Fin 3) ℝ) (g : IVec) : gvec L g = Spec.G L g := by
  funext k
  simp only [gvec, Spec.G, recvec, Matrix.vecMul, dotProduct, Matrix.transpose_apply]
  ring

theorem gsq_eq (L : Matrix (Fin 3) (Fin 3) ℝ) (g : IVec) : gsq L g = dot (Spec.G L g) (Spec.G L g) := by
  unfold gsq
  rw [gvec_eq]
  simp [dot, Fin.sum_univ_three]

theorem gweight_eq (L : Matrix (Fin 3) (Fin 3) ℝ) (g : IVec) : gweight L g = Spec.W L.det (alpha L) (Spec.G L g) := by
  unfold gweight Spec.W
  rw [gsq_eq]
  ring

theorem sf_eq (L : Matrix (Fin 3) (Fin 3) ℝ) (x : Fin n → Vec 3) (q : Fin n → ℝ) (g : IVec) :
    structureFactor L x q g = Spec.S x q (Spec.G L g) := by
  unfold structureFactor Spec.S
  refine Finset.sum_congr rfl fun j _ => ?_
  rw [mul_comm, gvec_eq]
  simp only [dot, Fin.sum_univ_three]

theorem G_neg (L : Matrix (Fin 3) (Fin 3) ℝ) (g : IVec) : Spec.G L (-g) = fun k => -Spec.G L g k := by
  funext k
  simp [Spec.G, Fin.sum_univ_three]
  ring

theorem dot_neg_neg (v : Vec 3) : dot (fun k => -v k) (fun k => -v k) = dot v v := by unfold dot; ring

theorem S_neg (x : Fin n → Vec 3) (q : Fin n → ℝ) (v : Vec 3) : Spec.S x q (fun k => -v k) = (starRingEnd ℂ) (Spec.S x q v) := by
  unfold Spec.S
  rw [map_sum]
  refine Finset.sum_congr rfl fun j _ => ?_
  rw [map_mul, Complex.conj_ofReal, ← Complex.exp_conj, map_mul, Complex.conj_I, Complex.conj_ofReal]
  congr 2
  have : dot (fun k => -v k) (x j) = -dot v (x j) := by unfold dot; ring
  rw [this]; push_cast; ring

/-- C34: the reciprocal part is half the sum over all nonzero reciprocal vectors of the box with significant weight. -/
theorem c34_recip (L : Matrix (Fin 3) (Fin 3) ℝ) (gmax : Nat) (x : Fin n → Vec 3) (q : Fin n → ℝ) :
    vRecip L gmax x q = Spec.recip L L.det (alpha L) gmax x q := by
  unfold vRecip Spec.recip
  rw [kept_eq, sum_box (P := fun g => Spec.W L.det (alpha L) (Spec.G L g) > 1e-12)]
  · simp only [gweight_eq, sf_eq]; ring
  · intro g
    rw [G_neg, S_neg, Complex.norm_conj]
    unfold Spec.W
    rw [dot_neg_neg]
  · intro g
    rw [G_neg]
    unfold Spec.W
    rw [dot_neg_neg]

/-! ### C35 -/

/-- C35 fails for every left-handed lattice: all reciprocal vectors are discarded, whatever the cut-off. -/
theorem c35_left_handed (L : Matrix (Fin 3) (Fin 3) ℝ) (h : L.det < 0) (gmax : Nat) (x : Fin n → Vec 3) (q : Fin n → ℝ) :
    vRecip L gmax x q = 0 ∧ 0 ≤ vCharged L q := by
  constructor
  · unfold vRecip
    have : kept L gmax = [] := by
      rw [kept_eq, List.filter_eq_nil_iff]
      intro g _
      simp only [decide_eq_true_eq, not_lt, gt_iff_lt]
      have h1 : 0 ≤ gsq L g := by unfold gsq; exact Finset.sum_nonneg fun k _ => mul_self_nonneg _
      have h2 : L.det * gsq L g ≤ 0 := mul_nonpos_of_nonpos_of_nonneg h.le h1
      have h3 : gweight L g ≤ 0 := by
        unfold gweight
        exact div_nonpos_of_nonneg_of_nonpos (by positivity) h2
      linarith
    rw [this]; simp
  · unfold vCharged
    have : 0 ≤ -Real.pi / (L.det * alpha L ^ 2) := by
      apply div_nonneg_of_nonpos (by linarith [Real.pi_pos])
      exact mul_nonpos_of_nonpos_of_nonneg h.le (by positivity)
    positivity

/-! ### The real-space sum -/

/-- The masked pair potential. -/
noncomputable def pot (erfc : ℝ → ℝ) (a r : ℝ) : ℝ :=
  erfc (a * (if r < 1e-7 then 1e-7 else r)) / (if r < 1e-7 then 1e-7 else r)

theorem images_nodup (nlat : Nat) : (images nlat).Nodup := mesh_nodup _ _

theorem mem_images (nlat : Nat) (m : IVec) : m ∈ images nlat ↔ m ∈ Spec.box nlat := by
  rw [images, mem_mesh, mem_box]
  exact forall_congr' fun j => ⟨fun h => ⟨h.1, by omega⟩, fun h => ⟨h.1, by omega⟩⟩

theorem norm_zero_iff (v : Vec 3) : Geometry.norm v = 0 ↔ v = 0 := by
  rw [norm_eq_length]
  unfold length
  rw [Real.sqrt_eq_zero (Finset.sum_nonneg fun k _ => mul_self_nonneg _)]
  constructor
  · intro h
    rw [Finset.sum_eq_zero_iff_of_nonneg (fun k _ => mul_self_nonneg _)] at h
    funext k
    exact mul_self_eq_zero.1 (h k (Finset.mem_univ k))
  · rintro rfl; simp

theorem latticeVec_zero_iff {L : Matrix (Fin 3) (Fin 3) ℝ} (h : IsUnit L.det) (m : IVec) : latticeVec L m = 0 ↔ m = 0 := by
  constructor
  · intro he
    have : (fun i => (m i : ℝ)) ᵥ* L = (0 : Vec 3) ᵥ* L := by rw [Matrix.zero_vecMul]; exact he
    have := translation_inj h this
    funext i
    have h1 := congrFun this i
    simp only [Pi.zero_apply] at h1
    show m i = 0
    exact_mod_cast h1
  · rintro rfl
    funext k; simp [latticeVec, Matrix.vecMul, dotProduct]

theorem center_iff {L : Matrix (Fin 3) (Fin 3) ℝ} (h : IsUnit L.det) (nlat : Nat) (l : Fin (images nlat).length) :
    center L nlat = some l ↔ (images nlat).get l = 0 := by
  have h0 : (0 : IVec) ∈ images nlat := by
    rw [mem_images, mem_box]; intro j; simp
  obtain ⟨l0, hl0⟩ := List.mem_iff_get.1 h0
  have hne : List.finRange (images nlat).length ≠ [] := by
    intro hc
    have := List.mem_finRange l0
    rw [hc] at this; simp at this
  have key : ∀ c, center L nlat = some c → (images nlat).get c = 0 := by
    intro c hc
    have h1 := List.le_of_mem_argmin (List.mem_finRange l0) hc
    rw [hl0, (latticeVec_zero_iff h 0).2 rfl, (norm_zero_iff 0).2 rfl] at h1
    have h2 : Geometry.norm (latticeVec L ((images nlat).get c)) = 0 :=
      le_antisymm h1 (Real.sqrt_nonneg _)
    exact (latticeVec_zero_iff h _).1 ((norm_zero_iff _).1 h2)
  refine ⟨key l, fun hl => ?_⟩
  cases hc : center L nlat with
  | none => exact absurd (List.argmin_eq_none.1 hc) hne
  | some c =>
    have := key c hc
    congr 1
    exact (List.nodup_iff_injective_get.1 (images_nodup nlat)) (this.trans hl.symm)

/-- The real-space sum as a sum over image vectors. -/
theorem vReal_box (erfc : ℝ → ℝ) {L : Matrix (Fin 3) (Fin 3) ℝ} (h : IsUnit L.det) (nlat : Nat) (x : Fin n → Vec 3)
    (q : Fin n → ℝ) : vReal erfc L nlat x q = 1 / 2 * ∑ m ∈ Spec.box nlat, ∑ i, ∑ j, if m = 0 ∧ i = j then 0 else
      q i * q j * pot erfc (alpha L) (Geometry.norm (fun k => (minImage L (x i) (x j)).1 k + translation L m k)) := by
  unfold vReal
  congr 1
  set F : IVec → ℝ := fun m => ∑ i, ∑ j, if m = 0 ∧ i = j then 0 else
      q i * q j * pot erfc (alpha L) (Geometry.norm (fun k => (minImage L (x i) (x j)).1 k + translation L m k)) with hF
  have e1 : ∀ l : Fin (images nlat).length, (∑ i, ∑ j,
      let rvec := fun k => (minImage L (x i) (x j)).1 k + latticeVec L ((images nlat).get l) k
      let r := Geometry.norm rvec
      let rsafe := if r < 1e-7 then 1e-7 else r
      let mask := if center L nlat = some l then 1 - (if i = j then 1 else 0) else 1
      q i * q j * (erfc (alpha L * rsafe) / rsafe) * mask) = F ((images nlat).get l) := by
    intro l
    rw [hF]
    refine Finset.sum_congr rfl fun i _ => Finset.sum_congr rfl fun j _ => ?_
    dsimp only
    simp only [center_iff h]
    by_cases h0 : (images nlat).get l = 0
    · by_cases hij : i = j
      · simp only [h0, hij, if_true, and_self]; ring
      · simp only [h0, hij, if_true, if_false, and_false, pot, latticeVec_eq]; ring
    · simp only [h0, if_false, false_and, pot, latticeVec_eq]; ring
  rw [Finset.sum_congr rfl (fun l _ => e1 l)]
  have e2 : ∑ l : Fin (images nlat).length, F ((images nlat).get l) = ((images nlat).map F).sum := by
    rw [← List.sum_ofFn]
    congr 1
    rw [← Function.comp_def, ← List.map_ofFn, List.ofFn_get]
  rw [e2, ← List.sum_toFinset F (images_nodup nlat)]
  refine Finset.sum_congr ?_ fun _ _ => rfl
  ext m
  rw [List.mem_toFinset, mem_images]

/-! ### C58 -/

/-- C58: for an invertible lattice and particles no closer than `1e-7` (images included), the energy is the Ewald
formula. (`Ω` is the determinant, negative for left-handed lattices: see C35.) -/
theorem c58_formula (erfc : ℝ → ℝ) (L : Matrix (Fin 3) (Fin 3) ℝ) (h : IsUnit L.det) (gmax nlat : Nat)
    (x : Fin n → Vec 3) (q : Fin n → ℝ)
    (hr : ∀ i j m, m ∈ Spec.box nlat → ¬ (m = 0 ∧ i = j) →
      1e-7 ≤ length (fun k => (minImage L (x i) (x j)).1 k + translation L m k)) :
    energy erfc L gmax nlat x q = Spec.real erfc L (alpha L) nlat (fun i j => (minImage L (x i) (x j)).1) q
      + Spec.recip L L.det (alpha L) gmax x q - alpha L / Real.sqrt Real.pi * ∑ i, q i ^ 2
      - Real.pi / (2 * L.det * alpha L ^ 2) * (∑ i, q i) ^ 2 := by
  unfold energy
  rw [c34_recip, vReal_box erfc h]
  have e : ∀ m ∈ Spec.box nlat, (∑ i, ∑ j, if m = 0 ∧ i = j then 0 else
      q i * q j * pot erfc (alpha L) (Geometry.norm (fun k => (minImage L (x i) (x j)).1 k + translation L m k)))
      = ∑ i, ∑ j, if m = 0 ∧ i = j then 0 else
    q i * q j * (erfc (alpha L * length (fun k => (minImage L (x i) (x j)).1 k + translation L m k))
      / length (fun k => (minImage L (x i) (x j)).1 k + translation L m k)) := by
    intro m hm
    refine Finset.sum_congr rfl fun i _ => Finset.sum_congr rfl fun j _ => ?_
    by_cases hc : m = 0 ∧ i = j
    · rw [if_pos hc, if_pos hc]
    · rw [if_neg hc, if_neg hc, norm_eq_length]
      unfold pot
      rw [if_neg (not_lt.2 (hr i j m hm hc))]
  rw [Finset.sum_congr rfl e]
  unfold Spec.real vSelf vCharged
  have : 1 / 2 * (-Real.pi / (L.det * alpha L ^ 2)) = -(Real.pi / (2 * L.det * alpha L ^ 2)) := by
    rw [neg_div, mul_neg, one_div_mul_eq_div, div_div]
    congr 2; ring
  rw [this]
  ring

theorem minImage_shift (L : Matrix (Fin 3) (Fin 3) ℝ) (a b v : Vec 3) :
    minImage L (fun k => a k + v k) (fun k => b k + v k) = minImage L a b := by
  unfold minImage
  have : (fun k => (a k + v k) - (b k + v k)) = fun k => a k - b k := by funext k; ring
  rw [this]

theorem S_shift (x : Fin n → Vec 3) (q : Fin n → ℝ) (g v : Vec 3) :
    ‖Spec.S (fun j k => x j k + v k) q g‖ = ‖Spec.S x q g‖ := by
  have : Spec.S (fun j k => x j k + v k) q g = Complex.exp (Complex.I * (dot g v : ℝ)) * Spec.S x q g := by
    unfold Spec.S
    rw [Finset.mul_sum]
    refine Finset.sum_congr rfl fun j _ => ?_
    have : dot g (fun k => x j k + v k) = dot g v + dot g (x j) := by unfold dot; ring
    rw [this]
    push_cast
    rw [mul_add, Complex.exp_add]
    ring
  rw [this, norm_mul, mul_comm Complex.I, Complex.norm_exp_ofReal_mul_I, one_mul]

/-- C58: moving all particles by one vector leaves the energy unchanged, in every cell. -/
theorem c58_translation (erfc : ℝ → ℝ) (L : Matrix (Fin 3) (Fin 3) ℝ) (gmax nlat : Nat) (x : Fin n → Vec 3)
    (q : Fin n → ℝ) (v : Vec 3) : energy erfc L gmax nlat (fun i k => x i k + v k) q = energy erfc L gmax nlat x q := by
  unfold energy
  have h1 : vReal erfc L nlat (fun i k => x i k + v k) q = vReal erfc L nlat x q := by
    unfold vReal
    simp only [minImage_shift]
  have h2 : vRecip L gmax (fun i k => x i k + v k) q = vRecip L gmax x q := by
    rw [c34_recip, c34_recip]
    unfold Spec.recip
    simp only [S_shift]
  rw [h1, h2]

theorem dot_G {L : Matrix (Fin 3) (Fin 3) ℝ} (h : IsUnit L.det) (g m : IVec) :
    dot (Spec.G L g) (translation L m) = 2 * Real.pi * ((∑ i, g i * m i : ℤ) : ℝ) := by
  have e : Spec.G L g = (fun i => (g i : ℝ)) ᵥ* reciprocal L := by
    funext k
    simp only [Spec.G, reciprocal, Matrix.vecMul, dotProduct, Matrix.smul_apply, Matrix.transpose_apply, smul_eq_mul,
      Finset.mul_sum]
    exact Finset.sum_congr rfl fun i _ => by ring
  have e2 : translation L m = (fun i => (m i : ℝ)) ᵥ* L := rfl
  rw [e, e2, dot_reciprocal h]
  push_cast
  rfl

/-- C58: moving any particles by lattice vectors leaves the reciprocal part unchanged, in every cell. -/
theorem c58_recip_periodic (L : Matrix (Fin 3) (Fin 3) ℝ) (h : IsUnit L.det) (gmax : Nat) (x : Fin n → Vec 3)
    (q : Fin n → ℝ) (m : Fin n → Fin 3 → ℤ) :
    vRecip L gmax (fun i k => x i k + translation L (m i) k) q = vRecip L gmax x q := by
  rw [c34_recip, c34_recip]
  unfold Spec.recip
  have : ∀ g, Spec.S (fun i k => x i k + translation L (m i) k) q (Spec.G L g) = Spec.S x q (Spec.G L g) := by
    intro g
    unfold Spec.S
    refine Finset.sum_congr rfl fun j _ => ?_
    have e : dot (Spec.G L g) (fun k => x j k + translation L (m j) k)
        = dot (Spec.G L g) (x j) + dot (Spec.G L g) (translation L (m j)) := by unfold dot; ring
    rw [e, dot_G h]
    push_cast
    rw [mul_add, Complex.exp_add]
    have : Complex.exp (Complex.I * (2 * Real.pi * ∑ i, (g i : ℂ) * (m j i : ℂ))) = 1 := by
      rw [Complex.exp_eq_one_iff]
      refine ⟨∑ i, g i * m j i, ?_⟩
      push_cast; ring
    rw [this, mul_one]
  simp only [this]

/-- C58: in a cell with diagonal lattice matrix, moving any particles by any lattice vectors leaves the energy
unchanged. -/
theorem c58_periodic_partial (erfc : ℝ → ℝ) (L : Matrix (Fin 3) (Fin 3) ℝ) (hd : ∀ i j, i ≠ j → L i j = 0)
    (h0 : ∀ i, L i i ≠ 0) (gmax nlat : Nat) (x : Fin n → Vec 3) (q : Fin n → ℝ) (m : Fin n → Fin 3 → ℤ) :
    energy erfc L gmax nlat (fun i k => x i k + translation L (m i) k) q = energy erfc L gmax nlat x q := by
  have h : IsUnit L.det := by
    have : L = Matrix.diagonal (fun i => L i i) := by
      ext i j
      by_cases hij : i = j
      · subst hij; simp
      · rw [Matrix.diagonal_apply_ne _ hij, hd i j hij]
    rw [this, Matrix.det_diagonal, isUnit_iff_ne_zero]
    exact Finset.prod_ne_zero_iff.2 fun i _ => h0 i
  unfold energy
  have h1 : vReal erfc L nlat (fun i k => x i k + translation L (m i) k) q = vReal erfc L nlat x q := by
    unfold vReal
    simp only [(c28_diagonal L hd h0 _ _).2.2]
  rw [h1, c58_recip_periodic L h]

/-- C58: the energy does not depend on the order in which the particles are listed. -/
theorem c58_relabel (erfc : ℝ → ℝ) (L : Matrix (Fin 3) (Fin 3) ℝ) (gmax nlat : Nat) (x : Fin n → Vec 3) (q : Fin n → ℝ)
    (p : Equiv.Perm (Fin n)) : energy erfc L gmax nlat (x ∘ p) (q ∘ p) = energy erfc L gmax nlat x q := by
  have h1 : vReal erfc L nlat (x ∘ p) (q ∘ p) = vReal erfc L nlat x q := by
    unfold vReal
    congr 1
    refine Finset.sum_congr rfl fun l _ => ?_
    conv_rhs => rw [← Equiv.sum_comp p]
    refine Finset.sum_congr rfl fun i _ => ?_
    conv_rhs => rw [← Equiv.sum_comp p]
    refine Finset.sum_congr rfl fun j _ => ?_
    simp only [Function.comp_apply, p.injective.eq_iff]
  have h2 : vRecip L gmax (x ∘ p) (q ∘ p) = vRecip L gmax x q := by
    rw [c34_recip, c34_recip]
    unfold Spec.recip
    have : ∀ v, Spec.S (x ∘ p) (q ∘ p) v = Spec.S x q v := by
      intro v
      unfold Spec.S
      exact Equiv.sum_comp p (fun j => (q j : ℂ) * Complex.exp (Complex.I * (dot v (x j) : ℝ)))
    simp only [this]
  have h3 : ∑ i, (q ∘ p) i ^ 2 = ∑ i, q i ^ 2 := Equiv.sum_comp p (fun i => q i ^ 2)
  have h4 : ∑ i, (q ∘ p) i = ∑ i, q i := Equiv.sum_comp p q
  unfold energy vSelf vCharged
  rw [h1, h2, h3, h4]

/-! ### C35, continued -/

/-- C35, the part that holds: listing the lattice vectors in another order of the same handedness leaves the
reciprocal, self and background parts unchanged. -/
theorem c35_even_partial (L : Matrix (Fin 3) (Fin 3) ℝ) (s : Equiv.Perm (Fin 3)) (hs : Equiv.Perm.sign s = 1)
    (gmax : Nat) (x : Fin n → Vec 3) (q : Fin n → ℝ) :
    vRecip (L.submatrix s id) gmax x q = vRecip L gmax x q ∧ vSelf (L.submatrix s id) q = vSelf L q ∧
    vCharged (L.submatrix s id) q = vCharged L q := by
  have hinv : (L.submatrix s id)⁻¹ = L⁻¹.submatrix id s := Matrix.inv_submatrix_equiv L s (Equiv.refl _)
  have hdet : (L.submatrix s id).det = L.det := by
    rw [Matrix.det_permute, hs]; simp
  have ha : alpha (L.submatrix s id) = alpha L := by
    unfold alpha smallestHeight
    congr 1
    have e : ∀ i, recvec (L.submatrix s id) i = recvec L (s i) := by
      intro i
      funext k
      simp [recvec, hinv]
    simp only [e]
    refine le_antisymm ?_ ?_
    · rw [Finset.le_inf'_iff]
      intro i _
      have := Finset.inf'_le (fun i => 1 / Geometry.norm (recvec L (s i))) (Finset.mem_univ (s.symm i))
      rwa [Equiv.apply_symm_apply] at this
    · rw [Finset.le_inf'_iff]
      intro i _
      exact Finset.inf'_le (fun i => 1 / Geometry.norm (recvec L i)) (Finset.mem_univ (s i))
  have hG : ∀ g, Spec.G (L.submatrix s id) g = Spec.G L (g ∘ s.symm) := by
    intro g
    funext k
    unfold Spec.G
    rw [hinv]
    congr 1
    rw [← Equiv.sum_comp s (fun i => (((g ∘ s.symm) i : ℤ) : ℝ) * L⁻¹ k i)]
    simp
  refine ⟨?_, by unfold vSelf; rw [ha], by unfold vCharged; rw [ha, hdet]⟩
  rw [c34_recip, c34_recip, hdet, ha]
  unfold Spec.recip
  congr 1
  refine Finset.sum_nbij' (fun g => g ∘ s.symm) (fun g => g ∘ s) ?_ ?_ ?_ ?_ ?_
  · intro g hg
    rw [Finset.mem_filter, mem_box] at hg ⊢
    rw [hG] at hg
    refine ⟨fun j => hg.1 _, fun h0 => hg.2.1 ?_, hg.2.2⟩
    funext j
    simpa using congrFun h0 (s j)
  · intro g hg
    rw [Finset.mem_filter, mem_box] at hg ⊢
    rw [hG]
    have : (g ∘ s) ∘ s.symm = g := by funext j; simp
    rw [this]
    refine ⟨fun j => hg.1 _, fun h0 => hg.2.1 ?_, hg.2.2⟩
    funext j
    simpa using congrFun h0 (s.symm j)
  · intro g _; funext j; simp
  · intro g _; funext j; simp
  · intro g _; rw [hG]

/-- The mirrored unit cube. -/
def mirrored : Matrix (Fin 3) (Fin 3) ℝ := Matrix.diagonal ![-1, 1, 1]

theorem mirrored_sq : mirrored * mirrored = 1 := by
  unfold mirrored
  rw [Matrix.diagonal_mul_diagonal, ← Matrix.diagonal_one]
  congr 1
  funext i
  fin_cases i <;> norm_num

theorem mirrored_inv : mirrored⁻¹ = mirrored := Matrix.inv_eq_left_inv mirrored_sq

theorem mirrored_det : mirrored.det = -1 := by
  unfold mirrored
  rw [Matrix.det_diagonal]; simp [Fin.prod_univ_three]

theorem mirrored_row (i k : Fin 3) : mirrored i k * mirrored i k = if i = k then 1 else 0 := by
  fin_cases i <;> fin_cases k <;> simp [mirrored, Matrix.diagonal]

theorem alpha_of_unit (L : Matrix (Fin 3) (Fin 3) ℝ) (h : ∀ i, Geometry.norm (recvec L i) = 1) : alpha L = 5 := by
  unfold alpha smallestHeight
  simp [h]

theorem alpha_one : alpha 1 = 5 := by
  apply alpha_of_unit
  intro i
  rw [norm_eq_length, length]
  have : ∑ k, recvec 1 i k * recvec 1 i k = 1 := by
    simp [recvec, Matrix.one_apply]
  rw [this, Real.sqrt_one]

theorem alpha_mirrored : alpha mirrored = 5 := by
  apply alpha_of_unit
  intro i
  rw [norm_eq_length, length]
  have : ∑ k, recvec mirrored i k * recvec mirrored i k = 1 := by
    have e : ∀ k, recvec mirrored i k * recvec mirrored i k = if k = i then 1 else 0 := by
      intro k
      rw [recvec, mirrored_inv, Matrix.transpose_apply, mirrored_row]
    simp [e]
  rw [this, Real.sqrt_one]

theorem minImage_self (L : Matrix (Fin 3) (Fin 3) ℝ) (hd : ∀ i j, i ≠ j → L i j = 0) (h0 : ∀ i, L i i ≠ 0) (a : Vec 3) :
    (minImage L a a).1 = 0 := by
  unfold minImage
  dsimp only
  rw [if_pos (isDiagonal_of L hd)]
  funext k
  simp only [dispDiagonal, sub_self, zero_add, pmod, Pi.zero_apply]
  have : L k k / 2 / L k k = 1 / 2 := by have := h0 k; field_simp
  rw [this]
  have : ⌊(1 / 2 : ℝ)⌋ = 0 := by norm_num
  rw [this]; simp

theorem translation_mirrored (m : IVec) : length (translation mirrored m) = length (translation 1 m) := by
  unfold length
  congr 1
  simp [translation, mirrored, Fin.sum_univ_three, Matrix.diagonal, Matrix.one_apply]

/-- C35 fails: one unit charge in the unit cube has different energies for the right-handed and the mirrored
left-handed description of the same cubic lattice, whatever the cut-offs. -/
theorem c35_differs (erfc : ℝ → ℝ) (gmax nlat : Nat) (hg : 1 ≤ gmax) :
    (∀ v, (∃ m, v = translation mirrored m) ↔ ∃ m, v = translation 1 m) ∧
    energy erfc mirrored gmax nlat (fun _ : Fin 1 => 0) (fun _ => 1)
      < energy erfc 1 gmax nlat (fun _ : Fin 1 => 0) (fun _ => 1) := by
  constructor
  · intro v
    constructor
    · rintro ⟨m, rfl⟩
      refine ⟨![-m 0, m 1, m 2], ?_⟩
      funext k
      fin_cases k <;> simp [translation, mirrored, Fin.sum_univ_three, Matrix.diagonal, Matrix.one_apply]
    · rintro ⟨m, rfl⟩
      refine ⟨![-m 0, m 1, m 2], ?_⟩
      funext k
      fin_cases k <;> simp [translation, mirrored, Fin.sum_univ_three, Matrix.diagonal, Matrix.one_apply]
  have hu1 : IsUnit (1 : Matrix (Fin 3) (Fin 3) ℝ).det := by simp
  have hum : IsUnit mirrored.det := by rw [mirrored_det]; simp
  have z1 : ∀ a : Vec 3, (minImage 1 a a).1 = 0 := minImage_self 1 (fun i j h => Matrix.one_apply_ne h) (by simp)
  have zm : ∀ a : Vec 3, (minImage mirrored a a).1 = 0 := by
    refine minImage_self mirrored (fun i j h => Matrix.diagonal_apply_ne _ h) (fun i => ?_)
    fin_cases i <;> simp [mirrored]
  have hreal : vReal erfc mirrored nlat (fun _ : Fin 1 => 0) (fun _ => 1) = vReal erfc 1 nlat (fun _ : Fin 1 => 0) (fun _ => 1) := by
    rw [vReal_box erfc hu1, vReal_box erfc hum]
    simp only [z1, zm, alpha_one, alpha_mirrored, Pi.zero_apply, zero_add, norm_eq_length]
    simp only [translation_mirrored]
  have hrm := (c35_left_handed mirrored (by rw [mirrored_det]; norm_num) gmax (fun _ : Fin 1 => (0 : Vec 3)) (fun _ => 1)).1
  unfold energy
  rw [hreal, hrm]
  have hs : vSelf mirrored (fun _ : Fin 1 => 1) = vSelf 1 (fun _ : Fin 1 => 1) := by
    unfold vSelf; rw [alpha_one, alpha_mirrored]
  rw [hs]
  have hc1 : vCharged 1 (fun _ : Fin 1 => 1) = -(Real.pi / 50) := by
    unfold vCharged; rw [alpha_one, Matrix.det_one]; simp; ring
  have hcm : vCharged mirrored (fun _ : Fin 1 => 1) = Real.pi / 50 := by
    unfold vCharged; rw [alpha_mirrored, mirrored_det]; simp; ring
  rw [hc1, hcm]
  have hp1 := Real.pi_gt_d2
  have hp2 := Real.pi_lt_d2
  have hw : gweight 1 ![1, 0, 0] = Real.exp (-(Real.pi ^ 2 / 25)) / Real.pi := by
    rw [gweight_eq, alpha_one, Matrix.det_one]
    have : Spec.G 1 ![1, 0, 0] = ![2 * Real.pi, 0, 0] := by
      funext k
      fin_cases k <;> simp [Spec.G, Fin.sum_univ_three, Matrix.one_apply]
    rw [this]
    unfold Spec.W dot
    simp only [Matrix.cons_val_zero, Matrix.cons_val_one, Matrix.cons_val]
    have e : -(2 * Real.pi * (2 * Real.pi) + 0 * 0 + 0 * 0) / (4 * 5 ^ 2) = -(Real.pi ^ 2 / 25) := by ring
    rw [e]
    have := Real.pi_ne_zero
    field_simp
    ring
  have hwlow : 19 / 100 < gweight 1 ![1, 0, 0] := by
    rw [hw, lt_div_iff₀ (by linarith)]
    have := Real.add_one_le_exp (-(Real.pi ^ 2 / 25))
    nlinarith
  have hsf : ∀ g, structureFactor (1 : Matrix (Fin 3) (Fin 3) ℝ) (fun _ : Fin 1 => 0) (fun _ => 1) g = 1 := by
    intro g; simp [structureFactor]
  have hrec : gweight 1 ![1, 0, 0] ≤ vRecip 1 gmax (fun _ : Fin 1 => 0) (fun _ => 1) := by
    unfold vRecip
    have hmem : (![1, 0, 0] : IVec) ∈ kept 1 gmax := by
      rw [kept_eq, List.mem_filter, mem_grid]
      refine ⟨⟨?_, ?_⟩, ?_⟩
      · intro j; fin_cases j <;> simp <;> omega
      · simp
      · rw [decide_eq_true_eq]
        have : (1e-12 : ℝ) < 19 / 100 := by norm_num
        linarith
    refine List.single_le_sum ?_ _ (List.mem_map.2 ⟨_, hmem, by rw [hsf]; simp⟩)
    intro y hy
    obtain ⟨g, hg, rfl⟩ := List.mem_map.1 hy
    rw [kept_eq, List.mem_filter, decide_eq_true_eq] at hg
    have h1 : (0 : ℝ) < 1e-12 := by norm_num
    have : 0 < gweight 1 g := lt_trans h1 hg.2
    positivity
  linarith

/-- The hypothesis of `c58_formula` holds for a charge in the unit cube, with any number of images. -/
example (nlat : Nat) : ∀ (i j : Fin 1) (m : Fin 3 → ℤ), m ∈ Spec.box nlat → ¬ (m = 0 ∧ i = j) →
    1e-7 ≤ length (fun k => (minImage 1 (0 : Vec 3) 0).1 k + translation 1 m k) := by
  intro i j m _ h
  have hm : m ≠ 0 := fun hm => h ⟨hm, Subsingleton.elim _ _⟩
  have z1 : (minImage 1 (0 : Vec 3) 0).1 = 0 := minImage_self 1 (fun i j h => Matrix.one_apply_ne h) (by simp) _
  obtain ⟨k, hk⟩ := Function.ne_iff.1 hm
  have e : (fun k => (minImage 1 (0 : Vec 3) 0).1 k + translation 1 m k) = fun k => (m k : ℝ) := by
    funext k; rw [z1]; simp [translation, Matrix.one_apply]
  rw [e]
  unfold length
  have h1 : (1 : ℝ) ≤ ∑ k, (m k : ℝ) * m k := by
    have h2 : (1 : ℝ) ≤ (m k : ℝ) * m k := by
      have : 1 ≤ m k * m k := by
        have := mul_self_pos.2 hk
        omega
      exact_mod_cast this
    exact h2.trans (Finset.single_le_sum (f := fun k => (m k : ℝ) * m k) (fun i _ => mul_self_nonneg _) (Finset.mem_univ k))
  have : (1 : ℝ) ≤ Real.sqrt (∑ k, (m k : ℝ) * m k) := Real.one_le_sqrt.2 h1
  have h3 : (1e-7 : ℝ) ≤ 1 := by norm_num
  linarith

end Jaqmc.Ewald.Props
