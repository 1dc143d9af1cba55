import Verif.Spec.MolEnergy
import Verif.Props.EcpEnergy
import Verif.Props.Kinetic
import Verif.Props.PhTables
import Verif.Props.Stats
/-!
C109: the local energy of a molecule.
-/
namespace Jaqmc.MolEnergy.Props
open Jaqmc.MolEnergy Jaqmc.MolEnergy.Spec Jaqmc.Geometry Jaqmc.Ecp
open Jaqmc.Ph.Spec (radius derivativePart)
open scoped Topology

variable {n A : ℕ}

/-! ### Coulomb energy -/

theorem pair_eq {m : ℕ} (pos : Fin m → Vec 3) (i j : Fin m) : (pairWithin pos).2 i j = radius (pos i) (pos j) := by
  rw [(Geometry.Props.c32_within pos i j).2.2.1]
  unfold Geometry.Spec.length radius
  simp [sq]

theorem triuSum_eq (M M' : Fin n → Fin n → ℝ) (h : ∀ i j, i < j → M i j = M' i j) :
    triuSum M = ∑ p ∈ Finset.univ.filter (fun p : Fin n × Fin n => p.1 < p.2), M' p.1 p.2 := by
  unfold triuSum
  rw [Finset.sum_filter, ← Finset.univ_product_univ, Finset.sum_product]
  refine Finset.sum_congr rfl fun i _ => Finset.sum_congr rfl fun j _ => ?_
  by_cases hij : i < j
  · rw [if_pos hij, if_pos hij, h i j hij]
  · rw [if_neg hij, if_neg hij]

/-- C109 (Coulomb energy): every pair of particles is counted once, with the charges -1 and `Z`. -/
theorem c109_potential (r : Fin n → Vec 3) (R : Fin A → Vec 3) (Z : Fin A → ℝ) (_h : Apart r R) :
    potential r R Z = coulomb r R Z := by
  unfold potential coulomb
  dsimp only
  rw [triuSum_eq (fun i j => 1 / ((pairWithin r).2 i j + eye i j)) (fun i j => 1 / radius (r i) (r j)),
    triuSum_eq (fun a b => Z b * Z a / ((pairWithin R).2 a b + eye a b)) (fun a b => Z a * Z b / radius (R a) (R b))]
  · have : (∑ i, ∑ a, -1 * Z a / (pairBetween r R).2 i a) = -∑ i, ∑ a, Z a / radius (r i) (R a) := by
      rw [← Finset.sum_neg_distrib]
      refine Finset.sum_congr rfl fun i _ => ?_
      rw [← Finset.sum_neg_distrib]
      refine Finset.sum_congr rfl fun a _ => ?_
      rw [(Geometry.Props.c32_between r R i a).2]
      have : Geometry.Spec.length (fun k => r i k - R a k) = radius (r i) (R a) := by
        unfold Geometry.Spec.length radius
        simp [sq]
      rw [this]
      ring
    rw [this]
    ring
  · intro a b hab
    rw [pair_eq, eye, if_neg (ne_of_lt hab), add_zero, mul_comm (Z b)]
  · intro i j hij
    rw [pair_eq, eye, if_neg (ne_of_lt hij), add_zero]

theorem radius_comm (p q : Vec 3) : radius p q = radius q p := by
  unfold radius
  congr 1
  exact Finset.sum_congr rfl fun k _ => by ring

theorem pairs_perm (g : Fin n → Fin n → ℝ) (hg : ∀ i j, g i j = g j i) (σ : Equiv.Perm (Fin n)) :
    ∑ p ∈ Finset.univ.filter (fun p : Fin n × Fin n => p.1 < p.2), g (σ p.1) (σ p.2) =
      ∑ p ∈ Finset.univ.filter (fun p : Fin n × Fin n => p.1 < p.2), g p.1 p.2 := by
  have two : ∀ g : Fin n → Fin n → ℝ, (∀ i j, g i j = g j i) →
      2 * ∑ p ∈ Finset.univ.filter (fun p : Fin n × Fin n => p.1 < p.2), g p.1 p.2 = ∑ i, ∑ j, if i = j then 0 else g i j := by
    intro g hg
    have hs : ∑ p ∈ Finset.univ.filter (fun p : Fin n × Fin n => p.1 < p.2), g p.1 p.2 = ∑ i, ∑ j, if i < j then g i j else 0 := by
      rw [Finset.sum_filter, ← Finset.univ_product_univ, Finset.sum_product]
    have hs' : ∑ p ∈ Finset.univ.filter (fun p : Fin n × Fin n => p.1 < p.2), g p.1 p.2 = ∑ i, ∑ j, if j < i then g i j else 0 := by
      rw [hs, Finset.sum_comm]
      exact Finset.sum_congr rfl fun i _ => Finset.sum_congr rfl fun j _ => by rw [hg j i]
    rw [two_mul]
    nth_rewrite 1 [hs]
    rw [hs', ← Finset.sum_add_distrib]
    refine Finset.sum_congr rfl fun i _ => ?_
    rw [← Finset.sum_add_distrib]
    refine Finset.sum_congr rfl fun j _ => ?_
    rcases lt_trichotomy i j with h | h | h
    · rw [if_pos h, if_neg (by omega), if_neg (by omega), add_zero]
    · subst h; simp
    · rw [if_neg (by omega), if_pos h, if_neg (by omega), zero_add]
  have h1 := two (fun i j => g (σ i) (σ j)) fun i j => hg _ _
  have h2 := two g hg
  have h3 : (∑ i, ∑ j, if i = j then (0 : ℝ) else g (σ i) (σ j)) = ∑ i, ∑ j, if i = j then (0 : ℝ) else g i j := by
    rw [← Equiv.sum_comp σ fun i => ∑ j, if i = j then (0 : ℝ) else g i j]
    refine Finset.sum_congr rfl fun i _ => ?_
    rw [← Equiv.sum_comp σ fun j => if σ i = j then (0 : ℝ) else g (σ i) j]
    refine Finset.sum_congr rfl fun j _ => ?_
    simp [σ.injective.eq_iff]
  linarith

/-- C109 (symmetry): the Coulomb energy does not depend on the labels of the electrons or of the nuclei, nor on the frame:
it is unchanged by every permutation and every motion that keeps distances. -/
theorem c109_symmetry (r : Fin n → Vec 3) (R : Fin A → Vec 3) (Z : Fin A → ℝ) (h : Apart r R) (σ : Equiv.Perm (Fin n))
    (τ : Equiv.Perm (Fin A)) (g : Vec 3 → Vec 3) (hg : ∀ p q, radius (g p) (g q) = radius p q) :
    potential (fun i => g (r (σ i))) (fun a => g (R (τ a))) (fun a => Z (τ a)) = potential r R Z := by
  have hr : ∀ p q : Vec 3, radius p q = 0 ↔ p = q := by
    intro p q
    constructor
    · intro h0
      by_contra hne
      exact absurd h0 (Ph.Props.radius_pos hne).ne'
    · rintro rfl
      unfold radius
      simp
  have hinj : ∀ p q, p ≠ q → g p ≠ g q := fun p q hne he => hne ((hr p q).mp ((hg p q).symm.trans ((hr _ _).mpr he)))
  rw [c109_potential _ _ _ h, c109_potential]
  · unfold coulomb
    simp only [hg]
    rw [pairs_perm (fun i j => 1 / radius (r i) (r j)) (fun i j => by rw [radius_comm]) σ,
      pairs_perm (fun a b => Z a * Z b / radius (R a) (R b)) (fun a b => by rw [radius_comm, mul_comm]) τ,
      Equiv.sum_comp σ (fun i => ∑ a, Z (τ a) / radius (r i) (R (τ a)))]
    simp only [fun i => Equiv.sum_comp τ (fun a => Z a / radius (r i) (R a))]
  · exact ⟨fun i j hij => hinj _ _ (h.1 _ _ (σ.injective.ne hij)), fun i a => hinj _ _ (h.2.1 _ _),
      fun a b hab => hinj _ _ (h.2.2 _ _ (τ.injective.ne hab))⟩

/-- Two electrons and two protons on a line: the energy, by hand. -/
example : potential ![![0, 0, 0], ![3, 0, 0]] ![![1, 0, 0], ![5, 0, 0]] ![1, 2] = 1 / 3 - (1 / 1 + 2 / 5 + (1 / 2 + 2 / 2)) + 1 * 2 / 4 := by
  have hd : ∀ a b : ℝ, radius ![a, 0, 0] ![b, 0, 0] = |a - b| := by
    intro a b
    unfold radius
    simp [Fin.sum_univ_three, Real.sqrt_sq_eq_abs]
  have hne : ∀ a b : ℝ, a ≠ b → (![a, 0, 0] : Vec 3) ≠ ![b, 0, 0] := fun a b h h' => h (by simpa using congrFun h' 0)
  rw [c109_potential]
  · unfold coulomb
    have hf : (Finset.univ.filter fun p : Fin 2 × Fin 2 => p.1 < p.2) = {(0, 1)} := by decide
    rw [hf]
    simp [Fin.sum_univ_two, hd]
    norm_num [abs_of_nonneg, abs_of_neg]
  · refine ⟨?_, ?_, ?_⟩
    · intro i j hij
      fin_cases i <;> fin_cases j <;> simp at hij ⊢
    · intro i j
      fin_cases i <;> fin_cases j <;> simp
    · intro i j hij
      fin_cases i <;> fin_cases j <;> simp at hij ⊢

end Jaqmc.MolEnergy.Props
