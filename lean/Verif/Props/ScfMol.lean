import Verif.Props.ScfLattice
/-! C99: the molecular reference determinant, and concrete cases. -/
namespace Jaqmc.Scf.Props
open Geometry Matrix Spec
open Geometry.Spec (translation)
open Wf.Spec (SameSpin shiftOne shift valueC value)
open scoped Classical

variable {nk nao nu nd : ℕ}

/-- The orbital with coefficients `c`. -/
noncomputable def molOrbital (S : Molecular nao) (c : Fin nao → ℝ) (r : Vec 3) : ℝ := ∑ a, c a * S.chi a r

theorem mol_matrices (S : Molecular nao) (hu : nu ≤ S.coeffA.length)
    (hd : nd ≤ (if S.restricted then S.coeffA else S.coeffB).length)
    (pos : ℕ → ℕ → Vec 3) (b : ℕ) (r : Fin (nu + nd) → Vec 3) (hr : ∀ e : Fin (nu + nd), pos b e = r e) :
    S.evalOrbitals (nu, nd) pos b =
      (List.ofFn fun i : Fin nu => List.ofFn fun j : Fin nu =>
        molOrbital S (S.coeffA[j.val]'(lt_of_lt_of_le j.2 hu)) (r (Fin.castAdd nd i)),
       List.ofFn fun i : Fin nd => List.ofFn fun j : Fin nd =>
        molOrbital S ((if S.restricted then S.coeffA else S.coeffB)[j.val]'(lt_of_lt_of_le j.2 hd)) (r (Fin.natAdd nu i))) := by
  have hw : S.evalOrbitals (nu, nd) pos b = S.evalOrbitals (nu, nd) (fun _ => walker r) 0 := by
    refine (c99_batch (nk := 0) ⟨1, [], fun k => k.elim0, S.chi, .krhf (fun k => k.elim0) (fun k => k.elim0)⟩ S (nu, nd) pos _ b 0
      fun e he => ?_).2
    simp only [walker, show e < nu + nd from he, dite_true]
    exact hr ⟨e, he⟩
  rw [hw]
  have hm : ∀ e, e < nu + nd → walker r ((0 * (nu + nd) + e) % (nu + nd)) = walker r e := fun e he => by
    rw [zero_mul, zero_add, Nat.mod_eq_of_lt he]
  simp only [Molecular.evalOrbitals]
  refine Prod.ext ?_ ?_
  · dsimp only
    rw [List.map_congr_left (g := fun e => (S.evalMos (walker r e)).1.take nu)
      fun e he => by rw [hm e (by have := List.mem_range.1 he; omega)]]
    rw [rows_eq (fun r => (S.evalMos r).1) nu 0 (fun r => by simpa [Molecular.evalMos, contract] using hu) (walker r) _
      List.range_eq_range']
    congr 1
    funext i
    congr 1
    funext j
    rw [walker_up]
    simp only [Molecular.evalMos, contract, List.getElem_map, molOrbital, mul_comm]
  · dsimp only
    rw [List.map_congr_left (g := fun e => (S.evalMos (walker r e)).2.take nd)
      fun e he => by rw [hm e (by have := List.mem_range'_1.1 he; omega)]]
    rw [rows_eq (fun r => (S.evalMos r).2) nd nu (fun r => by simpa [Molecular.evalMos, contract] using hd) (walker r) _ rfl]
    congr 1
    funext i
    congr 1
    funext j
    rw [walker_down]
    simp only [Molecular.evalMos, contract, List.getElem_map, molOrbital, mul_comm]

/-- **C99** (molecules).  `MolecularSCF.eval_slater` reports sign and logarithm of the absolute value of the Slater determinant
of the first `nu` and the first `nd` orbitals (the same orbitals for both spins if restricted). -/
theorem c99_molecule (S : Molecular nao) (hu : nu ≤ S.coeffA.length)
    (hd : nd ≤ (if S.restricted then S.coeffA else S.coeffB).length)
    (pos : ℕ → ℕ → Vec 3) (b : ℕ) (r : Fin (nu + nd) → Vec 3) (hr : ∀ e : Fin (nu + nd), pos b e = r e) :
    let D := (slaterMatrix (fun j : Fin nu => molOrbital S (S.coeffA[j.val]'(lt_of_lt_of_le j.2 hu)))
      (fun j : Fin nd => molOrbital S ((if S.restricted then S.coeffA else S.coeffB)[j.val]'(lt_of_lt_of_le j.2 hd))) r).det
    S.evalSlater (nu, nd) pos b =
      some ((SignType.sign D : ℝ), if D = 0 then ⊥ else ((Real.log |D| : ℝ) : WithBot ℝ)) := by
  intro D
  unfold Molecular.evalSlater slater
  rw [mol_matrices S hu hd pos b r hr]
  simp only [block_ofFn, Option.bind_some, Option.map_some]
  have hD : D = _ := det_slater _ _ r
  rw [hD]
  generalize (Matrix.of fun i j : Fin nu => molOrbital S (S.coeffA[j.val]'(lt_of_lt_of_le j.2 hu)) (r (Fin.castAdd nd i))) = A
  generalize (Matrix.of fun i j : Fin nd =>
    molOrbital S ((if S.restricted then S.coeffA else S.coeffB)[j.val]'(lt_of_lt_of_le j.2 hd)) (r (Fin.natAdd nu i))) = B
  simp only [Wf.slogdet]
  rw [sign_mul]
  congr 1
  refine Prod.ext (by push_cast; rfl) ?_
  dsimp only
  by_cases hA : A.det = 0
  · simp [hA]
  by_cases hB : B.det = 0
  · simp [hB]
  rw [if_neg hA, if_neg hB, if_neg (mul_ne_zero hA hB), abs_mul, Real.log_mul (abs_ne_zero.2 hA) (abs_ne_zero.2 hB)]
  rfl

/-- **C99** (molecules, antisymmetry). -/
theorem c99_molecule_antisymmetric (S : Molecular nao) (hu : nu ≤ S.coeffA.length)
    (hd : nd ≤ (if S.restricted then S.coeffA else S.coeffB).length) (r : Fin (nu + nd) → Vec 3)
    (σ : Equiv.Perm (Fin (nu + nd))) (hσ : SameSpin nu σ) :
    S.evalSlater (nu, nd) (fun _ => walker fun i => r (σ i)) 0 =
      (S.evalSlater (nu, nd) (fun _ => walker r) 0).map fun p => (((Equiv.Perm.sign σ : ℤ) : ℝ) * p.1, p.2) := by
  have hw : ∀ (r : Fin (nu + nd) → Vec 3) (e : Fin (nu + nd)), walker r e = r e := fun r e => by simp [walker]
  rw [c99_molecule S hu hd (fun _ => walker r) 0 r (hw r), c99_molecule S hu hd (fun _ => walker fun i => r (σ i)) 0 _ (hw _)]
  simp only [det_perm _ _ r σ hσ, Option.map_some]
  congr 1
  rcases Int.units_eq_one_or (Equiv.Perm.sign σ) with h | h <;> simp [h, Left.sign_neg]

theorem slater_short {R : Type} [Zero R] (rows : List (List R)) (m : ℕ) (hm : m < rows.length) (hrow : ∀ x ∈ rows, x.length = m) :
    square rows = none ∧ lastDim rows = m := by
  obtain ⟨x, hx⟩ : ∃ x, x ∈ rows := List.exists_mem_of_length_pos (by omega)
  refine ⟨?_, ?_⟩
  · unfold square
    rw [if_neg]
    simp only [List.all_eq_true, decide_eq_true_eq, not_forall]
    exact ⟨x, hx, by rw [hrow x hx]; omega⟩
  · cases rows with
    | nil => simp at hm
    | cons a t => simp [lastDim, hrow a (by simp)]

/-- **C99** (too few orbitals).  If PySCF occupied some but fewer spin-up orbitals than there are spin-up electrons the
evaluation of the determinant raises instead of returning a number. -/
theorem c99_too_few (S : Periodic nk nao) (h0 : 0 < (occupiedList S.mf).1.length) (hu : (occupiedList S.mf).1.length < nu)
    (pos : ℕ → ℕ → Vec 3) (b : ℕ) : S.evalSlater (nu, nd) pos b = none := by
  have hlen : ∀ r, (orbitalRow (fun k => S.aos k r) (extract S.mf).1).length = (occupiedList S.mf).1.length := by
    intro r; rw [orbitalRow_eq, occupiedList_eq]; simp
  unfold Periodic.evalSlater slaterC slogdetBlockC
  obtain ⟨h1, h2⟩ := slater_short (S.evalOrbitals (nu, nd) pos b).1 (occupiedList S.mf).1.length
    (by simpa [Periodic.evalOrbitals] using hu) (by
      intro x hx
      simp only [Periodic.evalOrbitals, List.mem_map] at hx
      obtain ⟨e, _, rfl⟩ := hx
      rw [List.length_take, hlen]; omega)
  rw [h2, if_neg (by omega), h1]
  rfl

/-- If no spin-up orbital is occupied at all the spin-up block is silently taken to be 1, whatever the number of spin-up
electrons: the reported number does not depend on their positions. -/
theorem c99_none_occupied (S : Periodic nk nao) (h0 : (occupiedList S.mf).1 = []) (pos : ℕ → ℕ → Vec 3) (b : ℕ) :
    slogdetBlockC (S.evalOrbitals (nu, nd) pos b).1 = some (1, ((0 : ℝ) : WithBot ℝ)) := by
  have hlen : ∀ r, orbitalRow (fun k => S.aos k r) (extract S.mf).1 = [] := by
    intro r
    rw [occupiedList_eq] at h0
    rw [orbitalRow_eq, show orbitalList (extract S.mf).1 = [] from h0]; rfl
  unfold slogdetBlockC
  rw [if_pos]
  simp only [Periodic.evalOrbitals, hlen, List.take_nil]
  cases nu with
  | zero => simp [lastDim]
  | succ n => simp [lastDim, List.range_succ_eq_map]

/-! ### A concrete crystal: one Gaussian per cell of side 2, the two k-points of the 2×1×1 supercell, both bands filled -/

/-- The crystal: a restricted calculation, at each of the k-points 0 and (π/2, 0, 0) one doubly occupied orbital and an
empty one. -/
noncomputable def chain : Periodic 2 1 where
  latvec := cubic
  images := [fun _ => 0]
  kpts := fun k c => if k = 1 ∧ c = 0 then Real.pi / 2 else 0
  chi := fun _ => gauss
  mf := .krhf (fun _ => [2, 0]) (fun _ => [fun _ => 1, fun _ => -1])

theorem chain_list : occupiedList chain.mf = ([(0, fun _ => 1), (1, fun _ => 1)], [(0, fun _ => 1), (1, fun _ => 1)]) := by
  simp [chain, occupiedList, orbitalList, occupiedList.pick, List.finRange_succ]
  norm_num

/-- Non-vacuity of `c99_bloch` and `c99_twist`: the hypotheses hold for the supercell vector (4, 0, 0), and the four orbital
k-points are 0, (π/2, 0, 0), 0, (π/2, 0, 0). -/
theorem c99_example :
    2 ≤ (occupiedList chain.mf).1.length ∧ 2 ≤ (occupiedList chain.mf).2.length ∧ IsUnit chain.latvec.det ∧
    chain.orbitalKpoints = [chain.kpts 0, chain.kpts 1, chain.kpts 0, chain.kpts 1] ∧
    (∀ k ∈ chain.orbitalKpoints, ∃ z : ℤ,
      ∑ c, k c * translation chain.latvec (fun i => if i = 0 then 2 else 0) c = 0 + z * (2 * Real.pi)) ∧
    ¬ (∀ k ∈ chain.orbitalKpoints, ∃ z : ℤ,
      ∑ c, k c * translation chain.latvec (fun i => if i = 0 then 1 else 0) c = 0 + z * (2 * Real.pi)) := by
  have hk : chain.orbitalKpoints = [chain.kpts 0, chain.kpts 1, chain.kpts 0, chain.kpts 1] := by
    rw [c99_kpoints, chain_list]; rfl
  have ht : ∀ n : ℤ, translation chain.latvec (fun i => if i = 0 then n else 0) = fun c => if c = 0 then 2 * (n : ℝ) else 0 := by
    intro n
    funext c
    simp only [translation, chain, cubic, Matrix.diagonal_apply]
    fin_cases c <;> simp [mul_comm]
  have k0 : chain.kpts 0 = fun _ => 0 := by funext c; simp [chain]
  have k1 : chain.kpts 1 = fun c => if c = 0 then Real.pi / 2 else 0 := by funext c; simp [chain]
  refine ⟨by rw [chain_list]; simp, by rw [chain_list]; simp, cubic_unit, hk, ?_, ?_⟩
  · intro k hkm
    rw [ht 2]
    rw [hk] at hkm
    have hor : k = chain.kpts 0 ∨ k = chain.kpts 1 := by
      simp only [List.mem_cons, List.not_mem_nil, or_false] at hkm
      tauto
    rcases hor with rfl | rfl
    · exact ⟨0, by simp [k0]⟩
    · exact ⟨1, by simp [k1]; ring⟩
  · intro h
    obtain ⟨z, hz⟩ := h (chain.kpts 1) (by rw [hk]; simp)
    rw [ht 1] at hz
    simp [k1] at hz
    have hpi := Real.pi_pos
    have : (1 : ℝ) = 2 * z := by
      have h2 : Real.pi * 1 = Real.pi * (2 * z) := by linarith
      exact mul_left_cancel₀ hpi.ne' h2
    have h3 : (1 : ℤ) = 2 * z := by exact_mod_cast this
    omega

example (r : Fin (2 + 2) → Vec 3) (i : Fin (2 + 2)) :=
  c99_twist chain cubic_unit c99_example.1 c99_example.2.1 i _ 0 c99_example.2.2.2.2.1 r

/-- Non-vacuity of `c99_molecule`: a restricted calculation with two orbitals, two spin-up and one spin-down electron. -/
example : (2 : ℕ) ≤ (⟨fun _ => gauss, true, [fun _ => 1, fun _ => 2], []⟩ : Molecular 1).coeffA.length ∧
    1 ≤ (if true then ([fun _ => 1, fun _ => 2] : List (Fin 1 → ℝ)) else []).length := by simp

end Jaqmc.Scf.Props
