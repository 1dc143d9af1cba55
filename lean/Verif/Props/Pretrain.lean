import Verif.Props.ScfMol
import Mathlib.Analysis.SpecialFunctions.Pow.Real
/-! C100: what pretraining samples and minimises. -/
namespace Jaqmc.Scf.Props
open Geometry Matrix Spec
open Wf.Spec (SameSpin valueC value)
open scoped Classical

variable {nk nao nu nd : ℕ}

/-- The amplitude with the given logarithm (`⊥` is `-inf`). -/
noncomputable def amp : WithBot ℝ → ℝ
  | ⊥ => 0
  | (l : ℝ) => Real.exp l

theorem amp_scale (c : ℝ) (hc : 0 < c) (l : WithBot ℝ) : amp (scaleLog c l) = amp l ^ c := by
  rcases l with _ | l
  · change (0 : ℝ) = 0 ^ c
    rw [Real.zero_rpow hc.ne']
  · change Real.exp (c * l) = Real.exp l ^ c
    rw [← Real.exp_mul, mul_comm]

theorem amp_add (x y : WithBot ℝ) : amp (x + y) = amp x * amp y := by
  rcases x with _ | x
  · change amp ⊥ = 0 * amp y
    simp [amp]
  rcases y with _ | y
  · change (0 : ℝ) = Real.exp x * 0
    simp
  · change Real.exp (x + y) = Real.exp x * Real.exp y
    exact Real.exp_add x y

/-- **C100** (sampling).  Outside `[0, 1]` the mixing fraction `f` is refused; inside, the sampled amplitude is
`|ψ|^(1-f) |Φ|^f` with the network `ψ` and the reference `Φ`: the network alone for `f = 0`, the reference alone for
`f = 1`, whatever the parameters. -/
theorem c100_mixture {P X : Type} (logPsi : P → X → WithBot ℝ) (logScf : X → WithBot ℝ) (f : ℝ) :
    (¬ (0 ≤ f ∧ f ≤ 1) → pretrainLogAmplitude logPsi logScf f = none) ∧
    (0 ≤ f ∧ f ≤ 1 → ∃ g, pretrainLogAmplitude logPsi logScf f = some g ∧
      ∀ params x, amp (g params x) = amp (logPsi params x) ^ (1 - f) * amp (logScf x) ^ f) := by
  unfold pretrainLogAmplitude
  constructor
  · intro h
    rw [if_pos]
    by_contra hn
    push Not at hn
    exact h ⟨hn.2, hn.1⟩
  · rintro ⟨h0, h1⟩
    rw [if_neg (by push Not; exact ⟨h1, h0⟩)]
    by_cases e0 : f ≤ 0
    · obtain rfl : f = 0 := le_antisymm e0 h0
      exact ⟨_, by rw [if_pos e0], fun params x => by simp⟩
    rw [if_neg e0]
    by_cases e1 : f ≥ 1
    · obtain rfl : f = 1 := le_antisymm h1 e1
      exact ⟨_, by rw [if_pos e1], fun params x => by simp⟩
    rw [if_neg e1]
    push Not at e0 e1
    exact ⟨_, rfl, fun params x => by rw [amp_add, amp_scale _ (by linarith), amp_scale _ e0]⟩

/-- The endpoints in terms of the function returned, not only of its values. -/
theorem c100_endpoints {P X : Type} (logPsi : P → X → WithBot ℝ) (logScf : X → WithBot ℝ) :
    pretrainLogAmplitude logPsi logScf 0 = some logPsi ∧ pretrainLogAmplitude logPsi logScf 1 = some (fun _ x => logScf x) := by
  unfold pretrainLogAmplitude
  constructor <;> norm_num

/-! ### The loss -/

theorem concat_ofFn {K : Type} [NormedField K] (φ : Fin nu → Vec 3 → K) (ψ : Fin nd → Vec 3 → K) (r : Fin (nu + nd) → Vec 3)
    (i j : Fin (nu + nd)) :
    ((concatTarget (List.ofFn fun i : Fin nu => List.ofFn fun j : Fin nu => φ j (r (Fin.castAdd nd i)),
       List.ofFn fun i : Fin nd => List.ofFn fun j : Fin nd => ψ j (r (Fin.natAdd nu i)))).getD i []).getD j 0
      = slaterMatrix φ ψ r i j := by
  simp only [concatTarget, List.length_ofFn]
  refine Fin.addCases (fun i => ?_) (fun i => ?_) i <;> refine Fin.addCases (fun j => ?_) (fun j => ?_) j <;>
    simp [slaterMatrix, List.getD_eq_getElem?_getD, List.getElem?_append, List.getElem?_replicate]

theorem sum_sq_zero {n ndets : ℕ} {K : Type} [NormedField K] (M : Matrix (Fin n) (Fin n) K) (o : Fin ndets → Matrix (Fin n) (Fin n) K)
    (hn : 0 < n) (hk : 0 < ndets) :
    (∑ k, ∑ i : Fin n, ∑ j : Fin n, ‖M i j - o k i j‖ ^ 2) / (ndets * n * n : ℝ) = 0 ↔ ∀ k, o k = M := by
  have hpos : (0 : ℝ) < ndets * n * n := by positivity
  rw [div_eq_zero_iff, or_iff_left hpos.ne', Finset.sum_eq_zero_iff_of_nonneg fun k _ => by positivity]
  constructor
  · intro h k
    have h1 := h k (Finset.mem_univ k)
    rw [Finset.sum_eq_zero_iff_of_nonneg fun i _ => by positivity] at h1
    funext i j
    have h2 := h1 i (Finset.mem_univ i)
    rw [Finset.sum_eq_zero_iff_of_nonneg fun j _ => by positivity] at h2
    have h3 := h2 j (Finset.mem_univ j)
    have h4 : M i j - o k i j = 0 := by simpa using h3
    exact (sub_eq_zero.1 h4).symm
  · intro h k _
    simp [h k]

/-- The reference determinant matrix of a molecular calculation. -/
noncomputable def molMatrix (S : Molecular nao) (hu : nu ≤ S.coeffA.length)
    (hd : nd ≤ (if S.restricted then S.coeffA else S.coeffB).length) (r : Fin (nu + nd) → Vec 3) :
    Matrix (Fin (nu + nd)) (Fin (nu + nd)) ℝ :=
  slaterMatrix (fun j : Fin nu => molOrbital S (S.coeffA[j.val]'(lt_of_lt_of_le j.2 hu)))
    (fun j : Fin nd => molOrbital S ((if S.restricted then S.coeffA else S.coeffB)[j.val]'(lt_of_lt_of_le j.2 hd))) r

theorem loss_molecule (S : Molecular nao) (hu : nu ≤ S.coeffA.length)
    (hd : nd ≤ (if S.restricted then S.coeffA else S.coeffB).length) (pos : ℕ → ℕ → Vec 3) (b : ℕ) (r : Fin (nu + nd) → Vec 3)
    (hr : ∀ e : Fin (nu + nd), pos b e = r e) {ndets : ℕ} (o : Fin ndets → Matrix (Fin (nu + nd)) (Fin (nu + nd)) ℝ) :
    lossFull (S.evalOrbitals (nu, nd) pos b) o =
      (∑ k, ∑ i, ∑ j, ‖molMatrix S hu hd r i j - o k i j‖ ^ 2) / (ndets * (nu + nd : ℕ) * (nu + nd : ℕ) : ℝ) := by
  rw [mol_matrices S hu hd pos b r hr]
  unfold lossFull
  congr 1
  refine Finset.sum_congr rfl fun k _ => Finset.sum_congr rfl fun i _ => Finset.sum_congr rfl fun j _ => ?_
  have := concat_ofFn (fun j : Fin nu => molOrbital S (S.coeffA[j.val]'(lt_of_lt_of_le j.2 hu)))
    (fun j : Fin nd => molOrbital S ((if S.restricted then S.coeffA else S.coeffB)[j.val]'(lt_of_lt_of_le j.2 hd))) r i j
  rw [this]
  rfl

theorem loss_periodic (S : Periodic nk nao) (hu : nu ≤ (occupiedList S.mf).1.length) (hd : nd ≤ (occupiedList S.mf).2.length)
    (pos : ℕ → ℕ → Vec 3) (b : ℕ) (r : Fin (nu + nd) → Vec 3)
    (hr : ∀ e : Fin (nu + nd), pos b e = r e) {ndets : ℕ} (o : Fin ndets → Matrix (Fin (nu + nd)) (Fin (nu + nd)) ℂ) :
    lossFull (S.evalOrbitals (nu, nd) pos b) o =
      (∑ k, ∑ i, ∑ j, ‖slaterMatrix (orbUp S hu) (orbDown S hd) r i j - o k i j‖ ^ 2) / (ndets * (nu + nd : ℕ) * (nu + nd : ℕ) : ℝ) := by
  rw [matrices S hu hd pos b r hr]
  unfold lossFull
  congr 1
  refine Finset.sum_congr rfl fun k _ => Finset.sum_congr rfl fun i _ => Finset.sum_congr rfl fun j _ => ?_
  have := concat_ofFn (orbUp S hu) (orbDown S hd) r i j
  rw [this]

/-- **C100** (loss of a molecule).  The pretraining loss at a walker is never negative, and it is zero exactly when every
orbital matrix of the network is the Slater matrix of the reference: the orbitals of each spin at the electrons of that
spin, zeros between the spins. -/
theorem c100_loss_molecule (S : Molecular nao) (hu : nu ≤ S.coeffA.length)
    (hd : nd ≤ (if S.restricted then S.coeffA else S.coeffB).length) (pos : ℕ → ℕ → Vec 3) (b : ℕ) (r : Fin (nu + nd) → Vec 3)
    (hr : ∀ e : Fin (nu + nd), pos b e = r e) {ndets : ℕ} (hk : 0 < ndets) (hn : 0 < nu + nd)
    (o : Fin ndets → Matrix (Fin (nu + nd)) (Fin (nu + nd)) ℝ) :
    0 ≤ lossFull (S.evalOrbitals (nu, nd) pos b) o ∧
    (lossFull (S.evalOrbitals (nu, nd) pos b) o = 0 ↔ ∀ k, o k = molMatrix S hu hd r) ∧
    (∀ k i j, |molMatrix S hu hd r i j - o k i j| ^ 2 ≤ ndets * (nu + nd : ℕ) * (nu + nd : ℕ) * lossFull (S.evalOrbitals (nu, nd) pos b) o) := by
  rw [loss_molecule S hu hd pos b r hr]
  have hpos : (0 : ℝ) < ndets * (nu + nd : ℕ) * (nu + nd : ℕ) := by positivity
  refine ⟨by positivity, sum_sq_zero _ o hn hk, fun k i j => ?_⟩
  rw [mul_div_cancel₀ _ hpos.ne']
  calc |molMatrix S hu hd r i j - o k i j| ^ 2 ≤ ∑ j, ‖molMatrix S hu hd r i j - o k i j‖ ^ 2 :=
        Finset.single_le_sum (f := fun j => ‖molMatrix S hu hd r i j - o k i j‖ ^ 2) (fun _ _ => by positivity) (Finset.mem_univ j)
    _ ≤ ∑ i, ∑ j, ‖molMatrix S hu hd r i j - o k i j‖ ^ 2 :=
        Finset.single_le_sum (f := fun i => ∑ j, ‖molMatrix S hu hd r i j - o k i j‖ ^ 2) (fun _ _ => by positivity) (Finset.mem_univ i)
    _ ≤ _ := Finset.single_le_sum (f := fun k => ∑ i, ∑ j, ‖molMatrix S hu hd r i j - o k i j‖ ^ 2) (fun _ _ => by positivity) (Finset.mem_univ k)

/-- **C100** (loss of a crystal). -/
theorem c100_loss_crystal (S : Periodic nk nao) (hu : nu ≤ (occupiedList S.mf).1.length) (hd : nd ≤ (occupiedList S.mf).2.length)
    (pos : ℕ → ℕ → Vec 3) (b : ℕ) (r : Fin (nu + nd) → Vec 3)
    (hr : ∀ e : Fin (nu + nd), pos b e = r e) {ndets : ℕ} (hk : 0 < ndets) (hn : 0 < nu + nd)
    (o : Fin ndets → Matrix (Fin (nu + nd)) (Fin (nu + nd)) ℂ) :
    0 ≤ lossFull (S.evalOrbitals (nu, nd) pos b) o ∧
    (lossFull (S.evalOrbitals (nu, nd) pos b) o = 0 ↔ ∀ k, o k = slaterMatrix (orbUp S hu) (orbDown S hd) r) ∧
    (∀ k i j, ‖slaterMatrix (orbUp S hu) (orbDown S hd) r i j - o k i j‖ ^ 2
      ≤ ndets * (nu + nd : ℕ) * (nu + nd : ℕ) * lossFull (S.evalOrbitals (nu, nd) pos b) o) := by
  rw [loss_periodic S hu hd pos b r hr]
  have hpos : (0 : ℝ) < ndets * (nu + nd : ℕ) * (nu + nd : ℕ) := by positivity
  refine ⟨by positivity, sum_sq_zero _ o hn hk, fun k i j => ?_⟩
  rw [mul_div_cancel₀ _ hpos.ne']
  generalize slaterMatrix (orbUp S hu) (orbDown S hd) r = M
  calc ‖M i j - o k i j‖ ^ 2 ≤ ∑ j, ‖M i j - o k i j‖ ^ 2 :=
        Finset.single_le_sum (f := fun j => ‖M i j - o k i j‖ ^ 2) (fun _ _ => by positivity) (Finset.mem_univ j)
    _ ≤ ∑ i, ∑ j, ‖M i j - o k i j‖ ^ 2 :=
        Finset.single_le_sum (f := fun i => ∑ j, ‖M i j - o k i j‖ ^ 2) (fun _ _ => by positivity) (Finset.mem_univ i)
    _ ≤ _ := Finset.single_le_sum (f := fun k => ∑ i, ∑ j, ‖M i j - o k i j‖ ^ 2) (fun _ _ => by positivity) (Finset.mem_univ k)

/-- **C100** (what zero loss means).  If the pretraining loss of FermiNet vanishes at a walker where the reference does not, the
network has the sign of the reference there and its log-amplitude is that of the reference plus the logarithm of the
number of determinants: the two wavefunctions are proportional. -/
theorem c100_matched {na : ℕ} (S : Molecular nao) (W : Wf.FermiNet) (hu : nu ≤ S.coeffA.length)
    (hd : nd ≤ (if S.restricted then S.coeffA else S.coeffB).length) (r : Fin (nu + nd) → Vec 3) (atoms : Fin na → Vec 3)
    (hk : 0 < W.ndets) (hn : 0 < nu + nd)
    (h0 : lossFull (S.evalOrbitals (nu, nd) (fun _ => walker r) 0) (W.orbitals r atoms) = 0) (s l : ℝ)
    (href : S.evalSlater (nu, nd) (fun _ => walker r) 0 = some (s, ((l : ℝ) : WithBot ℝ))) :
    (W.call r atoms).signLogpsi = some s ∧ (W.call r atoms).logpsi = some ((l + Real.log W.ndets : ℝ) : WithBot ℝ) := by
  have hw : ∀ e : Fin (nu + nd), walker r e = r e := fun e => by simp [walker]
  have hM := (c100_loss_molecule S hu hd (fun _ => walker r) 0 r hw hk hn (W.orbitals r atoms)).2.1.1 h0
  have hD := c99_molecule S hu hd (fun _ => walker r) 0 r hw
  simp only at hD
  rw [hD] at href
  set D := (molMatrix S hu hd r).det with hDdef
  have hD' : (slaterMatrix (fun j : Fin nu => molOrbital S (S.coeffA[j.val]'(lt_of_lt_of_le j.2 hu)))
      (fun j : Fin nd => molOrbital S ((if S.restricted then S.coeffA else S.coeffB)[j.val]'(lt_of_lt_of_le j.2 hd))) r).det = D := rfl
  rw [hD'] at href
  have hne : D ≠ 0 := by
    intro h
    rw [h] at href
    simp at href
  rw [if_neg hne] at href
  have hs : s = (SignType.sign D : ℝ) := by
    have := congrArg (fun o => o.map Prod.fst) href
    simpa using this.symm
  have hl : l = Real.log |D| := by
    have h1 := congrArg (fun o => o.map Prod.snd) href
    simp only [Option.map_some, Option.some.injEq] at h1
    exact (WithBot.coe_injective h1).symm
  have hdet : ∀ k, ((W.orbitals r atoms) k).det = D := fun k => by rw [hM k]
  have hne' : ∃ k, ((W.orbitals r atoms) k).det ≠ 0 := ⟨⟨0, hk⟩, by rw [hdet]; exact hne⟩
  obtain ⟨h1, h2⟩ := (Wf.Props.c63_real (W.orbitals r atoms)).2.1 hne'
  have hsum : ∑ k, ((W.orbitals r atoms) k).det = W.ndets * D := by
    simp only [hdet, Finset.sum_const, Finset.card_univ, Fintype.card_fin, nsmul_eq_mul]
  have hkp : (0 : ℝ) < W.ndets := by exact_mod_cast hk
  unfold Wf.FermiNet.call
  rw [h1, h2, hsum, sign_mul, sign_pos hkp, one_mul, if_neg (mul_ne_zero hkp.ne' hne), abs_mul, abs_of_pos hkp,
    Real.log_mul hkp.ne' (abs_ne_zero.2 hne), hs, hl, add_comm]
  exact ⟨rfl, rfl⟩

/-- **C100** (relabelling).  The pretraining loss does not depend on the order in which electrons of the same spin are listed,
for FermiNet (the Slater matrix and the network's orbital matrices have their rows permuted in the same way). -/
theorem c100_relabel {na : ℕ} (S : Molecular nao) (W : Wf.FermiNet) (hu : nu ≤ S.coeffA.length)
    (hd : nd ≤ (if S.restricted then S.coeffA else S.coeffB).length) (r : Fin (nu + nd) → Vec 3) (atoms : Fin na → Vec 3)
    (σ : Equiv.Perm (Fin (nu + nd))) (hσ : SameSpin nu σ) :
    lossFull (S.evalOrbitals (nu, nd) (fun _ => walker fun i => r (σ i)) 0) (W.orbitals (fun i => r (σ i)) atoms) =
      lossFull (S.evalOrbitals (nu, nd) (fun _ => walker r) 0) (W.orbitals r atoms) := by
  have hw : ∀ (r : Fin (nu + nd) → Vec 3) (e : Fin (nu + nd)), walker r e = r e := fun r e => by simp [walker]
  rw [loss_molecule S hu hd (fun _ => walker r) 0 r (hw r), loss_molecule S hu hd (fun _ => walker fun i => r (σ i)) 0 _ (hw _)]
  congr 1
  refine Finset.sum_congr rfl fun k _ => ?_
  conv_rhs => rw [← Equiv.sum_comp σ]
  refine Finset.sum_congr rfl fun i _ => Finset.sum_congr rfl fun j _ => ?_
  rw [Wf.Props.ferminet_rows W r atoms σ hσ k]
  congr 3
  simp only [molMatrix, slaterMatrix, Matrix.of_apply, hσ i]

/-- A reference whose two orbitals are proportional to x and y. -/
noncomputable def xyRef : Molecular 2 :=
  ⟨fun a r => Real.tanh 1 * r (if a = 0 then 0 else 1), false, [![1, 0], ![0, 1]], []⟩

/-- Non-vacuity of `c100_matched`: a FermiNet with a hidden layer and a reference that match at two spin-up electrons, with a
determinant that does not vanish. -/
theorem c100_example :
    lossFull (xyRef.evalOrbitals (2, 0) (fun _ => walker (n := 2 + 0) Wf.Props.twoElectrons) 0)
      (Wf.Props.tinyFermi.orbitals (nu := 2) (nd := 0) Wf.Props.twoElectrons Wf.Props.oneAtom) = 0 ∧
    (xyRef.evalSlater (2, 0) (fun _ => walker (n := 2 + 0) Wf.Props.twoElectrons) 0)
      = some (1, ((Real.log (Real.tanh 1 ^ 2) : ℝ) : WithBot ℝ)) := by
  have hw : ∀ e : Fin (2 + 0), walker Wf.Props.twoElectrons e = Wf.Props.twoElectrons e := fun e => by
    simp only [walker, e.2, dite_true]
  have hu : 2 ≤ xyRef.coeffA.length := by simp [xyRef]
  have hd : 0 ≤ (if xyRef.restricted then xyRef.coeffA else xyRef.coeffB).length := Nat.zero_le _
  have hM : molMatrix (nu := 2) (nd := 0) xyRef hu hd Wf.Props.twoElectrons = Matrix.diagonal fun _ => Real.tanh 1 := by
    funext i j
    fin_cases i <;> fin_cases j <;>
      simp [molMatrix, slaterMatrix, molOrbital, xyRef, Wf.Props.twoElectrons] <;>
      first | exact Or.inl rfl | (change (1 : ℝ) * Real.tanh 1 = Real.tanh 1; ring)
  have ht : 0 < Real.tanh 1 := by rw [Real.tanh_eq_sinh_div_cosh]; exact div_pos (Real.sinh_pos_iff.2 one_pos) (Real.cosh_pos 1)
  constructor
  · refine (c100_loss_molecule (nu := 2) (nd := 0) xyRef hu hd (fun _ => walker Wf.Props.twoElectrons) 0 Wf.Props.twoElectrons hw (ndets := 1)
      one_pos (by norm_num) _).2.1.2 fun k => ?_
    rw [hM]
    funext i j
    obtain rfl : k = 0 := Subsingleton.elim _ _
    rw [Matrix.diagonal_apply]
    exact Wf.Props.tiny_orbitals i j
  · have h := c99_molecule (nu := 2) (nd := 0) xyRef hu hd (fun _ => walker Wf.Props.twoElectrons) 0 Wf.Props.twoElectrons hw
    simp only at h
    have hdet : (slaterMatrix (fun j : Fin 2 => molOrbital xyRef (xyRef.coeffA[j.val]'(lt_of_lt_of_le j.2 hu)))
      (fun j : Fin 0 => molOrbital xyRef ((if xyRef.restricted then xyRef.coeffA else xyRef.coeffB)[j.val]'(lt_of_lt_of_le j.2 hd)))
        Wf.Props.twoElectrons).det = Real.tanh 1 ^ 2 := by
      change (molMatrix (nu := 2) (nd := 0) xyRef hu hd Wf.Props.twoElectrons).det = _
      rw [hM, Matrix.det_diagonal]
      simp
    have hp : 0 < Real.tanh 1 ^ 2 := pow_pos ht 2
    rw [hdet, sign_pos hp, if_neg hp.ne', abs_of_pos hp] at h
    rw [h]
    simp

/-! ### Without `full_det` -/

/-- **C100** is false for a crystal network with `full_det=False`, which the solid workflow accepts: the two spin blocks of the
target are paired with the first two *determinants*.  With one electron of each spin and two determinants the loss is zero
for orbital matrices with constant entries, whose determinants vanish although the reference determinant `a b` does not,
and it is positive when both determinants are the Slater matrix of the reference. -/
theorem c100_split_false (a b : ℝ) (ha : a ≠ 0) (hb : b ≠ 0) :
    (∃ o : Fin 2 → Matrix (Fin 2) (Fin 2) ℝ, lossSplit ([[a]], [[b]]) o = some 0 ∧ (∀ k, (o k).det = 0)) ∧
    (∃ x : ℝ, 0 < x ∧ lossSplit ([[a]], [[b]]) (fun _ : Fin 2 => !![a, 0; 0, b]) = some x) ∧
    (!![a, 0; 0, b] : Matrix (Fin 2) (Fin 2) ℝ).det ≠ 0 := by
  refine ⟨⟨fun k => Matrix.of fun _ _ => if k = 0 then a else b, ?_, fun k => ?_⟩, ?_, ?_⟩
  · simp [lossSplit, meanBroadcast, List.ofFn_succ, Fin.sum_univ_two]
  · rw [Matrix.det_fin_two]
    simp
  · refine ⟨_, ?_, by simp [lossSplit, meanBroadcast, List.ofFn_succ, Fin.sum_univ_two]; rfl⟩
    have : 0 < a ^ 2 := by positivity
    have : 0 < b ^ 2 := by positivity
    nlinarith [sq_nonneg (a - b), sq_nonneg (b - a)]
  · simp [Matrix.det_fin_two, ha, hb]

end Jaqmc.Scf.Props
