import Verif.Model.LegacyPp
import Verif.Props.MolEnergyH
/-!
C113: the local energy of the legacy package, with and without pseudo-Hamiltonians.
-/
namespace Jaqmc.LegacyPp.Props
open Jaqmc.LegacyPp Jaqmc.Geometry Jaqmc.Ecp
open Jaqmc.MolEnergy (triuSum flatten unflatten)
open Jaqmc.MolEnergy.Spec (coulomb Apart)
open Jaqmc.Ph.Spec (radius derivativePart laplacian massForm)
open Jaqmc.Laplacian.Spec (IsLaplacian)
open Jaqmc.Laplacian (CurveLap_line)
open scoped Topology

variable {n N A : ℕ}

/-! ### Kinetic energy -/

theorem range_mul {α : Type} (g : ℕ → α) (a b : ℕ) :
    (List.range a).flatMap (fun c => (List.range b).map fun j => g (c * b + j)) = (List.range (a * b)).map g := by
  induction a with
  | zero => simp
  | succ a ih =>
    rw [List.range_succ, List.flatMap_append, ih, Nat.succ_mul, List.range_add, List.map_append]
    simp [List.map_map, Function.comp_def]

theorem zipIdx_sum (g : ℕ → (Fin N → ℝ) × (Fin N → ℝ)) (F : ((Fin N → ℝ) × (Fin N → ℝ)) × ℕ → ℝ) (m : ℕ) :
    ((((List.range m).map g).zipIdx).map F).sum = ∑ i ∈ Finset.range m, F (g i, i) := by
  induction m with
  | zero => simp
  | succ m ih =>
    rw [List.range_succ, List.map_append, List.zipIdx_append, List.map_append, List.sum_append, ih, Finset.sum_range_succ]
    simp

theorem eyeRow_eq (i : Fin N) : eyeRow N i = Kinetic.eye i := by
  funext k
  unfold eyeRow Kinetic.eye
  by_cases h : k = i
  · subst h; simp
  · rw [if_neg (fun hv => h (Fin.ext hv)), Pi.single_eq_of_ne h]

/-- All the ways of computing the kinetic energy agree with each other. -/
theorem localKinetic_eq (s : KineticSettings) (f : (Fin N → ℝ) → ℝ) (x : Fin N → ℝ) (hf : ContDiffAt ℝ 2 f x) (v : ℝ) (jac : Fin N → ℝ) (lap : ℝ)
    (hfwd : s.forward = true → IsLaplacian x Kinetic.eye f v jac lap) (hpart : s.forward = false → s.partition ≠ 0 → s.partition ∣ N) :
    localKinetic s f jac lap x = some (Kinetic.standard .scan f x) := by
  have hv := Kinetic.Props.standard_value .scan f x hf
  unfold localKinetic
  by_cases hs : s.forward = true
  · rw [if_pos hs]
    obtain ⟨rfl, h⟩ := hfwd hs
    have h3 := Laplacian.Spec.CurveLap.comp hf (CurveLap_line x (Kinetic.eye (n := N)))
    obtain ⟨e1, e2⟩ := h.unique h3
    rw [hv]
    have hD : ∀ i, Kinetic.D (Kinetic.eye i) (Kinetic.D (Kinetic.eye i) f) x = fderiv ℝ (fderiv ℝ f) x (Kinetic.eye i) (Kinetic.eye i) := by
      intro i
      have h1 : ContDiffAt ℝ 1 (fderiv ℝ f) x := hf.fderiv_right (by norm_num)
      unfold Kinetic.D
      rw [fderiv_clm_apply (h1.differentiableAt (by norm_num)) (differentiableAt_const _)]
      simp
    rw [e2, e1]
    simp only [hD]
    congr 1
    norm_num
    rfl
  · rw [if_neg hs]
    dsimp only
    have hlin : ∀ (d : Fin N → ℝ) (i : Fin N), fderiv ℝ (Kinetic.grad f) x d i = fderiv ℝ (fun y => Kinetic.grad f y i) x d := fun d i =>
      Kinetic.Props.linearize_apply (F := Kinetic.grad f) (fun j => Kinetic.diff_D hf (Kinetic.eye j)) d i
    split_ifs with h1 h0 hc hdiv
    · rw [hv]
      congr 1
      unfold Kinetic.grad Kinetic.pd Kinetic.D
      norm_num
      ring
    · rw [hv]
      congr 1
      have := Kinetic.Props.diagonalSum_eq .scan (Kinetic.linearize (Kinetic.grad f) x).2
      unfold Kinetic.diagonalSum at this
      dsimp only at this
      rw [this]
      simp only [Kinetic.linearize, hlin]
      unfold Kinetic.grad Kinetic.pd Kinetic.D
      norm_num
    · rw [hv]
      congr 1
      have := Kinetic.Props.diagonalSum_eq .foriLoop (Kinetic.linearize (Kinetic.grad f) x).2
      unfold Kinetic.diagonalSum at this
      dsimp only at this
      rw [this]
      simp only [Kinetic.linearize, hlin]
      unfold Kinetic.grad Kinetic.pd Kinetic.D
      norm_num
    · rw [hv]
      congr 1
      unfold chunkRows
      rw [range_mul (fun i => (Kinetic.grad f x, fderiv ℝ (Kinetic.grad f) x (eyeRow N i))), zipIdx_sum, zipIdx_sum,
        Nat.mul_div_cancel' (Nat.dvd_of_mod_eq_zero hdiv), Finset.sum_range, Finset.sum_range]
      simp only [entry, Fin.is_lt, dif_pos, eyeRow_eq, Fin.eta, hlin]
      unfold Kinetic.grad Kinetic.pd Kinetic.D
      norm_num
      ring
    · exact absurd (Nat.mod_eq_zero_of_dvd (hpart (by simpa using hs) h0)) hdiv

/-- C113 (kinetic energy): whichever of the five ways is chosen, the number returned is `-½ Δψ / ψ`, for every wavefunction given by sign and
logarithm; a number of partitions that does not divide the number of coordinates is refused. -/
theorem c113_kinetic (s : KineticSettings) (sign f : (Fin n → Vec 3) → ℝ) (x : Fin n → Vec 3) (hf : ContDiffAt ℝ 2 f x)
    (hs : ∀ y, sign y = 1 ∨ sign y = -1) (hc : ContinuousAt (fun y => sign y * Real.exp (f y)) x) (v : ℝ) (jac : Fin (n * 3) → ℝ) (lap : ℝ) :
    ((s.forward = true → IsLaplacian (flatten x) Kinetic.eye (fun y => f (unflatten y)) v jac lap) →
      (s.forward = false → s.partition ≠ 0 → s.partition ∣ n * 3) →
      ∃ E, localKinetic s (fun y => f (unflatten y)) jac lap (flatten x) = some E ∧
        E * (sign x * Real.exp (f x)) = -(1 / 2) * laplacian (fun y => sign y * Real.exp (f y)) x) ∧
    (s.forward = false → s.partition ≠ 0 → ¬ s.partition ∣ n * 3 → localKinetic s (fun y => f (unflatten y)) jac lap (flatten x) = none) := by
  constructor
  · intro h1 h2
    have hf' : ContDiffAt ℝ 2 (fun y : Fin (n * 3) → ℝ => f (unflatten y)) (flatten x) := by
      refine ContDiffAt.comp (flatten x) ?_ MolEnergy.Props.unflatten_contDiff.contDiffAt
      rw [MolEnergy.Props.unflatten_flatten]
      exact hf
    refine ⟨_, localKinetic_eq s _ _ hf' v jac lap h1 h2, ?_⟩
    have h := Kinetic.Props.c68_real .scan (fun y : Fin (n * 3) → ℝ => f (unflatten y)) (fun y => sign (unflatten y) * Real.exp (f (unflatten y)))
      (fun y => sign (unflatten y)) (flatten x) hf' (fun y => hs _) (fun y => rfl) ?_
    · rw [MolEnergy.Props.laplacian_flat (fun y => sign y * Real.exp (f y)), MolEnergy.Props.unflatten_flatten] at h
      exact h
    · refine ContinuousAt.comp (f := unflatten) (g := fun y => sign y * Real.exp (f y)) ?_
        MolEnergy.Props.unflatten_contDiff.continuous.continuousAt
      rw [MolEnergy.Props.unflatten_flatten]
      exact hc
  · intro h1 h2 h3
    unfold localKinetic
    dsimp only
    rw [if_neg (by simp [h1]), if_neg (fun h => h3 (by rw [h]; exact one_dvd _)), if_neg h2, if_neg (fun h => h3 (Nat.dvd_of_mod_eq_zero h))]

/-! ### Coulomb energy -/

theorem norm_radius (p R : Vec 3) : Geometry.norm (fun k => p k - R k) = radius p R := by
  unfold Geometry.norm radius
  simp [sq]

/-- C113 (Coulomb energy): every pair of particles is counted once, with the charges -1 and `Z`. -/
theorem c113_potential (r : Fin n → Vec 3) (R : Fin A → Vec 3) (Z : Fin A → ℝ) (_h : Apart r R) : potential r R Z = coulomb r R Z := by
  unfold potential coulomb potEE potEN potNN
  rw [MolEnergy.Props.triuSum_eq _ (fun i j => 1 / radius (r i) (r j)), MolEnergy.Props.triuSum_eq _ (fun a b => Z a * Z b / radius (R a) (R b))]
  · unfold rAe
    simp only [norm_radius]
    ring
  · intro a b _
    rw [norm_radius, Ph.Spec.radius, Ph.Spec.radius, mul_comm]
    congr 2
    exact Finset.sum_congr rfl fun k _ => by ring
  · intro i j hij
    have he : eye i j = 0 := if_neg (ne_of_lt hij)
    unfold rEe
    rw [he]
    simp only [add_zero, sub_zero, mul_one]
    rw [norm_radius, Ph.Spec.radius, Ph.Spec.radius]
    congr 2
    exact Finset.sum_congr rfl fun k _ => by ring

/-! ### Pseudo-Hamiltonian -/

theorem list_sum {α : Type} (l : List α) (g : α → ℝ) : (l.map g).sum = ∑ a : Fin l.length, g (l.get a) := by
  induction l with
  | nil => rfl
  | cons a l ih => rw [List.map_cons, List.sum_cons, ih]; exact (Fin.sum_univ_succ (fun i : Fin (l.length + 1) => g ((a :: l).get i))).symm

theorem fold_apply {α : Type} (l : List α) (g : α → Matrix (Fin 3) (Fin 3) ℝ) (c : Matrix (Fin 3) (Fin 3) ℝ) (i j : Fin 3) :
    ((l.map g).foldl (fun carry m => m + carry) c) i j = (l.map fun a => g a i j).sum + c i j := by
  induction l generalizing c with
  | nil => simp
  | cons a l ih => rw [List.map_cons, List.foldl_cons, ih, List.map_cons, List.sum_cons, Matrix.add_apply]; ring

/-- The positions and radial values of the atoms, as the new code takes them. -/
def pos (ph : List (Vec 3 × Radial)) (a : Fin ph.length) : Vec 3 := (ph.get a).1
noncomputable def l2 (ph : List (Vec 3 × Radial)) (x : Fin n → Vec 3) (e : Fin n) (a : Fin ph.length) : ℝ :=
  (ph.get a).2.l2 (Ph.norm3 (Ph.rel (x e) (ph.get a).1))

theorem effMass_eq (ph : List (Vec 3 × Radial)) (x : Fin n → Vec 3) (e : Fin n) : effMass (x e) ph = Ph.mass (x e) (pos ph) (l2 ph x e) := by
  ext i j
  unfold effMass Ph.mass
  rw [Matrix.add_apply, Matrix.add_apply, fold_apply, list_sum, add_comm]
  congr 1
  rw [Matrix.zero_apply, add_zero]
  unfold Ph.correction
  refine Finset.sum_congr rfl fun a _ => ?_
  unfold massTerm pos l2
  rw [Ph.invR_eq _ (Ph.norm3_nonneg _), div_eq_mul_inv]
  ring

theorem factors_eq (ph : List (Vec 3 × Radial)) (x : Fin n → Vec 3) : factors x ph = Ph.factors x (pos ph) (l2 ph x) := by
  unfold factors Ph.factors
  simp only [effMass_eq]

theorem kineticPh_eq (f : (Fin n → Fin 3 → ℝ) → ℝ) (x : Fin n → Fin 3 → ℝ) (ph : List (Vec 3 × Radial)) (jac : Fin n × Fin 3 → ℝ) (lap : ℝ) :
    kineticPh f x ph jac lap = (Ph.forward f x (pos ph) (l2 ph x) jac lap).map fun d => d + zeroOrder x ph := by
  unfold kineticPh Ph.forward
  rw [factors_eq, Option.map_map]
  congr 1
  funext L
  simp only [Function.comp_apply]
  have : ∀ (e : Fin n) (i : Fin 3), firstOrder (x e) ph i = Ph.firstOrderForward (x e) (pos ph) (l2 ph x e) i := by
    intro e i
    unfold firstOrder Ph.firstOrderForward
    rw [list_sum]
    refine Finset.sum_congr rfl fun a _ => ?_
    unfold pos l2
    rw [Ph.invR_eq _ (Ph.norm3_nonneg _), div_eq_mul_inv]
    ring
  simp only [this, mul_comm (Kinetic.pd _ _ _), sq]
  ring

/-- C113 (pseudo-Hamiltonian): with the gradient and Laplacian of the wavefunction in the Cholesky coordinates, the energy is that of
`-½ Δ + Σ v_{L2}(r) L²/… + Σ v_loc(r)` applied to the wavefunction; the tables hold `r·v`. -/
theorem c113_ph (f ψ : (Fin n → Fin 3 → ℝ) → ℝ) (x : Fin n → Fin 3 → ℝ) (hf : ContDiffAt ℝ 2 f x) (h : Ph.Spec.LogOf f ψ x) (hc : ContinuousAt ψ x)
    (ph : List (Vec 3 × Radial)) (_haway : ∀ e, ∀ a ∈ ph, x e ≠ a.1) (L : Fin n → Matrix (Fin 3) (Fin 3) ℝ) (hL : factors x ph = some L)
    (v : ℝ) (jac : Fin n × Fin 3 → ℝ) (lap : ℝ)
    (hlap : IsLaplacian (0 : Fin n → Fin 3 → ℝ) (fun k : Fin n × Fin 3 => Ph.dir k.1 k.2) (fun y => f (Ph.shifted x L y)) v jac lap) :
    ∃ E, kineticPh f x ph jac lap = some E ∧
      E * ψ x = derivativePart (fun a : Fin ph.length => (ph.get a).1)
          (fun e a => (ph.get a).2.l2 (radius (x e) (ph.get a).1) / radius (x e) (ph.get a).1) ψ x +
        (∑ e, ∑ a : Fin ph.length, (ph.get a).2.loc (radius (x e) (ph.get a).1) / radius (x e) (ph.get a).1) * ψ x := by
  obtain ⟨E, hE, h1⟩ := Ph.Props.c92_forward f ψ x hf h hc (pos ph) (l2 ph x) L (by rw [← factors_eq]; exact hL) v jac lap hlap
  refine ⟨E + zeroOrder x ph, by rw [kineticPh_eq, hE]; rfl, ?_⟩
  rw [add_mul, h1]
  unfold zeroOrder
  simp only [list_sum]
  rfl

/-- C113 (pseudo-Hamiltonian): a number comes out exactly when the inverse mass tensor of every electron is positive definite; otherwise NaN. -/
theorem c113_ph_nan (f : (Fin n → Fin 3 → ℝ) → ℝ) (x : Fin n → Fin 3 → ℝ) (ph : List (Vec 3 × Radial)) (jac : Fin n × Fin 3 → ℝ) (lap : ℝ) :
    (kineticPh f x ph jac lap).isSome ↔ ∀ e (u : Vec 3), u ≠ 0 → 0 < massForm (x e) (fun a : Fin ph.length => (ph.get a).1)
      (fun a => (ph.get a).2.l2 (radius (x e) (ph.get a).1) / radius (x e) (ph.get a).1) u := by
  rw [kineticPh_eq, Option.isSome_map]
  exact (Ph.Props.c92_nan f x (pos ph) (l2 ph x) jac lap).2

/-! ### Tables -/

/-- C113 (tables): the loader keeps the `s` channel as the local part and the `d` channel through `L²`; when the three channels are those of a
pseudo-Hamiltonian, `v_l = loc + l(l+1) l2`, these are its radial functions, exactly those the new loader finds, and the valence charge
added to the table takes back the Coulomb attraction of the nucleus. -/
theorem c113_tables (s p d : ℕ → ℝ) (charge : ℝ) (i : ℕ) :
    (phData s p d charge).1 i - charge = s i ∧ ((phData s p d charge).1 i - charge) + 6 * (phData s p d charge).2 i = d i ∧
    (∀ loc l2, s i = loc → p i = loc + 2 * l2 → d i = loc + 6 * l2 →
      (phData s p d charge).1 i = loc + charge ∧ (phData s p d charge).2 i = l2 ∧
      (Ph.loadTables 2 (fun l i => if l = 0 then s i else if l = 1 then p i else d i) charge).1 i = (phData s p d charge).1 i ∧
      (Ph.loadTables 2 (fun l i => if l = 0 then s i else if l = 1 then p i else d i) charge).2 i = (phData s p d charge).2 i) := by
  refine ⟨by simp [phData, parseTM], by simp [phData, parseTM]; ring, fun loc l2 hs hp hd => ?_⟩
  have h1 : (phData s p d charge).1 i = loc + charge := by simp [phData, parseTM, hs]
  have h2 : (phData s p d charge).2 i = l2 := by simp only [phData, parseTM, hs, hd]; ring
  refine ⟨h1, h2, ?_⟩
  have h3 : Ph.reconstruct 2 (fun l => if l = 0 then s i else if l = 1 then p i else d i) = (loc, l2) := by
    refine Ph.Props.c93_reconstruct 2 loc l2 _ (fun l hl => ?_) (by simp)
    interval_cases l
    · simp [hs]
    · simp [hp]
    · simp [hd]
  rw [h1, h2]
  unfold Ph.loadTables
  dsimp only
  rw [h3]
  simp

/-- C113 (tables): the `p` channel of the file is not looked at: whatever it is, the result is the same. -/
theorem c113_p_ignored (s p p' d : ℕ → ℝ) (charge : ℝ) : phData s p d charge = phData s p' d charge := rfl

/-! ### Examples -/

/-- Three partitions of the six coordinates of two electrons, and four, which do not divide them. -/
example (f : (Fin 2 → Vec 3) → ℝ) (jac : Fin (2 * 3) → ℝ) (x : Fin 2 → Vec 3) (hf : ContDiffAt ℝ 2 f x)
    (hc : ContinuousAt (fun y => 1 * Real.exp (f y)) x) :
    (∃ E, localKinetic ⟨false, 3, false⟩ (fun y => f (unflatten y)) jac 0 (flatten x) = some E ∧
      E * (1 * Real.exp (f x)) = -(1 / 2) * laplacian (fun y => 1 * Real.exp (f y)) x) ∧
    localKinetic ⟨false, 4, false⟩ (fun y => f (unflatten y)) jac 0 (flatten x) = none :=
  ⟨(c113_kinetic ⟨false, 3, false⟩ (fun _ => 1) f x hf (fun _ => Or.inl rfl) hc 0 jac 0).1 (by simp) (by intro _ _; decide),
    (c113_kinetic ⟨false, 4, false⟩ (fun _ => 1) f x hf (fun _ => Or.inl rfl) hc 0 jac 0).2 rfl (by simp) (by decide)⟩

/-- One electron near a pseudo-Hamiltonian atom with a repulsive `L²` part: the mass tensor is positive definite. -/
example (f : (Fin 1 → Fin 3 → ℝ) → ℝ) (jac : Fin 1 × Fin 3 → ℝ) (lap : ℝ) :
    (kineticPh f (fun _ => ![1, 0, 0]) [(0, ⟨fun r => -r, fun _ => 1⟩)] jac lap).isSome := by
  rw [c113_ph_nan]
  intro e u hu
  unfold massForm
  have hr : radius ((fun _ => ![1, 0, 0] : Fin 1 → Vec 3) e) (0 : Vec 3) = 1 := by
    unfold radius
    simp [Fin.sum_univ_three]
  have h0 : 0 < ∑ k, u k ^ 2 := by
    obtain ⟨k, hk⟩ := Function.ne_iff.mp hu
    exact Finset.sum_pos' (fun _ _ => sq_nonneg _) ⟨k, Finset.mem_univ _, by simpa using pow_pos (abs_pos.mpr hk) 2⟩
  simp only [Fin.sum_univ_three] at h0 ⊢
  simp [hr]
  nlinarith [sq_nonneg (u 1), sq_nonneg (u 2)]

end Jaqmc.LegacyPp.Props
