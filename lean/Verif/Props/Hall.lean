import Verif.Model.Hall
import Verif.Spec.Hall
import Verif.Props.Wavefunction
import Mathlib.LinearAlgebra.Vandermonde
import Mathlib.GroupTheory.Perm.Fin
/-! C66 (exchange on the Haldane sphere), C67 (flux of the wavefunctions on the sphere). -/
namespace Jaqmc.Hall.Props
open Wf Wf.Spec Wf.Props Hall.Spec Matrix
open scoped Classical BigOperators

variable {nu nd : ℕ}

/-! ### C66 -/

theorem chord_perm {n : ℕ} (σ : Equiv.Perm (Fin n)) (e : Fin n → Angles) (i j : Fin n) :
    chord (fun k => e (σ k)) i j = chord e (σ i) (σ j) := by
  unfold chord
  simp only [EmbeddingLike.apply_eq_iff_eq]

theorem chord_symm {n : ℕ} (e : Fin n → Angles) (i j : Fin n) : chord e i j = chord e j i := by
  unfold chord
  by_cases h : i = j
  · subst h; rfl
  · simp only [if_neg h, if_neg (Ne.symm h), add_zero]
    rw [show Geometry.norm (fun k => cart (e j) k - cart (e i) k) = Geometry.norm (fun k => cart (e i) k - cart (e j) k) by
      unfold Geometry.norm
      congr 1
      exact Finset.sum_congr rfl fun k _ => by ring]

/-- The spherical Jastrow factor is the electron-electron Jastrow factor at the chord distances. -/
theorem spherical_eq (p q : ℝ) (e : Fin (nu + nd) → Angles) : sphericalJastrow p q e = jastrow p q (chord e) := by
  unfold sphericalJastrow jastrow cusp
  ring

theorem spherical_perm (p q : ℝ) (e : Fin (nu + nd) → Angles) (σ : Equiv.Perm (Fin (nu + nd))) (hσ : SameSpin nu σ) :
    sphericalJastrow p q (fun i => e (σ i)) = sphericalJastrow p q e := by
  rw [spherical_eq, spherical_eq]
  have : chord (fun i => e (σ i)) = fun i j => chord e (σ i) (σ j) := by
    funext i j; exact chord_perm σ e i j
  rw [this]
  exact jastrow_perm σ hσ p q (chord e) (chord_symm e)

/-- The product over pairs attached by `flux_per_elec`. -/
noncomputable def pairProduct {n : ℕ} (e : Fin n → Angles) : ℂ :=
  ∏ i, ∏ j ∈ Finset.Ioi i, (uOf (e j) * vOf (e i) - uOf (e i) * vOf (e j))

/-- Two electrons at different points of the sphere (as spinors): no factor of the product vanishes. -/
def Apart {n : ℕ} (e : Fin n → Angles) : Prop := ∀ i j, i ≠ j → uOf (e j) * vOf (e i) - uOf (e i) * vOf (e j) ≠ 0

theorem exp_log_sum {n : ℕ} (e : Fin n → Angles) (h : Apart e) :
    Complex.exp (∑ i, ∑ j, if i < j then Complex.log (element e i j) else 0) = pairProduct e := by
  rw [Complex.exp_sum]
  unfold pairProduct
  refine Finset.prod_congr rfl fun i _ => ?_
  rw [Complex.exp_sum, ← Finset.prod_filter_mul_prod_filter_not Finset.univ (fun j => i < j)]
  rw [Finset.prod_eq_one (s := Finset.univ.filter (fun j => ¬ i < j)) (fun j hj => by
    rw [if_neg (Finset.mem_filter.1 hj).2, Complex.exp_zero]), mul_one]
  refine Finset.prod_congr (by ext j; simp) fun j hj => ?_
  have hij : i < j := by simpa using hj
  rw [if_pos hij, element, if_neg hij.ne, add_zero, Complex.exp_log (h i j hij.ne)]

/-- The determinant of the MHPO orbitals: the Jastrow factor appears to the first power. -/
theorem mhpo_det (W : MHPO) (e : Fin (nu + nd) → Angles) (hn : 0 < nu + nd) (h : 0 < W.perElec → Apart e) (k : Fin W.ndets) :
    (W.orbitals e k).det = Complex.exp (sphericalJastrow W.alphaPar W.alphaAnti e : ℂ) * pairProduct e ^ W.perElec
      * (monopoleOrbitals W (W.features e) e k).det := by
  have : W.orbitals e k = Complex.exp (W.jastrow e / ((nu + nd : ℕ) : ℂ)) • monopoleOrbitals W (W.features e) e k := rfl
  rw [this, Matrix.det_smul, Fintype.card_fin, ← Complex.exp_nat_mul, mul_div_cancel₀ _ (by exact_mod_cast hn.ne')]
  congr 1
  unfold MHPO.jastrow
  rw [Complex.exp_add]
  congr 1
  by_cases hp : 0 < W.perElec
  · rw [if_pos hp, mul_comm, Complex.exp_nat_mul, exp_log_sum e (h hp)]
  · have h0 : W.perElec = 0 := by omega
    simp [h0]

theorem pairProduct_perm {n : ℕ} (e : Fin n → Angles) (σ : Equiv.Perm (Fin n)) :
    pairProduct (fun i => e (σ i)) = ((Equiv.Perm.sign σ : ℤˣ) : ℤ) * pairProduct e :=
  σ.prod_Ioi_comp_eq_sign_mul_prod (f := fun i j => uOf (e j) * vOf (e i) - uOf (e i) * vOf (e j)) (fun i j => by ring)

theorem features_perm (W : MHPO) (e : Fin (nu + nd) → Angles) (σ : Equiv.Perm (Fin (nu + nd))) (hσ : SameSpin nu σ) :
    W.features (fun i => e (σ i)) = (W.features e).rows σ := by
  unfold MHPO.features
  rw [← psiformer_rows σ hσ]
  rfl

theorem splitDense_rows (σ : Equiv.Perm (Fin (nu + nd))) (hσ : SameSpin nu σ) (P : OrbParams) (b : Bool) (o : ℕ)
    (x : Feat (Fin (nu + nd))) (i : Fin (nu + nd)) (k : ℕ) : (splitDense P b o (x.rows σ)).val i k = (splitDense P b o x).val (σ i) k := by
  by_cases hs : 0 < nu ∧ 0 < nd
  · rw [splitDense_val P b o _ hs, splitDense_val P b o _ hs, if_congr (hσ i) rfl rfl]
    rfl
  · unfold splitDense
    rw [if_neg hs, if_neg hs]
    rfl

theorem monopole_perm (W : MHPO) (h : Feat (Fin (nu + nd))) (e : Fin (nu + nd) → Angles) (σ : Equiv.Perm (Fin (nu + nd))) (hσ : SameSpin nu σ)
    (k : Fin W.ndets) : monopoleOrbitals W (h.rows σ) (fun i => e (σ i)) k = (monopoleOrbitals W h e k).submatrix σ id := by
  funext i j
  unfold monopoleOrbitals
  simp only [splitDense_rows σ hσ]
  rfl

/-- The value reported by a complex `logpsi`, from the determinants alone. -/
theorem value_mul {n K : ℕ} (xs ys : Fin K → Matrix (Fin n) (Fin n) ℂ) (ε : ℂ) (hε : ‖ε‖ = 1)
    (h : ∀ i, (ys i).det = ε * (xs i).det) : valueC (logDetC ys).logpsi = (valueC (logDetC xs).logpsi).map (fun z => ε * z) :=
  (logDetC_mul xs ys ε hε h).value

theorem norm_sign_pow {n : ℕ} (σ : Equiv.Perm (Fin n)) (p : ℕ) : ‖((((Equiv.Perm.sign σ : ℤˣ) : ℤ) : ℂ)) ^ p‖ = 1 := by
  rcases Int.units_eq_one_or (Equiv.Perm.sign σ) with h | h <;> simp [h]

theorem apart_perm {n : ℕ} (e : Fin n → Angles) (σ : Equiv.Perm (Fin n)) (h : Apart e) : Apart (fun i => e (σ i)) :=
  fun i j hij => h (σ i) (σ j) (fun hc => hij (σ.injective hc))

/-- C66, the exact exchange factor of MHPO: relabelling electrons of the same spin multiplies the wavefunction by the sign of
the relabelling to the power `flux_per_elec + 1`. -/
theorem c66_mhpo_factor (W : MHPO) (e : Fin (nu + nd) → Angles) (hn : 0 < nu + nd) (h : 0 < W.perElec → Apart e)
    (σ : Equiv.Perm (Fin (nu + nd))) (hσ : SameSpin nu σ) :
    valueC (W.call (fun i => e (σ i))) = (valueC (W.call e)).map (fun z => ((((Equiv.Perm.sign σ : ℤˣ) : ℤ) : ℂ)) ^ (W.perElec + 1) * z) := by
  refine value_mul _ _ _ (norm_sign_pow σ _) fun k => ?_
  rw [mhpo_det W e hn h, mhpo_det W _ hn (fun hp => apart_perm e σ (h hp)), spherical_perm _ _ e σ hσ, pairProduct_perm,
    features_perm W e σ hσ, monopole_perm W _ e σ hσ, det_rows, mul_pow, pow_succ]
  ring

/-- C66 (MHPO), what holds of the claim: with an even number of attached flux quanta (the default is 0) the wavefunction is
antisymmetric under relabelling electrons of the same spin, for all parameters. -/
theorem c66_mhpo_partial (W : MHPO) (e : Fin (nu + nd) → Angles) (hn : 0 < nu + nd) (h : 0 < W.perElec → Apart e) (hp : Even W.perElec)
    (σ : Equiv.Perm (Fin (nu + nd))) (hσ : SameSpin nu σ) :
    valueC (W.call (fun i => e (σ i))) = (valueC (W.call e)).map (fun z => (((Equiv.Perm.sign σ : ℤˣ) : ℤ) : ℂ) * z) := by
  rw [c66_mhpo_factor W e hn h σ hσ]
  obtain ⟨q, hq⟩ := hp
  congr 1
  funext z
  rw [hq, ← two_mul, pow_succ, pow_mul]
  rcases Int.units_eq_one_or (Equiv.Perm.sign σ) with hs | hs <;> simp [hs]

/-- C66, the limit: with an odd number of attached flux quanta, which nothing rejects, the wavefunction is *symmetric*: the
exchange of two electrons of the same spin leaves it as it is. -/
theorem c66_mhpo_odd (W : MHPO) (e : Fin (nu + nd) → Angles) (hn : 0 < nu + nd) (h : Apart e) (hp : Odd W.perElec)
    (σ : Equiv.Perm (Fin (nu + nd))) (hσ : SameSpin nu σ) : valueC (W.call (fun i => e (σ i))) = valueC (W.call e) := by
  rw [c66_mhpo_factor W e hn (fun _ => h) σ hσ]
  obtain ⟨q, hq⟩ := hp
  have : (fun z : ℂ => ((((Equiv.Perm.sign σ : ℤˣ) : ℤ) : ℂ)) ^ (W.perElec + 1) * z) = id := by
    funext z
    rw [hq, show 2 * q + 1 + 1 = 2 * (q + 1) by ring, pow_mul]
    rcases Int.units_eq_one_or (Equiv.Perm.sign σ) with hs | hs <;> simp [hs]
  rw [this, Option.map_id]
  rfl

theorem laughlin_perm {n : ℕ} (u v : Fin n → ℂ) (σ : Equiv.Perm (Fin n)) :
    laughlinOrbitals (fun i => u (σ i)) (fun i => v (σ i)) = (laughlinOrbitals u v).submatrix σ id := by
  funext i t
  unfold laughlinOrbitals
  simp only [EmbeddingLike.apply_eq_iff_eq, Matrix.submatrix_apply, id]
  congr 1
  have : ∀ j, (u (σ i) * v (σ j) - u (σ j) * v (σ i) + if i = j then (1 : ℂ) else 0)
      = u (σ i) * v (σ j) - u (σ j) * v (σ i) + if σ i = σ j then 1 else 0 := fun j => by
    simp only [EmbeddingLike.apply_eq_iff_eq]
  simp only [this]
  exact Equiv.prod_comp σ (fun j => u (σ i) * v j - u j * v (σ i) + if σ i = j then (1 : ℂ) else 0)

/-- C66 (Laughlin): antisymmetric under every relabelling of the electrons, whatever their spin. -/
theorem c66_laughlin {n : ℕ} (flux p : ℕ) (e : Fin n → Angles) (σ : Equiv.Perm (Fin n)) :
    (laughlin flux p (fun i => e (σ i))).map valueC
      = (laughlin flux p e).map (fun o => (valueC o).map (fun z => (((Equiv.Perm.sign σ : ℤˣ) : ℤ) : ℂ) * z)) := by
  unfold laughlin
  split_ifs
  · simp only [Option.map_some]
    congr 1
    refine value_mul _ _ _ (by simpa using norm_sign_pow σ 1) fun _ => ?_
    have := laughlin_perm (fun i => uOf (e i)) (fun i => vOf (e i)) σ
    exact (congrArg Matrix.det this).trans (det_rows σ _)
  · rfl

/-- C66 (free electrons): antisymmetric under every relabelling, for any table of one-electron functions. -/
theorem c66_free {n : ℕ} (Y : Orbital → Angles → ℂ) (flux : ℕ) (e : Fin n → Angles) (σ : Equiv.Perm (Fin n)) :
    valueC (free Y flux (fun i => e (σ i)))
      = (valueC (free Y flux e)).map (fun z => (((Equiv.Perm.sign σ : ℤˣ) : ℤ) : ℂ) * z) := by
  refine value_mul _ _ _ (by simpa using norm_sign_pow σ 1) fun _ => ?_
  let M : Matrix (Fin n) (Fin n) ℂ := Matrix.of fun (a : Fin n) (i : Fin n) => Y ((freeOrbitals flux n).getD a ⟨0, 0⟩) (e i)
  have h : (M.transpose.submatrix σ id).det = (((Equiv.Perm.sign σ : ℤˣ) : ℤ) : ℂ) * M.transpose.det := det_rows σ M.transpose
  exact (Matrix.det_transpose (M.transpose.submatrix σ id)).trans (h.trans (by rw [Matrix.det_transpose M]))

/-- C66 (free electrons): the orbitals occupied by `n` electrons.  They are `n` different states, each with `ℓ ≥ flux/2`,
`|m| ≤ ℓ` and `ℓ - m` and `ℓ - flux/2` integers; and the shells are filled in order of energy: every state of a shell below
an occupied one is occupied. -/
theorem c66_shells (flux n : ℕ) :
    (freeOrbitals flux n).length = n ∧ (freeOrbitals flux n).Nodup ∧
    (∀ o ∈ freeOrbitals flux n, (flux : ℤ) ≤ o.ell2 ∧ -o.ell2 ≤ o.m2 ∧ o.m2 ≤ o.ell2 ∧ 2 ∣ o.ell2 - o.m2 ∧ 2 ∣ o.ell2 - flux) ∧
    (∀ o ∈ freeOrbitals flux n, ∀ ell2 m2 : ℤ, (flux : ℤ) ≤ ell2 → ell2 < o.ell2 → 2 ∣ ell2 - flux → -ell2 ≤ m2 → m2 ≤ ell2 → 2 ∣ ell2 - m2 →
      (⟨ell2, m2⟩ : Orbital) ∈ freeOrbitals flux n) := by
  have key : ∀ (n : ℕ) (l m : ℤ), 0 ≤ l → -l ≤ m → m ≤ l → 2 ∣ l - m →
      (fillShells n l m).length = n ∧ (fillShells n l m).Nodup ∧
      (∀ o ∈ fillShells n l m, (l < o.ell2 ∨ (l = o.ell2 ∧ o.m2 ≤ m)) ∧ -o.ell2 ≤ o.m2 ∧ o.m2 ≤ o.ell2 ∧ 2 ∣ o.ell2 - o.m2 ∧ 2 ∣ o.ell2 - l) ∧
      (∀ o ∈ fillShells n l m, ∀ l' m' : ℤ, (l < l' ∨ (l = l' ∧ m' ≤ m)) → l' < o.ell2 → 2 ∣ l' - l → -l' ≤ m' → m' ≤ l' → 2 ∣ l' - m' →
        (⟨l', m'⟩ : Orbital) ∈ fillShells n l m) := by
    intro n
    induction n with
    | zero => intro l m _ _ _ _; simp [fillShells]
    | succ n ih =>
      intro l m h0 h1 h2 h3
      unfold fillShells
      by_cases hc : m - 2 < -l
      · obtain ⟨a, b, c, d⟩ := ih (l + 2) (l + 2) (by omega) (by omega) le_rfl (by simp)
        rw [if_pos hc]
        refine ⟨by simp [a], List.nodup_cons.2 ⟨fun hm => ?_, b⟩, fun o ho => ?_, fun o ho l' m' hl ho' hd hm1 hm2 hd' => ?_⟩
        · have := (c _ hm).1; simp at this
        · rcases List.mem_cons.1 ho with rfl | ho
          · exact ⟨Or.inr ⟨rfl, le_rfl⟩, h1, h2, h3, by simp⟩
          · have := c o ho; omega
        · rcases List.mem_cons.1 ho with rfl | ho
          · simp at ho'; omega
          · by_cases he : l = l'
            · have : m = m' := by omega
              subst he this; exact List.mem_cons_self
            · exact List.mem_cons_of_mem _ (d o ho l' m' (by omega) ho' (by omega) hm1 hm2 hd')
      · obtain ⟨a, b, c, d⟩ := ih l (m - 2) h0 (by omega) (by omega) (by omega)
        rw [if_neg hc]
        refine ⟨by simp [a], List.nodup_cons.2 ⟨fun hm => ?_, b⟩, fun o ho => ?_, fun o ho l' m' hl ho' hd hm1 hm2 hd' => ?_⟩
        · have := (c _ hm).1; simp at this
        · rcases List.mem_cons.1 ho with rfl | ho
          · exact ⟨Or.inr ⟨rfl, le_rfl⟩, h1, h2, h3, by simp⟩
          · have := c o ho; omega
        · rcases List.mem_cons.1 ho with rfl | ho
          · simp at ho'; omega
          · by_cases he : l = l' ∧ m = m'
            · obtain ⟨rfl, rfl⟩ := he; exact List.mem_cons_self
            · exact List.mem_cons_of_mem _ (d o ho l' m' (by omega) ho' (by omega) hm1 hm2 hd')
  obtain ⟨a, b, c, d⟩ := key n flux flux (by omega) (by omega) le_rfl (by simp)
  refine ⟨a, b, fun o ho => ?_, fun o ho l' m' hl ho' hd hm1 hm2 hd' => d o ho l' m' (by omega) ho' hd hm1 hm2 hd'⟩
  have := c o ho
  omega

/-- C66: three electrons at flux 1 fill the two states of the first shell and one of the second. -/
example : freeOrbitals 1 3 = [⟨1, 1⟩, ⟨1, -1⟩, ⟨3, 3⟩] := by decide

/-! ### C67 -/

/-- The determinant part of the Laughlin wavefunction is the cube of the pair product, up to a sign that depends only on the
number of electrons. -/
theorem c67_laughlin_state {n : ℕ} (u v : Fin n → ℂ) :
    (laughlinOrbitals u v).det
      = (∏ i : Fin n, ∏ _j ∈ Finset.Ioi i, (-1 : ℂ)) * (∏ i : Fin n, ∏ j ∈ Finset.Ioi i, (u j * v i - u i * v j)) ^ 3 := by
  have h1 : laughlinOrbitals u v = Matrix.of fun i t =>
      (∏ j, (u i * v j - u j * v i + if i = j then 1 else 0)) * (projVandermonde u v) i t := by
    funext i t
    rw [Matrix.of_apply, projVandermonde_apply]
    unfold laughlinOrbitals
    have : (t.rev : ℕ) = n - 1 - t := by rw [Fin.val_rev]; omega
    rw [this]; ring
  rw [h1, Matrix.det_mul_column, det_projVandermonde]
  have h2 : ∏ i : Fin n, ∏ j, (u i * v j - u j * v i + if i = j then (1 : ℂ) else 0)
      = ∏ i : Fin n, ∏ j ∈ Finset.Ioi i, ((-1 : ℂ) * (u j * v i - u i * v j) ^ 2) := by
    have h3 : ∀ i : Fin n, ∏ j, (u i * v j - u j * v i + if i = j then (1 : ℂ) else 0)
        = (∏ j ∈ Finset.Ioi i, (u i * v j - u j * v i)) * ∏ j ∈ Finset.Iio i, (u i * v j - u j * v i) := by
      intro i
      have hd : Finset.univ = insert i (Finset.Ioi i ∪ Finset.Iio i) := by
        ext j; simp only [Finset.mem_univ, Finset.mem_insert, Finset.mem_union, Finset.mem_Ioi, Finset.mem_Iio, true_iff]
        rcases lt_trichotomy j i with h | h | h <;> simp [h]
      rw [hd, Finset.prod_insert (by simp), Finset.prod_union (by
        rw [Finset.disjoint_left]; intro j; simp only [Finset.mem_Ioi, Finset.mem_Iio]; exact fun a b => absurd (a.trans b) (lt_irrefl _))]
      rw [if_pos rfl]
      rw [Finset.prod_congr (s₁ := Finset.Ioi i) rfl fun j hj => by
        rw [if_neg (Finset.mem_Ioi.1 hj).ne, add_zero]]
      rw [Finset.prod_congr (s₁ := Finset.Iio i) rfl fun j hj => by
        rw [if_neg (Finset.mem_Iio.1 hj).ne', add_zero]]
      ring
    simp only [h3, Finset.prod_mul_distrib]
    have h4 : ∏ i : Fin n, ∏ j ∈ Finset.Iio i, (u i * v j - u j * v i) = ∏ i : Fin n, ∏ j ∈ Finset.Ioi i, (u j * v i - u i * v j) := by
      refine Finset.prod_comm' (by simp)
    rw [h4, ← Finset.prod_mul_distrib, ← Finset.prod_mul_distrib]
    refine Finset.prod_congr rfl fun i _ => ?_
    rw [← Finset.prod_mul_distrib, ← Finset.prod_mul_distrib]
    exact Finset.prod_congr rfl fun j _ => by ring
  rw [h2]
  simp only [Finset.prod_mul_distrib, Finset.prod_pow]
  ring

theorem prod_pairs {n : ℕ} (w : Fin n → ℂ) : ∏ i : Fin n, ∏ j ∈ Finset.Ioi i, (w i * w j) = (∏ i, w i) ^ (n - 1) := by
  simp only [Finset.prod_mul_distrib]
  have h : ∏ i : Fin n, ∏ j ∈ Finset.Ioi i, w j = ∏ j : Fin n, ∏ _i ∈ Finset.Iio j, w j := Finset.prod_comm' (by simp)
  rw [h, ← Finset.prod_mul_distrib, ← Finset.prod_pow]
  refine Finset.prod_congr rfl fun i _ => ?_
  rw [Finset.prod_const, Finset.prod_const, ← pow_add, Fin.card_Ioi, Fin.card_Iio]
  congr 1
  omega

/-- Two configurations at the same points of the sphere, whose spinors differ by the phases `w`. -/
structure Gauge {n : ℕ} (w : Fin n → ℂ) (e e' : Fin n → Angles) : Prop where
  unit : ∀ i, ‖w i‖ = 1
  cart : ∀ i, cart (e' i) = cart (e i)
  u : ∀ i, uOf (e' i) = w i * uOf (e i)
  v : ∀ i, vOf (e' i) = w i * vOf (e i)

theorem Gauge.prod {n : ℕ} {w : Fin n → ℂ} {e e' : Fin n → Angles} (g : Gauge w e e') (k : ℕ) : ‖(∏ i, w i) ^ k‖ = 1 := by
  rw [norm_pow, norm_prod, Finset.prod_eq_one (fun i _ => g.unit i), one_pow]

theorem Gauge.ne {n : ℕ} {w : Fin n → ℂ} {e e' : Fin n → Angles} (g : Gauge w e e') (i : Fin n) : w i ≠ 0 := by
  have := g.unit i
  intro h
  rw [h, norm_zero] at this
  exact zero_ne_one this

theorem Gauge.apart {n : ℕ} {w : Fin n → ℂ} {e e' : Fin n → Angles} (g : Gauge w e e') (h : Apart e) : Apart e' := by
  intro i j hij
  rw [g.u, g.u, g.v, g.v, show w j * uOf (e j) * (w i * vOf (e i)) - w i * uOf (e i) * (w j * vOf (e j))
    = w i * w j * (uOf (e j) * vOf (e i) - uOf (e i) * vOf (e j)) by ring]
  exact mul_ne_zero (mul_ne_zero (g.ne i) (g.ne j)) (h i j hij)

theorem Gauge.pairs {n : ℕ} {w : Fin n → ℂ} {e e' : Fin n → Angles} (g : Gauge w e e') :
    pairProduct e' = (∏ i, w i) ^ (n - 1) * pairProduct e := by
  rw [← prod_pairs]
  unfold pairProduct
  simp only [← Finset.prod_mul_distrib, g.u, g.v]
  exact Finset.prod_congr rfl fun i _ => Finset.prod_congr rfl fun j _ => by ring

theorem chord_congr {n : ℕ} (e e' : Fin n → Angles) (h : ∀ i, cart (e' i) = cart (e i)) : chord e' = chord e := by
  funext i j
  unfold chord
  simp only [h]

theorem Gauge.monopole {w : Fin (nu + nd) → ℂ} {e e' : Fin (nu + nd) → Angles} (g : Gauge w e e') (W : MHPO) (h : Feat (Fin (nu + nd)))
    (k : Fin W.ndets) : monopoleOrbitals W h e' k
      = Matrix.of fun i j => w i ^ W.reduced (nu + nd) * monopoleOrbitals W h e k i j := by
  funext i j
  rw [Matrix.of_apply]
  unfold monopoleOrbitals
  simp only [Finset.mul_sum, g.u, g.v]
  refine Finset.sum_congr rfl fun t ht => ?_
  have : w i ^ W.reduced (nu + nd) = w i ^ t * w i ^ (W.reduced (nu + nd) - t) := by
    rw [← pow_add]; congr 1; have := Finset.mem_range.1 ht; omega
  rw [this, mul_pow, mul_pow]
  ring

/-- C67, gauge covariance of MHPO: the whole flux, attached and in the orbitals, acts on the phase of the spinors. -/
theorem c67_mhpo_gauge (W : MHPO) (e e' : Fin (nu + nd) → Angles) (hn : 0 < nu + nd) (hf : W.perElec * (nu + nd - 1) ≤ W.flux)
    (h : 0 < W.perElec → Apart e) (w : Fin (nu + nd) → ℂ) (g : Gauge w e e') :
    valueC (W.call e') = (valueC (W.call e)).map (fun z => (∏ i, w i) ^ W.flux * z) := by
  refine value_mul _ _ _ (g.prod _) fun k => ?_
  have hfe : W.features e' = W.features e := by
    unfold MHPO.features
    simp only [g.cart]
  rw [mhpo_det W e hn h, mhpo_det W e' hn (fun hp => g.apart (h hp)), spherical_eq, spherical_eq, chord_congr e e' g.cart,
    g.pairs, hfe, g.monopole W, Matrix.det_mul_column, mul_pow, Finset.prod_pow, ← pow_mul]
  have : (∏ i, w i) ^ W.flux = (∏ i, w i) ^ ((nu + nd - 1) * W.perElec) * (∏ i, w i) ^ W.reduced (nu + nd) := by
    rw [← pow_add]
    congr 1
    unfold MHPO.reduced
    rw [mul_comm (nu + nd - 1)]
    omega
  rw [this]
  ring

/-- C67, gauge covariance of the Laughlin wavefunction: the phase of each spinor appears `3 (N - 1)` times. -/
theorem c67_laughlin_gauge {n : ℕ} (flux p : ℕ) (e e' : Fin n → Angles) (w : Fin n → ℂ) (g : Gauge w e e') :
    (laughlin flux p e').map valueC
      = (laughlin flux p e).map (fun o => (valueC o).map (fun z => (∏ i, w i) ^ (3 * (n - 1)) * z)) := by
  unfold laughlin
  split_ifs
  · simp only [Option.map_some]
    congr 1
    refine value_mul _ _ _ (g.prod _) fun _ => ?_
    have a := c67_laughlin_state (fun i => uOf (e' i)) (fun i => vOf (e' i))
    have b := c67_laughlin_state (fun i => uOf (e i)) (fun i => vOf (e i))
    have c := g.pairs
    unfold pairProduct at c
    refine a.trans ?_
    rw [c]
    refine Eq.trans ?_ (congrArg _ b.symm)
    rw [mul_pow, ← pow_mul, mul_comm (n - 1) 3]
    ring
  · rfl

/-! The three moves of `HasFlux` are gauge transformations. -/

theorem gauge_north {n : ℕ} (e : Fin n → Angles) (i : Fin n) (h : (e i).1 = 0) (δ : ℝ) :
    Gauge (fun j => if j = i then Complex.exp (Complex.I * δ / 2) else 1) e (turn i δ e) := by
  refine ⟨fun j => ?_, fun j => ?_, fun j => ?_, fun j => ?_⟩ <;> by_cases hj : j = i
  · simp only [if_pos hj]
    rw [show Complex.I * (δ : ℂ) / 2 = ((δ / 2 : ℝ) : ℂ) * Complex.I by push_cast; ring, Complex.norm_exp_ofReal_mul_I]
  · simp [hj]
  · subst hj; simp [turn, cart, h]
  · simp [turn, hj]
  · subst hj
    simp only [turn, if_true, uOf]
    rw [Complex.ofReal_add, mul_add, Complex.exp_add]
    rw [show Complex.I * (δ : ℂ) / 2 = 0.5 * Complex.I * δ by norm_num; ring]
    ring
  · simp [turn, hj]
  · subst hj; simp [turn, vOf, h]
  · simp [turn, hj]

theorem gauge_south {n : ℕ} (e : Fin n → Angles) (i : Fin n) (h : (e i).1 = Real.pi) (δ : ℝ) :
    Gauge (fun j => if j = i then Complex.exp (-(Complex.I * δ / 2)) else 1) e (turn i δ e) := by
  refine ⟨fun j => ?_, fun j => ?_, fun j => ?_, fun j => ?_⟩ <;> by_cases hj : j = i
  · simp only [if_pos hj]
    rw [show -(Complex.I * (δ : ℂ) / 2) = ((-δ / 2 : ℝ) : ℂ) * Complex.I by push_cast; ring, Complex.norm_exp_ofReal_mul_I]
  · simp [hj]
  · subst hj; simp [turn, cart, h]
  · simp [turn, hj]
  · subst hj; simp [turn, uOf, h]
  · simp [turn, hj]
  · subst hj
    simp only [turn, if_true, vOf]
    rw [Complex.ofReal_add, mul_add, Complex.exp_add]
    rw [show -(Complex.I * (δ : ℂ) / 2) = -0.5 * Complex.I * δ by norm_num; ring]
    ring
  · simp [turn, hj]

theorem gauge_period {n : ℕ} (e : Fin n → Angles) (i : Fin n) :
    Gauge (fun j => if j = i then -1 else 1) e (turn i (2 * Real.pi) e) := by
  refine ⟨fun j => ?_, fun j => ?_, fun j => ?_, fun j => ?_⟩ <;> by_cases hj : j = i
  · simp [hj]
  · simp [hj]
  · subst hj; simp [turn, cart]
  · simp [turn, hj]
  · subst hj
    simp only [turn, if_true, uOf]
    rw [Complex.ofReal_add, mul_add, Complex.exp_add]
    rw [show (0.5 : ℂ) * Complex.I * ((2 * Real.pi : ℝ) : ℂ) = Real.pi * Complex.I by push_cast; norm_num; ring, Complex.exp_pi_mul_I]
    ring
  · simp [turn, hj]
  · subst hj
    simp only [turn, if_true, vOf]
    rw [Complex.ofReal_add, mul_add, Complex.exp_add]
    rw [show (-0.5 : ℂ) * Complex.I * ((2 * Real.pi : ℝ) : ℂ) = -(Real.pi * Complex.I) by push_cast; norm_num; ring, Complex.exp_neg,
      Complex.exp_pi_mul_I]
    norm_num
  · simp [turn, hj]

/-- A wavefunction that transforms with the `k`-th power of the spinor phases carries `k` flux quanta. -/
theorem hasFlux_of_gauge {n : ℕ} (D : (Fin n → Angles) → Prop) (k : ℕ) (ψ : (Fin n → Angles) → Option ℂ)
    (h : ∀ e e' w, D e → Gauge w e e' → ψ e' = (ψ e).map (fun z => (∏ i, w i) ^ k * z)) : HasFlux D k ψ := by
  refine ⟨fun e he i hi δ => ?_, fun e he i hi δ => ?_, fun e he i => ?_⟩
  · rw [h e _ _ he (gauge_north e i hi δ)]
    simp only [Finset.prod_ite_eq', Finset.mem_univ, if_true, ← Complex.exp_nat_mul]
    congr 1; funext z; congr 2; push_cast; ring
  · rw [h e _ _ he (gauge_south e i hi δ)]
    simp only [Finset.prod_ite_eq', Finset.mem_univ, if_true, ← Complex.exp_nat_mul]
    congr 1; funext z; congr 2; push_cast; ring
  · rw [h e _ _ he (gauge_period e i)]
    simp

/-- C67 (MHPO): for all parameters and any number of attached flux quanta `flux_per_elec` with
`flux_per_elec (N - 1) ≤ flux`, the wavefunction carries the configured flux (away from coincident electrons when flux is
attached). -/
theorem c67_mhpo (W : MHPO) (hn : 0 < nu + nd) (hf : W.perElec * (nu + nd - 1) ≤ W.flux) :
    HasFlux (fun e : Fin (nu + nd) → Angles => 0 < W.perElec → Apart e) W.flux (fun e => valueC (W.call e)) :=
  hasFlux_of_gauge _ _ _ fun e e' w he g => c67_mhpo_gauge W e e' hn hf he w g

/-- C67 (Laughlin), the flux the wavefunction carries when the constructor accepts the configuration. -/
theorem c67_laughlin_flux {n : ℕ} (flux p : ℕ) : HasFlux (fun _ : Fin n → Angles => True) (3 * (n - 1) : ℕ)
    (fun e => ((laughlin flux p e).map valueC).join) := by
  refine hasFlux_of_gauge _ _ _ fun e e' w _ g => ?_
  rw [c67_laughlin_gauge flux p e e' w g]
  cases laughlin flux p e <;> rfl

/-- The configurations accepted by `Laughlin` (the others raise): `flux = (2 cf_flux + 1) (N - 1)`. -/
theorem c67_laughlin_accepts {n : ℕ} (hn : 0 < n) (flux p : ℕ) (e : Fin n → Angles) :
    (laughlin flux p e).isSome ↔ flux = (2 * p + 1) * (n - 1) := by
  unfold laughlin
  obtain ⟨m, rfl⟩ : ∃ m, n = m + 1 := ⟨n - 1, by omega⟩
  simp only [Nat.add_sub_cancel]
  split_ifs with h
  · simp only [Option.isSome_some, true_iff]
    push_cast at h
    have : (flux : ℤ) = (2 * p + 1) * m := by linarith
    exact_mod_cast this
  · simp only [Option.isSome_none, Bool.false_eq_true, false_iff]
    intro hc
    apply h
    rw [hc]; push_cast; ring

/-- C67 (Laughlin), what holds of the claim: with `cf_flux = 1` (the default, the 1/3 state) the wavefunction carries the
configured flux. -/
theorem c67_laughlin_partial {n : ℕ} (hn : 0 < n) (flux : ℕ) (e : Fin n → Angles) (h : (laughlin flux 1 e).isSome) :
    HasFlux (fun _ : Fin n → Angles => True) flux (fun e => ((laughlin flux 1 e).map valueC).join) := by
  have := (c67_laughlin_accepts hn flux 1 e).1 h
  have h2 := c67_laughlin_flux (n := n) flux 1
  rwa [show 3 * (n - 1) = flux by omega] at h2

/-- The flux carried by a wavefunction is unique, if the wavefunction does not vanish at some configuration with an electron
at the pole. -/
theorem hasFlux_unique {n : ℕ} (D : (Fin n → Angles) → Prop) (k k' : ℤ) (ψ : (Fin n → Angles) → Option ℂ) (h : HasFlux D k ψ)
    (h' : HasFlux D k' ψ) (e : Fin n → Angles) (he : D e) (i : Fin n) (hi : (e i).1 = 0) (z : ℂ) (hz : ψ e = some z) (h0 : z ≠ 0) : k = k' := by
  by_contra hk
  have hd : (k - k' : ℝ) ≠ 0 := by
    have : (k : ℝ) ≠ k' := by exact_mod_cast hk
    exact sub_ne_zero.2 this
  have key := (h.north e he i hi (2 * Real.pi / (k - k'))).symm.trans (h'.north e he i hi (2 * Real.pi / (k - k')))
  rw [hz] at key
  simp only [Option.map_some, Option.some.injEq] at key
  have key := mul_right_cancel₀ h0 key
  rw [← div_eq_one_iff_eq (Complex.exp_ne_zero _), ← Complex.exp_sub] at key
  have hd' : ((k : ℂ) - k') ≠ 0 := by exact_mod_cast hd
  rw [show Complex.I * k * ((2 * Real.pi / (k - k') : ℝ) : ℂ) / 2 - Complex.I * k' * ((2 * Real.pi / (k - k') : ℝ) : ℂ) / 2 = Real.pi * Complex.I by
    push_cast; field_simp] at key
  rw [Complex.exp_pi_mul_I] at key
  norm_num at key

/-- Electrons on a meridian. -/
noncomputable def meridian (n : ℕ) : Fin n → Angles := fun i => ((i : ℝ) / n, 0)

theorem meridian_apart (n : ℕ) : Apart (meridian n) := by
  intro i j hij
  have h : uOf (meridian n j) * vOf (meridian n i) - uOf (meridian n i) * vOf (meridian n j)
      = ((Real.sin ((i : ℝ) / n / 2 - (j : ℝ) / n / 2) : ℝ) : ℂ) := by
    simp only [uOf, vOf, meridian, Complex.ofReal_zero, mul_zero, Complex.exp_zero, mul_one]
    rw [Real.sin_sub]; push_cast; ring
  rw [h]
  have hn : (0 : ℝ) < n := by have := i.isLt; exact_mod_cast (by omega : 0 < n)
  have hi : (i : ℝ) / n < 1 := by rw [div_lt_one hn]; exact_mod_cast i.isLt
  have hj : (j : ℝ) / n < 1 := by rw [div_lt_one hn]; exact_mod_cast j.isLt
  have hi0 : 0 ≤ (i : ℝ) / n := by positivity
  have hj0 : 0 ≤ (j : ℝ) / n := by positivity
  have hp := Real.two_le_pi
  rw [Complex.ofReal_ne_zero]
  intro hs
  rw [Real.sin_eq_zero_iff_of_lt_of_lt (by linarith) (by linarith)] at hs
  have : (i : ℝ) / n = (j : ℝ) / n := by linarith
  rw [div_left_inj' hn.ne'] at this
  exact hij (Fin.ext (by exact_mod_cast this))

/-- The Laughlin wavefunction does not vanish when the electrons are apart. -/
theorem laughlin_ne_zero {n : ℕ} (flux p : ℕ) (e : Fin n → Angles) (h : (laughlin flux p e).isSome) (ha : Apart e) :
    ∃ z, ((laughlin flux p e).map valueC).join = some z ∧ z ≠ 0 := by
  have hd : (laughlinOrbitals (fun i => uOf (e i)) (fun i => vOf (e i))).det ≠ 0 := by
    rw [c67_laughlin_state]
    refine mul_ne_zero (Finset.prod_ne_zero_iff.2 fun i _ => Finset.prod_ne_zero_iff.2 fun j _ => by norm_num) (pow_ne_zero _ ?_)
    exact Finset.prod_ne_zero_iff.2 fun i _ => Finset.prod_ne_zero_iff.2 fun j hj => ha i j (Finset.mem_Ioi.1 hj).ne
  unfold laughlin at h ⊢
  split_ifs at h ⊢ with hc
  · refine ⟨_, ?_, hd⟩
    have := (c63_valueC_partial (fun _ : Fin 1 => laughlinOrbitals (fun i => uOf (e i)) (fun i => vOf (e i)))) ⟨0, hd⟩
    simpa using this
  · simp at h

/-- C67, the limit: a `Laughlin` state with `cf_flux ≠ 1` that is accepted does not carry the configured flux
(it is the 1/3 state, of flux `3 (N - 1)`, whatever `cf_flux`). -/
theorem c67_laughlin_wrong {n : ℕ} (hn : 2 ≤ n) (flux p : ℕ) (hp : p ≠ 1) (e : Fin n → Angles) (h : (laughlin flux p e).isSome) :
    ¬ HasFlux (fun _ : Fin n → Angles => True) flux (fun e => ((laughlin flux p e).map valueC).join) := by
  intro hf
  have hacc := (c67_laughlin_accepts (by omega) flux p e).1 h
  have hm : (laughlin flux p (meridian n)).isSome := (c67_laughlin_accepts (by omega) flux p _).2 hacc
  obtain ⟨z, hz, h0⟩ := laughlin_ne_zero flux p (meridian n) hm (meridian_apart n)
  have := hasFlux_unique _ _ _ _ hf (c67_laughlin_flux flux p) (meridian n) trivial ⟨0, by omega⟩ (by simp [meridian]) z hz h0
  have h3 : flux = 3 * (n - 1) := by exact_mod_cast this
  rw [hacc] at h3
  have := Nat.eq_of_mul_eq_mul_right (by omega) h3
  omega

/-- C67: two electrons, `cf_flux = 2` (the 1/5 state): flux 5 is accepted. -/
example : (laughlin 5 2 (meridian 2)).isSome := (c67_laughlin_accepts (by norm_num) 5 2 _).2 rfl

/-! ### Free electrons and the monopole harmonics -/

theorem one_sub_cos (θ : ℝ) : 1 - Real.cos θ = 2 * Real.sin (θ / 2) ^ 2 := by
  have := Real.cos_sq' (θ / 2)
  have h2 := Real.cos_two_mul (θ / 2)
  rw [show 2 * (θ / 2) = θ by ring] at h2
  rw [h2, this]; ring

theorem one_add_cos (θ : ℝ) : 1 + Real.cos θ = 2 * Real.cos (θ / 2) ^ 2 := by
  have h2 := Real.cos_two_mul (θ / 2)
  rw [show 2 * (θ / 2) = θ by ring] at h2
  rw [h2]; ring

theorem sq_rpow_half (x : ℝ) (hx : 0 < x) (k : ℕ) : (2 * x ^ 2) ^ ((k : ℝ) / 2) = (2 : ℝ) ^ ((k : ℝ) / 2) * x ^ k := by
  rw [Real.mul_rpow (by norm_num) (by positivity)]
  congr 1
  rw [← Real.rpow_natCast x 2, ← Real.rpow_mul hx.le, ← Real.rpow_natCast x k]
  congr 1
  push_cast; ring

/-- C67: the harmonic `Y_{q, q, m}` with `m = -q + t`, away from the poles, is the basis function
`sqrt(comb(2q, q - m)) u^(q+m) v^(q-m)` of `MHPO` up to the sign `(-1)^(q-m)` and the common factor `sqrt((2q + 1) / 4π)`:
`Free` and `MHPO` use the same one-electron states in the lowest Landau level. -/
theorem c67_lowest_level (flux t : ℕ) (ht : t ≤ flux) (e : Angles) (h0 : 0 < e.1) (h1 : e.1 < Real.pi) :
    monopoleHarm flux ⟨flux, 2 * t - flux⟩ e
      = ((Real.sqrt ((flux + 1) / (4 * Real.pi)) * (-1) ^ (flux - t) : ℝ) : ℂ)
        * ((normFactor flux t : ℂ) * uOf e ^ t * vOf e ^ (flux - t)) := by
  obtain ⟨r, rfl⟩ : ∃ r, flux = t + r := ⟨flux - t, by omega⟩
  have hs : 0 < Real.sin (e.1 / 2) := Real.sin_pos_of_pos_of_lt_pi (by linarith) (by linarith)
  have hc : 0 < Real.cos (e.1 / 2) := Real.cos_pos_of_mem_Ioo ⟨by linarith, by linarith⟩
  unfold monopoleHarm
  simp only [Nat.cast_add, add_tsub_cancel_left]
  have ea : (((t : ℤ) + r - (2 * t - (t + r))) / 2).toNat = r := by omega
  have eb : (((t : ℤ) + r - (t + r)) / 2).toNat = 0 := by simp
  have ec : (((t : ℤ) + r + (t + r)) / 2).toNat = t + r := by omega
  have ed : (((t : ℤ) + r + (2 * t - (t + r))) / 2).toNat = t := by omega
  rw [ea, eb, ec, ed, Finset.sum_eq_single 0 (fun s _ hs => by rw [Nat.choose_eq_zero_of_lt (Nat.pos_of_ne_zero hs)]; simp) (by simp)]
  simp only [Nat.choose_self, Nat.sub_zero, Nat.cast_one, mul_one, Nat.cast_zero, sub_zero, zero_add, Nat.factorial_zero, one_mul]
  rw [one_sub_cos, one_add_cos]
  have x1 : (((t : ℤ) + r : ℤ) : ℝ) / 2 - ((2 * (t : ℤ) - (t + r) + (t + r) : ℤ) : ℝ) / 4 = (r : ℝ) / 2 := by push_cast; ring
  have x2 : ((2 * (t : ℤ) - (t + r) + (t + r) : ℤ) : ℝ) / 4 = (t : ℝ) / 2 := by push_cast; ring
  rw [x1, x2, sq_rpow_half _ hs, sq_rpow_half _ hc]
  have x3 : (2 : ℝ) ^ ((((t : ℤ) + r : ℤ) : ℝ) / 2) = 2 ^ ((r : ℝ) / 2) * 2 ^ ((t : ℝ) / 2) := by
    rw [← Real.rpow_add (by norm_num)]; congr 1; push_cast; ring
  rw [x3]
  have n1 : (2 : ℝ) ^ ((r : ℝ) / 2) ≠ 0 := (Real.rpow_pos_of_pos (by norm_num) _).ne'
  have n2 : (2 : ℝ) ^ ((t : ℝ) / 2) ≠ 0 := (Real.rpow_pos_of_pos (by norm_num) _).ne'
  have hphase : Complex.exp (Complex.I * (((2 * (t : ℤ) - (t + r) : ℤ) : ℝ) / 2 : ℝ) * e.2)
      = Complex.exp (0.5 * Complex.I * e.2) ^ t * Complex.exp (-0.5 * Complex.I * e.2) ^ r := by
    rw [← Complex.exp_nat_mul, ← Complex.exp_nat_mul, ← Complex.exp_add]
    congr 1
    push_cast
    norm_num
    ring
  rw [hphase]
  unfold uOf vOf
  rw [mul_pow, mul_pow]
  have hN : Real.sqrt (((((t : ℤ) + r : ℤ) : ℝ) + 1) / (4 * Real.pi) * (r.factorial * t.factorial) / (t + r).factorial) * (t + r).choose r
      = Real.sqrt ((t + r + 1) / (4 * Real.pi)) * normFactor (t + r) t := by
    have hch : ((t + r).choose r : ℝ) * (r.factorial * t.factorial) = (t + r).factorial := by
      have := Nat.add_choose_mul_factorial_mul_factorial t r
      rw [← this]; push_cast; ring
    have hpos : (0 : ℝ) < (t + r).choose r := by exact_mod_cast Nat.choose_pos (by omega)
    have hfac : (0 : ℝ) < (t + r).factorial := by exact_mod_cast Nat.factorial_pos _
    unfold normFactor
    rw [add_tsub_cancel_left, ← Real.sqrt_mul (by positivity)]
    conv_lhs => rw [← Real.sqrt_sq hpos.le]
    rw [← Real.sqrt_mul (by positivity)]
    congr 1
    rw [← hch]
    have h1 : (r.factorial : ℝ) ≠ 0 := by exact_mod_cast Nat.factorial_ne_zero r
    have h2 : (t.factorial : ℝ) ≠ 0 := by exact_mod_cast Nat.factorial_ne_zero t
    push_cast
    field_simp
  have hreal : ∀ A B S C : ℝ, A / (2 ^ ((r : ℝ) / 2) * 2 ^ ((t : ℝ) / 2)) * ((-1) ^ r * B * (2 ^ ((r : ℝ) / 2) * S) * (2 ^ ((t : ℝ) / 2) * C))
      = (A * B) * (-1) ^ r * (C * S) := by
    intro A B S C
    field_simp
  rw [hreal, hN]
  push_cast
  ring

/-- A full turn multiplies every orbital of `Free` by `(-1)^flux`. -/
theorem harm_turn (flux : ℕ) (o : Orbital) (ho : 2 ∣ o.m2 - flux) (e : Angles) :
    monopoleHarm flux o (e.1, e.2 + 2 * Real.pi) = (-1) ^ flux * monopoleHarm flux o e := by
  obtain ⟨c, hc⟩ := ho
  unfold monopoleHarm
  simp only
  rw [Complex.ofReal_add, mul_add, Complex.exp_add]
  have : Complex.exp (Complex.I * ((o.m2 : ℝ) / 2 : ℝ) * ((2 * Real.pi : ℝ) : ℂ)) = (-1) ^ flux := by
    have hm : (o.m2 : ℂ) = flux + 2 * c := by
      have : o.m2 = flux + 2 * c := by omega
      rw [this]; push_cast; ring
    push_cast
    rw [hm, show Complex.I * (((flux : ℂ) + 2 * c) / 2) * (2 * Real.pi) = (flux : ℕ) * (Real.pi * Complex.I) + c * (2 * Real.pi * Complex.I) by ring,
      Complex.exp_add, Complex.exp_int_mul_two_pi_mul_I, mul_one, Complex.exp_nat_mul, Complex.exp_pi_mul_I]
  rw [this]
  ring

/-- C67 (free electrons): a full turn of one electron multiplies the wavefunction by `(-1)^flux`. -/
theorem c67_free_partial {n : ℕ} (flux : ℕ) (e : Fin n → Angles) (i : Fin n) :
    valueC (free (monopoleHarm flux) flux (turn i (2 * Real.pi) e))
      = (valueC (free (monopoleHarm flux) flux e)).map (fun z => (-1) ^ flux * z) := by
  refine value_mul _ _ _ (by simp) fun _ => ?_
  let M : Matrix (Fin n) (Fin n) ℂ := Matrix.of fun (a : Fin n) (j : Fin n) => monopoleHarm flux ((freeOrbitals flux n).getD a ⟨0, 0⟩) (e j)
  have h : (Matrix.of fun (a : Fin n) (j : Fin n) => monopoleHarm flux ((freeOrbitals flux n).getD a ⟨0, 0⟩) (turn i (2 * Real.pi) e j))
      = Matrix.of fun a j => (if j = i then (-1 : ℂ) ^ flux else 1) * M a j := by
    funext a j
    simp only [Matrix.of_apply, M]
    by_cases hj : j = i
    · subst hj
      rw [if_pos rfl]
      simp only [turn, if_true]
      refine harm_turn flux _ ?_ (e j)
      obtain ⟨hl, _, hv, _⟩ := c66_shells flux n
      have hmem : (freeOrbitals flux n).getD a ⟨0, 0⟩ ∈ freeOrbitals flux n := by
        have ha : (a : ℕ) < (freeOrbitals flux n).length := by rw [hl]; exact a.isLt
        simp [ha]
      have := hv _ hmem
      omega
    · simp [turn, hj]
  refine (congrArg Matrix.det h).trans ?_
  rw [Matrix.det_mul_row]
  simp [M]

/-! ### A concrete MHPO -/

/-- Two spin-up electrons, flux 2, one attached flux quantum; the orbitals are `v` and `u` themselves. -/
noncomputable def tinyMHPO : MHPO :=
  { psi := ⟨1, 1, .null, true, true⟩
    input := ⟨fun _ _ => 0, fun _ => 0⟩
    layers := []
    flux := 2
    perElec := 1
    ndets := 1
    re := ⟨⟨fun _ _ => 0, fun k => if k = 0 ∨ k = 3 then 1 else 0⟩, ⟨fun _ _ => 0, fun _ => 0⟩⟩
    im := ⟨⟨fun _ _ => 0, fun _ => 0⟩, ⟨fun _ _ => 0, fun _ => 0⟩⟩
    alphaPar := 1
    alphaAnti := 1 }

/-- The hypotheses of `c66_mhpo_factor`, `c66_mhpo_odd` and `c67_mhpo` hold for it, and its wavefunction does not vanish. -/
theorem c66_example : ∃ z, valueC (tinyMHPO.call (nu := 2) (nd := 0) (meridian 2)) = some z ∧ z ≠ 0 := by
  have hm : monopoleOrbitals (nu := 2) (nd := 0) tinyMHPO (tinyMHPO.features (meridian 2)) (meridian 2) (0 : Fin 1)
      = fun (i j : Fin (2 + 0)) => if j.val = 0 then vOf (meridian 2 i) else uOf (meridian 2 i) := by
    funext i j
    unfold monopoleOrbitals
    have hr : tinyMHPO.reduced (2 + 0) = 1 := rfl
    simp only [hr, splitDense]
    rw [Finset.sum_range_succ, Finset.sum_range_one]
    change Fin 2 at j
    fin_cases j <;> simp [dense, tinyMHPO, normFactor]
  have hd : (tinyMHPO.orbitals (nu := 2) (nd := 0) (meridian 2) (0 : Fin 1)).det ≠ 0 := by
    have ha := meridian_apart 2
    have e1 := mhpo_det (nu := 2) (nd := 0) tinyMHPO (meridian 2) (by norm_num) (fun _ => ha) (0 : Fin 1)
    rw [e1]
    refine mul_ne_zero (mul_ne_zero (Complex.exp_ne_zero _) (pow_ne_zero _ ?_)) ?_
    · exact Finset.prod_ne_zero_iff.2 fun i _ => Finset.prod_ne_zero_iff.2 fun j hj => ha i j (Finset.mem_Ioi.1 hj).ne
    · rw [hm]
      have := ha 0 1 (by decide)
      intro hc
      apply this
      refine Eq.trans ?_ hc
      refine Eq.trans ?_ (Matrix.det_fin_two (fun i j : Fin 2 => if j.val = 0 then vOf (meridian 2 i) else uOf (meridian 2 i))).symm
      simp
      ring
  refine ⟨_, ?_, hd⟩
  have := c63_valueC_partial (tinyMHPO.orbitals (nu := 2) (nd := 0) (meridian 2)) ⟨(0 : Fin 1), hd⟩
  refine this.trans ?_
  exact congrArg some (Fin.sum_univ_one (fun k : Fin 1 => (tinyMHPO.orbitals (nu := 2) (nd := 0) (meridian 2) k).det))

end Jaqmc.Hall.Props
