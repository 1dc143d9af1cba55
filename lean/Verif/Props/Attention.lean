import Verif.Spec.Attention
import Verif.Lemmas.Jet
import Verif.Lemmas.SparseIdx
import Mathlib.Tactic
import Mathlib.Analysis.SpecialFunctions.ExpDeriv
import Mathlib.Analysis.Calculus.ContDiff.Basic
/-!
C119: the handwritten Forward Laplacian rule of LapNet attention.
-/
namespace Jaqmc.Attention.Props
open Jaqmc.Attention.Spec Jaqmc.Laplacian.Spec

/-! ### Calculus of (value, gradient, Laplacian) -/
section
variable {κ : Type} [Fintype κ] {γ δ : κ → ℝ → ℝ} {x y : ℝ} {J K : κ → ℝ} {L M : ℝ}

theorem lap_const (a : ℝ) : CurveLap (fun (_ : κ) (_ : ℝ) => a) a (fun _ => 0) 0 := ⟨fun _ => 0, fun _ => Jet2.const a, by simp⟩

theorem lap_mul (h1 : CurveLap γ x J L) (h2 : CurveLap δ y K M) :
    CurveLap (fun k t => γ k t * δ k t) (x * y) (fun k => J k * y + x * K k) (L * y + x * M + 2 * ∑ k, J k * K k) := by
  obtain ⟨c, hc, rfl⟩ := h1
  obtain ⟨d, hd, rfl⟩ := h2
  refine ⟨_, fun k => (hc k).mul (hd k), ?_⟩
  rw [Finset.sum_add_distrib, Finset.sum_add_distrib, Finset.sum_mul, Finset.mul_sum, Finset.mul_sum]

theorem lap_sum {ι : Type} (s : Finset ι) {γ : ι → κ → ℝ → ℝ} {x : ι → ℝ} {J : ι → κ → ℝ} {L : ι → ℝ} (h : ∀ i ∈ s, CurveLap (γ i) (x i) (J i) (L i)) :
    CurveLap (fun k t => ∑ i ∈ s, γ i k t) (∑ i ∈ s, x i) (fun k => ∑ i ∈ s, J i k) (∑ i ∈ s, L i) := by
  classical
  induction s using Finset.induction_on with
  | empty => simpa using lap_const (κ := κ) 0
  | insert a s ha ih =>
    obtain ⟨c, hc, e1⟩ := h a (by simp)
    obtain ⟨d, hd, e2⟩ := ih fun i hi => h i (by simp [hi])
    refine ⟨fun k => c k + d k, fun k => ?_, ?_⟩
    · simp only [Finset.sum_insert ha]; exact (hc k).add (hd k)
    · rw [Finset.sum_insert ha, Finset.sum_add_distrib, e1, e2]

theorem lap_scomp {f : ℝ → ℝ} (hf : ContDiffAt ℝ 2 f x) (h : CurveLap γ x J L) :
    CurveLap (fun k t => f (γ k t)) (f x) (fun k => deriv f x * J k) (deriv f x * L + deriv (deriv f) x * ∑ k, J k ^ 2) := by
  obtain ⟨c, hc, rfl⟩ := h
  refine ⟨_, fun k => (hc k).scomp hf, ?_⟩
  rw [Finset.sum_add_distrib, Finset.mul_sum, Finset.mul_sum]
  simp only [pow_two]

theorem lap_exp_sub (m : ℝ) (h : CurveLap γ x J L) :
    CurveLap (fun k t => Real.exp (γ k t - m)) (Real.exp (x - m)) (fun k => Real.exp (x - m) * J k) (Real.exp (x - m) * (L + ∑ k, J k ^ 2)) := by
  have hd : deriv (fun z : ℝ => Real.exp (z - m)) = fun z => Real.exp (z - m) := by
    funext z
    have := (Real.hasDerivAt_exp (z - m)).comp z ((hasDerivAt_id z).sub_const m)
    simpa using this.deriv
  have := lap_scomp (f := fun z : ℝ => Real.exp (z - m)) (by fun_prop) h
  rw [hd, hd] at this
  rwa [mul_add]

theorem lap_inv (hx : x ≠ 0) (h : CurveLap γ x J L) :
    CurveLap (fun k t => (γ k t)⁻¹) x⁻¹ (fun k => -(x ^ 2)⁻¹ * J k) (-(x ^ 2)⁻¹ * L + 2 * (x ^ 3)⁻¹ * ∑ k, J k ^ 2) := by
  have h1 : deriv (fun z : ℝ => z⁻¹) = fun z => -(z ^ 2)⁻¹ := deriv_inv'
  have h2 : deriv (fun z : ℝ => -(z ^ 2)⁻¹) x = 2 * (x ^ 3)⁻¹ := by
    have h3 : HasDerivAt (fun z : ℝ => (z ^ 2)⁻¹) (-(2 * x) / (x ^ 2) ^ 2) x := by
      have := (hasDerivAt_pow 2 x).fun_inv (pow_ne_zero 2 hx)
      simpa using this
    rw [h3.fun_neg.deriv]
    field_simp
  have := lap_scomp (f := fun z : ℝ => z⁻¹) (contDiffAt_inv ℝ hx) h
  rwa [h1, h2] at this

theorem lap_congr (h : CurveLap γ x J L) {x' : ℝ} {J' : κ → ℝ} {L' : ℝ} (hx : x = x') (hJ : ∀ k, J k = J' k) (hL : L = L') : CurveLap γ x' J' L' := by
  obtain rfl : J = J' := funext hJ
  subst hx hL
  exact h

end

variable {n C H D : ℕ}

theorem sum_rows (f : Fin n → Fin C → ℝ) : ∑ r : Fin (n * C), f (finProdFinEquiv.symm r).1 (finProdFinEquiv.symm r).2 = ∑ p, ∑ c, f p c := by
  rw [← Fintype.sum_prod_type', ← finProdFinEquiv.symm.sum_comp]

/-- Rows of an input whose first axis is that of the particles. -/
theorem toDense_jac (t : Local1 n C H D) (hf : ParticlesFirst t) (ho : ownerMatches n t.owner = true) (r : Fin (n * C)) (i : Fin n) (h : Fin H) (d : Fin D) :
    t.toDense.jac r i h d = if (finProdFinEquiv.symm r).1 = i then t.blocks (finProdFinEquiv.symm r).2 i h d else 0 := by
  obtain ⟨h0, rest, hs, hC⟩ := hf
  simp only [ownerMatches, Bool.and_eq_true, decide_eq_true_eq] at ho
  have hat : t.owner.at [i, h, d] = i := by
    unfold Sparse.OwnerRole.at
    rw [ho.1, ho.2]
    simp
  have hC0 : 0 < C := by
    rcases Nat.eq_zero_or_pos C with h' | h'
    · subst h'; exact absurd r.2 (by simp)
    · exact h'
  have ho' : Sparse.rowOwner t.inShape t.ownAx r = (finProdFinEquiv.symm r).1 := by
    rw [h0, hs, Sparse.rowOwner_zero, hC]; rfl
  have hc' : Sparse.rowCoord t.inShape t.ownAx r = (finProdFinEquiv.symm r).2 := by
    rw [h0, hs]
    unfold Sparse.rowCoord
    simp only [Sparse.unravel, List.eraseIdx_zero, List.tail_cons]
    rw [Sparse.ravel_unravel (Nat.mod_lt _ (by rw [hC]; exact hC0)), hC]
    rfl
  unfold Local1.toDense
  dsimp only
  rw [hat, ho', hc']
  by_cases hp : (finProdFinEquiv.symm r).1 = i
  · rw [if_pos (by rw [hp]), if_pos hp, dif_pos (finProdFinEquiv.symm r).2.2]
  · rw [if_neg (fun h => hp (Fin.ext h.symm)), if_neg hp]

theorem sum_eye_mul (i : Fin n) (f : Fin n → ℝ) : ∑ p, eye p i * f p = f i := by
  simp [eye]

section Rule
variable {P : Type} [AddCommGroup P] [Module ℝ P] (p : P) (dir : Fin (n * C) → P) (q k v : P → Arr3 n H D)
  (Q K : Local1 n C H D) (V : Dense n C H D)

/-- The scaled scalar products along a curve. -/
theorem lap_logits (hq : Carries p dir q Q.toDense) (hk : Carries p dir k K.toDense) (fq : ParticlesFirst Q) (fk : ParticlesFirst K)
    (oq : ownerMatches n Q.owner = true) (ok : ownerMatches n K.owner = true) (h : Fin H) (i j : Fin n) :
    CurveLap (fun r t => (∑ e, q (p + t • dir r) i h e * k (p + t • dir r) j h e) / Real.sqrt D) (logitsX Q K h i j)
      (fun r => eye (finProdFinEquiv.symm r).1 i * logitsGradI Q K (finProdFinEquiv.symm r).2 h i j + eye (finProdFinEquiv.symm r).1 j * logitsGradJ Q K (finProdFinEquiv.symm r).2 h i j)
      (logitsL Q K h i j) := by
  have h1 := lap_sum Finset.univ fun e (_ : e ∈ Finset.univ) => lap_mul (hq i h e).2 (hk j h e).2
  have h2 := lap_mul h1 (lap_const (Real.sqrt D)⁻¹)
  simp only [← div_eq_mul_inv] at h2
  refine lap_congr h2 rfl (fun r => ?_) ?_
  · simp only [toDense_jac Q fq oq, toDense_jac K fk ok, mul_zero, add_zero]
    unfold logitsGradI logitsGradJ eye
    rw [Finset.sum_add_distrib, add_div]
    congr 1
    · split_ifs with hp
      · rw [one_mul]; rfl
      · simp
    · split_ifs with hp
      · rw [one_mul]; rfl
      · simp
  · simp only [mul_zero, add_zero, Finset.sum_const_zero]
    unfold logitsL logitsCross
    rw [Finset.sum_add_distrib, Finset.sum_add_distrib, add_div]
    congr 1
    rw [← Finset.mul_sum, mul_div_assoc, mul_div_assoc, mul_assoc]
    congr 1
    rw [div_mul_eq_mul_div]
    congr 1
    rw [Finset.sum_comm]
    simp only [toDense_jac Q fq oq, toDense_jac K fk ok]
    rw [sum_rows fun a c => ∑ d, (if a = i then Q.blocks c i h d else 0) * (if a = j then K.blocks c j h d else 0)]
    unfold eye
    by_cases hij : i = j
    · subst hij
      rw [if_pos rfl, mul_one, Finset.sum_eq_single i (fun b _ hb => by simp [hb]) (by simp)]
      simp
    · rw [if_neg hij, mul_zero]
      refine Finset.sum_eq_zero fun a _ => Finset.sum_eq_zero fun c _ => Finset.sum_eq_zero fun d _ => ?_
      split_ifs with h1 h2
      · exact absurd (h1.symm.trans h2) hij
      all_goals simp

theorem sum_sq (a b : Fin n) (f g : Fin C → ℝ) :
    ∑ r : Fin (n * C), (eye (finProdFinEquiv.symm r).1 a * f (finProdFinEquiv.symm r).2 + eye (finProdFinEquiv.symm r).1 b * g (finProdFinEquiv.symm r).2) ^ 2 =
      ((∑ c, f c ^ 2) + ∑ c, g c ^ 2) + 2 * (∑ c, f c * g c) * eye a b := by
  rw [sum_rows fun p c => (eye p a * f c + eye p b * g c) ^ 2]
  have : ∀ p : Fin n, ∑ c, (eye p a * f c + eye p b * g c) ^ 2 = eye p a * (∑ c, f c ^ 2) + eye p b * (∑ c, g c ^ 2) + eye p a * (eye p b * (2 * ∑ c, f c * g c)) := by
    intro p
    have h0 : ∀ x y : Fin n, eye x y ^ 2 = eye x y := fun x y => by unfold eye; split_ifs <;> norm_num
    simp only [Finset.mul_sum]
    rw [← Finset.sum_add_distrib, ← Finset.sum_add_distrib]
    refine Finset.sum_congr rfl fun c _ => ?_
    have e1 := h0 p a
    have e2 := h0 p b
    linear_combination (f c ^ 2) * e1 + (g c ^ 2) * e2
  simp only [this]
  rw [Finset.sum_add_distrib, Finset.sum_add_distrib, sum_eye_mul a fun _ => _, sum_eye_mul b fun _ => _, sum_eye_mul a fun p => eye p b * (2 * ∑ c, f c * g c)]
  ring

theorem lap_weights (hq : Carries p dir q Q.toDense) (hk : Carries p dir k K.toDense) (fq : ParticlesFirst Q) (fk : ParticlesFirst K)
    (oq : ownerMatches n Q.owner = true) (ok : ownerMatches n K.owner = true) (h : Fin H) (i j : Fin n) :
    CurveLap (fun r t => Real.exp ((∑ e, q (p + t • dir r) i h e * k (p + t • dir r) j h e) / Real.sqrt D - ⨆ l, logitsX Q K h i l)) (weightsX Q K h i j)
      (fun r => eye (finProdFinEquiv.symm r).1 i * weightsGradI Q K (finProdFinEquiv.symm r).2 h i j + eye (finProdFinEquiv.symm r).1 j * weightsGradJ Q K (finProdFinEquiv.symm r).2 h i j)
      (weightsL Q K h i j) := by
  refine lap_congr (lap_exp_sub (⨆ l, logitsX Q K h i l) (lap_logits p dir q k Q K hq hk fq fk oq ok h i j)) rfl (fun r => ?_) ?_
  · unfold weightsGradI weightsGradJ weightsX; ring
  · rw [sum_sq i j (fun c => logitsGradI Q K c h i j) fun c => logitsGradJ Q K c h i j]; rfl

theorem lap_denom (hq : Carries p dir q Q.toDense) (hk : Carries p dir k K.toDense) (fq : ParticlesFirst Q) (fk : ParticlesFirst K)
    (oq : ownerMatches n Q.owner = true) (ok : ownerMatches n K.owner = true) (h : Fin H) (i : Fin n) :
    CurveLap (fun r t => ∑ j, Real.exp ((∑ e, q (p + t • dir r) i h e * k (p + t • dir r) j h e) / Real.sqrt D - ⨆ l, logitsX Q K h i l)) (denomX Q K h i)
      (fun r => denomJ Q K (finProdFinEquiv.symm r).1 (finProdFinEquiv.symm r).2 h i) (denomL Q K h i) := by
  refine lap_congr (lap_sum Finset.univ fun j (_ : j ∈ Finset.univ) => lap_weights p dir q k Q K hq hk fq fk oq ok h i j) rfl (fun r => ?_) rfl
  unfold denomJ
  rw [Finset.sum_add_distrib, Finset.mul_sum]
  congr 1
  rw [show (fun j => eye (finProdFinEquiv.symm r).1 j * weightsGradJ Q K (finProdFinEquiv.symm r).2 h i j) =
    fun j => eye j (finProdFinEquiv.symm r).1 * weightsGradJ Q K (finProdFinEquiv.symm r).2 h i j by funext j; unfold eye; simp only [eq_comm], sum_eye_mul]

theorem lap_numer (hq : Carries p dir q Q.toDense) (hk : Carries p dir k K.toDense) (hv : Carries p dir v V) (fq : ParticlesFirst Q) (fk : ParticlesFirst K)
    (oq : ownerMatches n Q.owner = true) (ok : ownerMatches n K.owner = true) (h : Fin H) (i : Fin n) (d : Fin D) :
    CurveLap (fun r t => ∑ j, Real.exp ((∑ e, q (p + t • dir r) i h e * k (p + t • dir r) j h e) / Real.sqrt D - ⨆ l, logitsX Q K h i l) * v (p + t • dir r) j h d) (numerX Q K V h i d)
      (fun r => numerJ Q K V (finProdFinEquiv.symm r).1 (finProdFinEquiv.symm r).2 h i d) (numerL Q K V h i d) := by
  refine lap_congr (lap_sum Finset.univ fun j (_ : j ∈ Finset.univ) => lap_mul (lap_weights p dir q k Q K hq hk fq fk oq ok h i j) (hv j h d).2) rfl (fun r => ?_) ?_
  · unfold numerJ row
    rw [Finset.sum_add_distrib]
    simp only [Prod.mk.eta, Equiv.apply_symm_apply, add_mul]
    rw [Finset.sum_add_distrib, Finset.mul_sum]
    congr 2
    · exact Finset.sum_congr rfl fun j _ => by ring
    · rw [show (fun j => eye (finProdFinEquiv.symm r).1 j * weightsGradJ Q K (finProdFinEquiv.symm r).2 h i j * V.x j h d) =
        fun j => eye j (finProdFinEquiv.symm r).1 * (weightsGradJ Q K (finProdFinEquiv.symm r).2 h i j * V.x j h d) by
          funext j; unfold eye; simp only [eq_comm, mul_assoc], sum_eye_mul (finProdFinEquiv.symm r).1 fun j => weightsGradJ Q K (finProdFinEquiv.symm r).2 h i j * V.x j h d]
  · unfold numerL
    rw [Finset.sum_add_distrib, Finset.sum_add_distrib, add_assoc (_ + _) (2 * _), ← mul_add, ← Finset.mul_sum]
    congr 2
    rw [Finset.sum_comm (f := fun c j => weightsGradI Q K c h i j * V.jac (row i c) j h d), Finset.sum_comm (f := fun c j => weightsGradJ Q K c h i j * V.jac (row j c) j h d),
      ← Finset.sum_add_distrib]
    refine Finset.sum_congr rfl fun j _ => ?_
    have : ∀ r : Fin (n * C), V.jac r j h d = V.jac (row (finProdFinEquiv.symm r).1 (finProdFinEquiv.symm r).2) j h d := fun r => by
      unfold row; rw [Prod.mk.eta, Equiv.apply_symm_apply]
    rw [Finset.sum_congr rfl fun r _ => by rw [this r]]
    rw [sum_rows fun a c => (eye a i * weightsGradI Q K c h i j + eye a j * weightsGradJ Q K c h i j) * V.jac (row a c) j h d]
    have h2 : ∀ a : Fin n, ∑ c, (eye a i * weightsGradI Q K c h i j + eye a j * weightsGradJ Q K c h i j) * V.jac (row a c) j h d =
        eye a i * (∑ c, weightsGradI Q K c h i j * V.jac (row a c) j h d) + eye a j * ∑ c, weightsGradJ Q K c h i j * V.jac (row a c) j h d := by
      intro a
      rw [Finset.mul_sum, Finset.mul_sum, ← Finset.sum_add_distrib]
      exact Finset.sum_congr rfl fun c _ => by ring
    simp only [h2]
    rw [Finset.sum_add_distrib, sum_eye_mul i fun a => ∑ c, weightsGradI Q K c h i j * V.jac (row a c) j h d,
      sum_eye_mul j fun a => ∑ c, weightsGradJ Q K c h i j * V.jac (row a c) j h d]

/-- Any constant may be subtracted from the logarithms of the weights. -/
theorem attention_shift (q k v : Arr3 n H D) (i : Fin n) (h : Fin H) (d : Fin D) (m : ℝ) :
    attention q k v i h d = (∑ j, Real.exp ((∑ e, q i h e * k j h e) / Real.sqrt D - m) * v j h d) * (∑ j, Real.exp ((∑ e, q i h e * k j h e) / Real.sqrt D - m))⁻¹ := by
  unfold attention
  dsimp only
  generalize (⨆ j, (∑ e, q i h e * k j h e) / Real.sqrt D) = m'
  rcases isEmpty_or_nonempty (Fin n) with he | he
  · simp
  have key : ∀ j, Real.exp ((∑ e, q i h e * k j h e) / Real.sqrt D - m') = Real.exp (m - m') * Real.exp ((∑ e, q i h e * k j h e) / Real.sqrt D - m) := by
    intro j; rw [← Real.exp_add]; congr 1; ring
  simp only [key]
  rw [← Finset.mul_sum, Finset.sum_mul]
  refine Finset.sum_congr rfl fun j _ => ?_
  have h1 : (∑ j, Real.exp ((∑ e, q i h e * k j h e) / Real.sqrt D - m)) ≠ 0 := (Finset.sum_pos (fun j _ => Real.exp_pos _) Finset.univ_nonempty).ne'
  have h2 := (Real.exp_pos (m - m')).ne'
  field_simp

theorem rule_carries (hq : Carries p dir q Q.toDense) (hk : Carries p dir k K.toDense) (hv : Carries p dir v V) (fq : ParticlesFirst Q) (fk : ParticlesFirst K)
    (oq : ownerMatches n Q.owner = true) (ok : ownerMatches n K.owner = true) : Carries p dir (fun y => attention (q y) (k y) (v y)) (local1Rule Q K V) := by
  intro i h d
  have hne : denomX Q K h i ≠ 0 := by
    unfold denomX
    have : Nonempty (Fin n) := ⟨i⟩
    exact (Finset.sum_pos (fun j _ => Real.exp_pos _) Finset.univ_nonempty).ne'
  have hd := lap_denom p dir q k Q K hq hk fq fk oq ok h i
  have hn := lap_numer p dir q k v Q K V hq hk hv fq fk oq ok h i d
  have hl := lap_mul hn (lap_inv hne hd)
  have hval : ∀ y, attention (q y) (k y) (v y) i h d = _ := fun y => attention_shift (q y) (k y) (v y) i h d (⨆ l, logitsX Q K h i l)
  constructor
  · dsimp only
    rw [hval]
    simp only [(hq i h _).1, (hk _ h _).1, (hv _ h _).1]
    simp only [local1Rule, one_div]
    rfl
  · simp only [hval]
    refine lap_congr hl ?_ (fun r => ?_) ?_
    · simp only [local1Rule, one_div]
    · simp only [local1Rule, one_div, inv_pow]; ring
    · simp only [local1Rule, one_div, inv_pow]
      have : ∑ r : Fin (n * C), numerJ Q K V (finProdFinEquiv.symm r).1 (finProdFinEquiv.symm r).2 h i d *
          (-(denomX Q K h i ^ 2)⁻¹ * denomJ Q K (finProdFinEquiv.symm r).1 (finProdFinEquiv.symm r).2 h i) =
          -(denomX Q K h i ^ 2)⁻¹ * ∑ r : Fin (n * C), numerJ Q K V (finProdFinEquiv.symm r).1 (finProdFinEquiv.symm r).2 h i d *
            denomJ Q K (finProdFinEquiv.symm r).1 (finProdFinEquiv.symm r).2 h i := by
        rw [Finset.mul_sum]; exact Finset.sum_congr rfl fun r _ => by ring
      rw [this]; ring

end Rule

/-! ### C119 -/

/-- **C119.** Whenever the fast path is taken on positions whose first axis is that of the particles, and the arguments carry the value, the
derivatives and the Laplacian of `q`, `k` and `v`, the answer carries those of the attention values. -/
theorem c119_rule {P : Type} [AddCommGroup P] [Module ℝ P] (p : P) (dir : Fin (n * C) → P) (q k v : P → Arr3 n H D) (Q K : Local1 n C H D) (V : Arg n C H D)
    (hq : ArgCarries p dir q (.local1 Q)) (hk : ArgCarries p dir k (.local1 K)) (hv : ArgCarries p dir v V)
    (fq : ParticlesFirst Q) (fk : ParticlesFirst K) :
    rule (.local1 Q) (.local1 K) V = .fallback ∨
      ∃ R, rule (.local1 Q) (.local1 K) V = .result (some R) ∧ Carries p dir (fun y => attention (q y) (k y) (v y)) R := by
  by_cases hs : supports Q K = true
  · right
    have hs' := hs
    simp only [supports, Bool.and_eq_true] at hs'
    obtain ⟨⟨⟨_, _⟩, oq⟩, ok⟩ := hs'
    obtain ⟨V', hV, hV'⟩ : ∃ V', asDense V = some V' ∧ Carries p dir v V' := by
      cases V with
      | plain x =>
        refine ⟨_, rfl, fun i h e => ⟨by simp only [hv p], ?_⟩⟩
        have hv' : ∀ y, v y = x := hv
        simp only [hv']
        exact lap_const _
      | dense t => exact ⟨t, rfl, hv⟩
      | local1 t => exact ⟨_, rfl, hv⟩
      | local2 => exact hv.elim
    refine ⟨local1Rule Q K V', ?_, rule_carries p dir q k v Q K V' hq hk hV' fq fk oq ok⟩
    unfold rule
    dsimp only
    rw [if_pos hs, hV]
    rfl
  · left
    unfold rule
    dsimp only
    rw [if_neg hs]

/-- **C119.** Exactly when the fast path is left to the automatic derivation. -/
theorem c119_fallback (q k v : Arg n C H D) : rule q k v = .fallback ↔
    ¬ ∃ Q K : Local1 n C H D, q = .local1 Q ∧ k = .local1 K ∧ Q.particles = n ∧ K.particles = n ∧ Q.owner = K.owner ∧ Q.owner.axis = some 0 ∧ Q.owner.values = List.range n := by
  constructor
  · rintro h ⟨Q, K, rfl, rfl, h1, h2, h3, h4, h5⟩
    have : supports Q K = true := by
      have hm : ownerMatches n Q.owner = true := by
        unfold ownerMatches; rw [h4, h5]; simp
      unfold supports
      rw [h1, h2, ← h3, hm]
      simp
    unfold rule at h
    dsimp only at h
    rw [if_pos this] at h
    cases h
  · intro h
    unfold rule
    split
    · rename_i Q K
      rw [if_neg]
      intro hs
      refine h ⟨Q, K, rfl, rfl, ?_⟩
      simp only [supports, ownerMatches, Bool.and_eq_true, decide_eq_true_eq] at hs
      obtain ⟨⟨⟨⟨a, b⟩, c⟩, d⟩, _⟩ := hs
      exact ⟨a, b, c, d.1, d.2⟩
    · rfl

/-- With a single electron the fast path is never taken: a role with one value has no axis. -/
theorem c119_single (q k v : Arg 1 C H D) : rule q k v = .fallback := by
  rw [c119_fallback]
  rintro ⟨Q, K, _, _, _, _, _, h4, h5⟩
  have := Q.owner.canon (by rw [h5]; rfl)
  rw [this] at h4
  cases h4

/-- A linear function along a line. -/
theorem jet_affine (a b : ℝ) : Jet2 (fun t : ℝ => a + t * b) a b 0 :=
  ⟨by simp, fun _ => b, Filter.Eventually.of_forall fun t => by simpa using ((hasDerivAt_id t).mul_const b).const_add a, rfl, hasDerivAt_const _ _⟩

theorem jet_unique {g : ℝ → ℝ} {a b c b' : ℝ} (h : Jet2 g a b c) (h' : HasDerivAt g b' 0) : b = b' := by
  obtain ⟨_, g', h1, rfl, _⟩ := h
  exact h1.self_of_nhds.unique h'

/-- Queries of the example: `q_i` is the first coordinate of electron `i`, positions stored with the particle axis *last*. -/
def lastQ : Local1 2 2 1 1 := ⟨fun _ _ _ => 0, fun c _ _ _ => if c = 0 then 1 else 0, fun _ _ _ => 0, ⟨some 0, [0, 1], by decide⟩, [2, 2], 1⟩
/-- Keys of the example: `k_j = j`. -/
def lastK : Local1 2 2 1 1 := ⟨fun i _ _ => i.val, fun _ _ _ _ => 0, fun _ _ _ => 0, ⟨some 0, [0, 1], by decide⟩, [2, 2], 1⟩

/-- **C119, what does not hold.** With the particle axis not first the fast path is taken all the same, and the derivatives of `q` and `k` land in
the wrong rows: correct arguments, wrong answer. -/
theorem c119_axis_counterexample : ∃ (q k v : (Fin 4 → ℝ) → Arr3 2 1 1) (V : Arg 2 2 1 1) (R : Dense 2 2 1 1),
    ArgCarries 0 (fun r : Fin (2 * 2) => (Pi.single r 1 : Fin 4 → ℝ)) q (.local1 lastQ) ∧ ArgCarries 0 (fun r : Fin (2 * 2) => (Pi.single r 1 : Fin 4 → ℝ)) k (.local1 lastK) ∧
      ArgCarries 0 (fun r : Fin (2 * 2) => (Pi.single r 1 : Fin 4 → ℝ)) v V ∧ rule (.local1 lastQ) (.local1 lastK) V = .result (some R) ∧
      ¬ Carries 0 (fun r : Fin (2 * 2) => (Pi.single r 1 : Fin 4 → ℝ)) (fun y => attention (q y) (k y) (v y)) R := by
  refine ⟨fun y i _ _ => y (Fin.castLE (by norm_num) i), fun _ i _ _ => (i.val : ℝ), fun _ i _ _ => (i.val : ℝ), .plain fun i _ _ => (i.val : ℝ),
    local1Rule lastQ lastK ⟨fun i _ _ => (i.val : ℝ), fun _ _ _ _ => 0, fun _ _ _ => 0⟩, ?_, ?_, fun _ => rfl, ?_, ?_⟩
  · intro i h e
    refine ⟨by simp [Local1.toDense, lastQ], fun _ => 0, fun r => ?_, by simp [Local1.toDense, lastQ]⟩
    have hj : (lastQ.toDense).jac r i h e = (Pi.single r 1 : Fin 4 → ℝ) (Fin.castLE (by norm_num) i) := by
      fin_cases i <;> fin_cases r <;> simp [Local1.toDense, lastQ, Sparse.rowOwner, Sparse.rowCoord, Sparse.unravel, Sparse.ravel, Sparse.OwnerRole.at]
    dsimp only
    rw [hj]
    have h0 : lastQ.toDense.x i h e = 0 := rfl
    rw [h0]
    have := jet_affine 0 ((Pi.single r 1 : Fin 4 → ℝ) (Fin.castLE (by norm_num) i))
    exact this
  · intro i h e
    refine ⟨by simp [Local1.toDense, lastK], ?_⟩
    refine lap_congr (lap_const (i.val : ℝ)) (by simp [Local1.toDense, lastK]) (fun r => ?_) (by simp [Local1.toDense, lastK])
    have : ∀ (a : Prop) [Decidable a] (b : Prop) [Decidable b], (0 : ℝ) = if a then (if _h : b then 0 else 0) else 0 := fun a _ b _ => by
      by_cases ha : a <;> by_cases hb : b <;> simp [ha, hb]
    exact this _ _
  · unfold rule
    dsimp only
    rw [if_pos (by decide)]
    rfl
  · intro hc
    obtain ⟨_, c, hc, _⟩ := hc 1 0 0
    have h2 := jet_unique (b' := 0) (hc 2) (by
      have h0 : ∀ (t : ℝ), (fun (i : Fin 2) (_ _ : Fin 1) => ((0 : Fin 4 → ℝ) + t • (Pi.single 2 1 : Fin 4 → ℝ)) (Fin.castLE (by norm_num) i)) = fun _ _ _ => 0 := by
        intro t
        funext i _ _
        have hi : (Fin.castLE (by norm_num) i : Fin 4) ≠ 2 := by
          revert i; decide
        simp [Pi.single_eq_of_ne hi]
      refine (hasDerivAt_const (0 : ℝ) (attention (fun (_ : Fin 2) (_ _ : Fin 1) => 0) (fun i _ _ => (i.val : ℝ)) (fun i _ _ => (i.val : ℝ)) 1 0 0)).congr_of_eventuallyEq ?_
      refine Filter.Eventually.of_forall fun t => ?_
      dsimp only
      rw [show (2 : Fin (2 * 2)) = (2 : Fin 4) from rfl, h0 t])
    have h3 : (finProdFinEquiv.symm (2 : Fin (2 * 2)) : Fin 2 × Fin 2) = (1, 0) := by decide
    simp only [local1Rule, h3] at h2
    simp [numerJ, numerX, denomJ, denomX, weightsX, weightsGradI, weightsGradJ, logitsX, logitsGradI, logitsGradJ, eye, lastQ, lastK, row] at h2
    norm_num at h2

/-- The features are the positions of two electrons on a line, at the point `x`. -/
noncomputable def lineArg (x : Fin 2 → ℝ) : Local1 2 1 1 1 := ⟨fun i _ _ => x i, fun _ _ _ _ => 1, fun _ _ _ => 0, ⟨some 0, [0, 1], by decide⟩, [2, 1], 0⟩

/-- `q = k = v =` position satisfies the hypotheses of `c119_rule` at every point, and the fast path is taken. -/
example (x : Fin 2 → ℝ) : ∃ R, rule (.local1 (lineArg x)) (.local1 (lineArg x)) (.local1 (lineArg x)) = .result (some R) ∧
    Carries x (fun r : Fin (2 * 1) => (Pi.single r 1 : Fin 2 → ℝ))
      (fun y => attention (fun i (_ _ : Fin 1) => y i) (fun i _ _ => y i) fun i _ _ => y i) R := by
  have hf : ParticlesFirst (lineArg x) := ⟨rfl, [1], rfl, rfl⟩
  have hc : ArgCarries x (fun r : Fin (2 * 1) => (Pi.single r 1 : Fin 2 → ℝ)) (fun y i (_ _ : Fin 1) => y i) (.local1 (lineArg x)) := by
    intro i h e
    refine ⟨rfl, fun _ => 0, fun r => ?_, by simp [Local1.toDense, lineArg]⟩
    have hj : ((lineArg x).toDense).jac r i h e = (Pi.single r 1 : Fin 2 → ℝ) i := by
      fin_cases i <;> fin_cases r <;> simp [Local1.toDense, lineArg, Sparse.rowOwner, Sparse.rowCoord, Sparse.unravel, Sparse.ravel, Sparse.OwnerRole.at]
    dsimp only
    rw [hj]
    exact jet_affine (x i) ((Pi.single r 1 : Fin 2 → ℝ) i)
  rcases c119_rule x _ _ _ _ (lineArg x) (lineArg x) (.local1 (lineArg x)) hc hc hc hf hf with h | h
  · rw [c119_fallback] at h
    exact absurd ⟨_, _, rfl, rfl, rfl, rfl, rfl, rfl, rfl⟩ h
  · exact h

end Jaqmc.Attention.Props
