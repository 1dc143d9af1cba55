import Verif.Lemmas.NearExact
import Mathlib.Analysis.SpecialFunctions.ExpDeriv
import Mathlib.Analysis.SpecialFunctions.Trigonometric.Deriv
/-!
C146: training leaves an exact wavefunction alone, and moves a nearly exact one slowly.
-/
namespace Jaqmc.Average.Props
open Jaqmc.Sampler Jaqmc.Sampler.Props Jaqmc.Average Jaqmc.Average.Spec Jaqmc.Average.NearExact Jaqmc.LossGrad.Spec

variable {V N Ω Key Θ : Type} {n d p : ℕ}

/-! ### One step -/

/-- **C146.** With walkers on which the wavefunction is nearly exact, a training step reports a loss as near to the eigenvalue as the local energies are, and a gradient of at most four times
the product of the bounds on the log-derivatives and on the deviations, whatever the clipping. -/
theorem c146_step {W : Set V} {S : Set (Fin p → ℝ)} {ψ : (Fin p → ℝ) → V → ℂ} {g : (Fin p → ℝ) → Fin p → V → ℂ} {e : (Fin p → ℝ) → V → ℂ} {E0 a b G : ℝ}
    (A : NearExact W S ψ g e E0 a b G) (method : String) (hm : method = "iqr" ∨ method = "mad" ∨ method = "none") {scale : ℝ} (hs : 0 ≤ scale) (hd : 0 < d) (hn : 0 < n)
    {θ : Fin p → ℝ} (hθ : θ ∈ S) (x : Fin d → Batch Unit n V) (hx : ∀ i j, ψ θ (x i () j) ≠ 0) (k : Fin p) :
    ∃ (L : ℂ) (γ : ℝ), stepGradient method scale (g θ k) (e θ) x = .ok (some L, some γ) ∧ |L.re - E0| ≤ a ∧ |L.im| ≤ b ∧ |γ| ≤ 4 * G * (a + b) := by
  have hw : ∀ i j, x i () j ∈ W := fun i j => (A.nodes θ hθ _).1 (hx i j)
  obtain ⟨L, γ, E', h1, h2, h3, h4⟩ := near_batch method hm hs hd hn (g θ k) (e θ) x (fun i j => A.energy θ hθ _ (hw i j)) fun i j => A.phase θ hθ _ (hw i j)
  have hN := Nat.mul_pos hd hn
  obtain ⟨m1, m2⟩ := mean_near hN (E0 := E0) (a := a) (b := b) (fun w => e θ (x w.1 () w.2)) fun w => ⟨A.energy θ hθ _ (hw _ _), A.phase θ hθ _ (hw _ _)⟩
  refine ⟨L, γ, h1, by rw [h2]; exact m1, by rw [h2]; exact m2, ?_⟩
  rw [h4]
  exact covariance_near hN (E0 := E0) (c := a + b) (G := G) (fun w => g θ k (x w.1 () w.2)) E' (fun w => box_norm (h3 w).1 (h3 w).2) fun w => A.score θ hθ _ (hw _ _) k

/-! ### Plain gradient descent -/

theorem trainRun_support {cfg : Cfg} {r : RandomRng Ω Key N n} {move : ℝ → N → V → V} {ψ : Θ → V → ℂ} {update : Nat → Θ → (Fin d → Batch Unit n V) → Θ} {keys : Nat → Fin d → Key}
    {x₀ : Ω → Fin d → Batch Unit n V} {τ₀ : Θ} {s : State} {ω : Ω} {t : ℕ} (h : ∀ a i, ψ (trained cfg r move ψ update keys x₀ τ₀ s ω t) (trainWalkers cfg r move ψ update keys x₀ τ₀ s ω t a () i) ≠ 0)
    (a : Fin d) (i : Fin n) : ψ (trained cfg r move ψ update keys x₀ τ₀ s ω t) (trainWalkers cfg r move ψ update keys x₀ τ₀ s ω (t + 1) a () i) ≠ 0 :=
  step_support cfg (r.seed ω) (moveAll r move ω) _ _ (keys t) h a i

theorem sgd_of {method : String} {scale : ℝ} {η : ℕ → ℝ} {g : (Fin p → ℝ) → Fin p → V → ℂ} {e : (Fin p → ℝ) → V → ℂ} {t : ℕ} {θ : Fin p → ℝ} {x : Fin d → Batch Unit n V} {k : Fin p}
    {L : Option ℂ} {γ : ℝ} (h : stepGradient method scale (g θ k) (e θ) x = .ok (L, some γ)) : sgdUpdate method scale η g e t θ x k = θ k - η t * γ := by
  unfold sgdUpdate
  rw [h]

/-- **C146.** Near an exact wavefunction plain gradient descent moves slowly: whatever the random numbers, the sampler, the clipping and the walkers it starts with, the parameters have moved
after `t` steps by at most the sum of the learning rates times `4 G (a + b)`, and every loss reported on the way is within `a` of the eigenvalue.  This holds as long as that sum does not
lead out of the region in which the wavefunction is nearly exact. -/
theorem c146_slow {W : Set V} {S : Set (Fin p → ℝ)} {ψ : (Fin p → ℝ) → V → ℂ} {g : (Fin p → ℝ) → Fin p → V → ℂ} {e : (Fin p → ℝ) → V → ℂ} {E0 a b G R : ℝ}
    (A : NearExact W S ψ g e E0 a b G) (method : String) (hm : method = "iqr" ∨ method = "mad" ∨ method = "none") {scale : ℝ} (hs : 0 ≤ scale) (hd : 0 < d) (hn : 0 < n)
    (cfg : Cfg) (r : RandomRng Ω Key N n) (move : ℝ → N → V → V) (keys : ℕ → Fin d → Key) (x₀ : Ω → Fin d → Batch Unit n V) (θ₀ : Fin p → ℝ) (s : State) (ω : Ω)
    (hx : ∀ i j, ψ θ₀ (x₀ ω i () j) ≠ 0) (hR : 0 ≤ R) (hS : ∀ θ, (∀ k, |θ k - θ₀ k| ≤ R) → θ ∈ S) {η : ℕ → ℝ} (hη : ∀ t, 0 ≤ η t) (T : ℕ) (hT : (∑ t ∈ Finset.range T, η t) * (4 * G * (a + b)) ≤ R) :
    (∀ t ≤ T, ∀ k, |descended cfg r move ψ method scale η g e keys x₀ θ₀ s ω t k - θ₀ k| ≤ (∑ i ∈ Finset.range t, η i) * (4 * G * (a + b))) ∧
      ∀ t < T, ∀ k, ∃ L, trainLoss cfg r move ψ (sgdUpdate method scale η g e) method scale (fun θ => g θ k) e keys x₀ θ₀ s ω t = some L ∧ |L.re - E0| ≤ a ∧ |L.im| ≤ b := by
  have h0 : θ₀ ∈ S := hS θ₀ fun k => by simpa using hR
  have hw0 : x₀ ω ⟨0, hd⟩ () ⟨0, hn⟩ ∈ W := (A.nodes θ₀ h0 _).1 (hx _ _)
  have ha0 : 0 ≤ a := (abs_nonneg _).trans (A.energy θ₀ h0 _ hw0)
  have hb0 : 0 ≤ b := (abs_nonneg _).trans (A.phase θ₀ h0 _ hw0)
  rcases Nat.eq_zero_or_pos p with rfl | hp
  · exact ⟨fun t _ k => k.elim0, fun t _ k => k.elim0⟩
  have hG0 : 0 ≤ G := (norm_nonneg _).trans (A.score θ₀ h0 _ hw0 ⟨0, hp⟩)
  obtain ⟨c, hc⟩ : ∃ c, c = 4 * G * (a + b) := ⟨_, rfl⟩
  have hc0 : 0 ≤ c := by rw [hc]; positivity
  rw [← hc] at hT ⊢
  have hmem : ∀ t ≤ T, ∀ θ : Fin p → ℝ, (∀ k, |θ k - θ₀ k| ≤ (∑ i ∈ Finset.range t, η i) * c) → θ ∈ S := fun t ht θ h => hS θ fun k =>
    (h k).trans ((mul_le_mul_of_nonneg_right (Finset.sum_le_sum_of_subset_of_nonneg (Finset.range_mono ht) fun i _ _ => hη i) hc0).trans hT)
  have key : ∀ t ≤ T, (∀ k, |descended cfg r move ψ method scale η g e keys x₀ θ₀ s ω t k - θ₀ k| ≤ (∑ i ∈ Finset.range t, η i) * c) ∧
      ∀ i j, ψ (descended cfg r move ψ method scale η g e keys x₀ θ₀ s ω t) (trainWalkers cfg r move ψ (sgdUpdate method scale η g e) keys x₀ θ₀ s ω t i () j) ≠ 0 := by
    intro t
    induction t with
    | zero => exact fun _ => ⟨fun k => by simp [descended, trained, trainRun], hx⟩
    | succ t ih =>
      intro ht
      obtain ⟨i1, i2⟩ := ih (by omega)
      have hin := hmem t (by omega) _ i1
      have hsup := trainRun_support i2
      have hstep : ∀ k, ∃ γ, descended cfg r move ψ method scale η g e keys x₀ θ₀ s ω (t + 1) k = descended cfg r move ψ method scale η g e keys x₀ θ₀ s ω t k - η t * γ ∧ |γ| ≤ c := by
        intro k
        obtain ⟨L, γ, e1, -, -, e4⟩ := c146_step A method hm hs hd hn hin _ hsup k
        refine ⟨γ, ?_, hc ▸ e4⟩
        show sgdUpdate method scale η g e t (descended cfg r move ψ method scale η g e keys x₀ θ₀ s ω t) (trainWalkers cfg r move ψ (sgdUpdate method scale η g e) keys x₀ θ₀ s ω (t + 1)) k = _
        exact sgd_of e1
      have b1 : ∀ k, |descended cfg r move ψ method scale η g e keys x₀ θ₀ s ω (t + 1) k - θ₀ k| ≤ (∑ i ∈ Finset.range (t + 1), η i) * c := by
        intro k
        obtain ⟨γ, e1, e2⟩ := hstep k
        rw [e1, Finset.sum_range_succ, add_mul]
        have := i1 k
        have h2 : |η t * γ| ≤ η t * c := by rw [abs_mul, abs_of_nonneg (hη t)]; exact mul_le_mul_of_nonneg_left e2 (hη t)
        rw [sub_right_comm]
        exact (abs_sub _ _).trans (add_le_add this h2)
      refine ⟨b1, fun i j => ?_⟩
      rw [A.nodes _ (hmem (t + 1) ht _ b1), ← A.nodes _ hin]
      exact hsup i j
  refine ⟨fun t ht => (key t ht).1, fun t ht k => ?_⟩
  obtain ⟨i1, i2⟩ := key t ht.le
  obtain ⟨L, γ, e1, e2, e3, -⟩ := c146_step A method hm hs hd hn (hmem t ht.le _ i1) _ (trainRun_support i2) k
  refine ⟨L, ?_, e2, e3⟩
  unfold trainLoss
  rw [show stepGradient method scale (g (trained cfg r move ψ (sgdUpdate method scale η g e) keys x₀ θ₀ s ω t) k) (e (trained cfg r move ψ (sgdUpdate method scale η g e) keys x₀ θ₀ s ω t))
    (trainWalkers cfg r move ψ (sgdUpdate method scale η g e) keys x₀ θ₀ s ω (t + 1)) = .ok (some L, some γ) from e1]

/-! ### Exact wavefunctions -/

theorem exact_step {ψ e : V → ℂ} {E0 : ℝ} (hE : ∀ x, ψ x ≠ 0 → e x = E0) (method : String) (hm : method = "iqr" ∨ method = "mad" ∨ method = "none") (scale : ℝ) (hd : 0 < d)
    (hn : 0 < n) (g : V → ℂ) (x : Fin d → Batch Unit n V) (hx : ∀ i j, ψ (x i () j) ≠ 0) : stepGradient method scale g e x = .ok (some (E0 : ℂ), some 0) := by
  let _ : MeasurableSpace V := ⊤
  rw [stepGradient_eq]
  exact LossGrad.Props.c94_zero_variance method hm scale hd hn g e _ E0 fun i => hE _ (hx _ _)

theorem exact_run {cfg : Cfg} {r : RandomRng Ω Key N n} {move : ℝ → N → V → V} {ψ : Θ → V → ℂ} {update : Nat → Θ → (Fin d → Batch Unit n V) → Θ} {keys : Nat → Fin d → Key}
    {x₀ : Ω → Fin d → Batch Unit n V} {τ₀ : Θ} {s : State} {ω : Ω} {Φ : V → ℂ} (hx : ∀ i j, Φ (x₀ ω i () j) ≠ 0) (I : ℕ → Θ → Prop) (h0 : I 0 τ₀) (hψ : ∀ t τ, I t τ → ψ τ = Φ)
    (hI : ∀ t τ, I t τ → ∀ x : Fin d → Batch Unit n V, (∀ i j, Φ (x i () j) ≠ 0) → I (t + 1) (update t τ x)) (t : ℕ) :
    I t (trained cfg r move ψ update keys x₀ τ₀ s ω t) ∧ trainWalkers cfg r move ψ update keys x₀ τ₀ s ω t = walkers cfg r move Φ keys x₀ s ω t ∧
      ∀ i j, Φ (trainWalkers cfg r move ψ update keys x₀ τ₀ s ω t i () j) ≠ 0 := by
  have key : I t (trained cfg r move ψ update keys x₀ τ₀ s ω t) ∧
      ((trainRun cfg r move ψ update keys x₀ τ₀ s ω t).2.1 = (run cfg (r.seed ω) (moveAll r move ω) (x₀ ω) s ((List.range t).map fun t => (target Φ, keys t))).1 ∧
        (trainRun cfg r move ψ update keys x₀ τ₀ s ω t).2.2 = (run cfg (r.seed ω) (moveAll r move ω) (x₀ ω) s ((List.range t).map fun t => (target Φ, keys t))).2.2) ∧
      ∀ i j, Φ (trainWalkers cfg r move ψ update keys x₀ τ₀ s ω t i () j) ≠ 0 := by
    induction t with
    | zero => exact ⟨h0, ⟨rfl, rfl⟩, hx⟩
    | succ t ih =>
      obtain ⟨i1, ⟨i2, i2'⟩, i3⟩ := ih
      have hΦ := hψ _ _ i1
      have hsup : ∀ i j, Φ (trainWalkers cfg r move ψ update keys x₀ τ₀ s ω (t + 1) i () j) ≠ 0 := by
        intro i j
        rw [← hΦ]
        exact trainRun_support (fun a k => by rw [hΦ]; exact i3 a k) i j
      refine ⟨hI t _ i1 _ hsup, ?_, hsup⟩
      have hΦ' : ψ (trainRun cfg r move ψ update keys x₀ τ₀ s ω t).1 = Φ := hΦ
      let _ : MeasurableSpace V := ⊤
      obtain ⟨r1, r2⟩ := run_append cfg (r.seed ω) (moveAll r move ω) (x₀ ω) s ((List.range t).map fun t => (target Φ, keys t)) (target Φ, keys t)
      rw [List.range_succ, List.map_append, List.map_singleton, r1, r2]
      simp only [trainRun]
      rw [hΦ', i2, i2']
      exact ⟨rfl, rfl⟩
  exact ⟨key.1, key.2.1.1, key.2.2⟩

/-- **C146.** Plain gradient descent leaves an exact wavefunction alone.  If the local energy is the number `E0` wherever the wavefunction of the first parameters is not zero, then, whatever
the random numbers, the sampler, the clipping, the learning rates and the number of steps, the parameters stay what they were, every loss is `E0`, and the walkers are those of an evaluation
of that wavefunction. -/
theorem c146_exact {ψ : (Fin p → ℝ) → V → ℂ} {g : (Fin p → ℝ) → Fin p → V → ℂ} {e : (Fin p → ℝ) → V → ℂ} {E0 : ℝ} (method : String)
    (hm : method = "iqr" ∨ method = "mad" ∨ method = "none") (scale : ℝ) (hd : 0 < d) (hn : 0 < n) (cfg : Cfg) (r : RandomRng Ω Key N n) (move : ℝ → N → V → V) (keys : ℕ → Fin d → Key)
    (x₀ : Ω → Fin d → Batch Unit n V) (θ₀ : Fin p → ℝ) (hE : ∀ x, ψ θ₀ x ≠ 0 → e θ₀ x = E0) (s : State) (ω : Ω) (hx : ∀ i j, ψ θ₀ (x₀ ω i () j) ≠ 0) (η : ℕ → ℝ) (t : ℕ) :
    descended cfg r move ψ method scale η g e keys x₀ θ₀ s ω t = θ₀ ∧
      (∀ k, trainLoss cfg r move ψ (sgdUpdate method scale η g e) method scale (fun θ => g θ k) e keys x₀ θ₀ s ω t = some (E0 : ℂ)) ∧
      trainWalkers cfg r move ψ (sgdUpdate method scale η g e) keys x₀ θ₀ s ω t = walkers cfg r move (ψ θ₀) keys x₀ s ω t := by
  have R := exact_run (cfg := cfg) (r := r) (move := move) (ψ := ψ) (update := sgdUpdate method scale η g e) (keys := keys) (s := s) hx (fun _ θ => θ = θ₀) rfl (fun _ θ h => by rw [h])
    (fun t θ h x hx => by
      subst h
      funext k
      unfold sgdUpdate
      rw [exact_step hE method hm scale hd hn (g θ k) x hx]
      simp)
  refine ⟨(R t).1, fun k => ?_, (R t).2.1⟩
  unfold trainLoss
  rw [show trained cfg r move ψ (sgdUpdate method scale η g e) keys x₀ θ₀ s ω t = θ₀ from (R t).1,
    exact_step hE method hm scale hd hn (g θ₀ k) _ (R (t + 1)).2.2]

/-- Without a gradient and with no previous change there is no change. -/
theorem sr_rest (C : SR.Config) (hC : SR.Spec.Valid C) (heps : ∀ t, C.eps ≤ C.damping t) (lr : ℕ → ℝ) (mx : SR.MaxNorm) (st : SR.State p × ℕ) (hr : SR.Spec.Reachable C lr mx st)
    (h0 : st.1.prevDelta = 0) (hd : 0 < d) (hn : 0 < n) (v0 : SR.Row d n 2 → ℝ) (raw : SR.Raw d n 2 p) :
    (SR.step C lr mx v0 raw 0 st).1 = 0 ∧ (SR.step C lr mx v0 raw 0 st).2.1.prevDelta = 0 := by
  obtain ⟨lam, -, -, -, h4⟩ := SR.Props.c76_step C hC heps lr mx st hr hd hn (Or.inr rfl) v0 raw 0
  have hp : SR.Spec.momentum C st.1 = 0 := by
    funext j
    unfold SR.Spec.momentum
    rw [h0]
    split <;> simp
  rw [hp] at h4
  have hz : (SR.update C v0 raw 0 st.1).1 = 0 := by rw [h4]; simp [SR.Spec.robust]
  refine ⟨?_, hz⟩
  rw [SR.Props.step_smul, hz]
  funext j
  simp

/-- **C146.** So does stochastic reconfiguration from a fresh start, with every setting, momentum included. -/
theorem c146_sr (C : SR.Config) (hC : SR.Spec.Valid C) (heps : ∀ t, C.eps ≤ C.damping t) (lr : ℕ → ℝ) (mx : SR.MaxNorm) (v0 : ℕ → SR.Row d n 2 → ℝ)
    {ψ : (Fin p → ℝ) → V → ℂ} {g : (Fin p → ℝ) → Fin p → V → ℂ} {e : (Fin p → ℝ) → V → ℂ} {E0 : ℝ} (method : String)
    (hm : method = "iqr" ∨ method = "mad" ∨ method = "none") (scale : ℝ) (hd : 0 < d) (hn : 0 < n) (cfg : Cfg) (r : RandomRng Ω Key N n) (move : ℝ → N → V → V) (keys : ℕ → Fin d → Key)
    (x₀ : Ω → Fin d → Batch Unit n V) (θ₀ : Fin p → ℝ) (hE : ∀ x, ψ θ₀ x ≠ 0 → e θ₀ x = E0) (s : State) (ω : Ω) (hx : ∀ i j, ψ θ₀ (x₀ ω i () j) ≠ 0) (t : ℕ) :
    (trained cfg r move (fun τ => ψ τ.1) (srUpdate C lr mx v0 method scale g e) keys x₀ (θ₀, (SR.init p, 0)) s ω t).1 = θ₀ ∧
      (∀ k, trainLoss cfg r move (fun τ => ψ τ.1) (srUpdate C lr mx v0 method scale g e) method scale (fun τ => g τ.1 k) (fun τ => e τ.1) keys x₀ (θ₀, (SR.init p, 0)) s ω t = some (E0 : ℂ)) ∧
      trainWalkers cfg r move (fun τ => ψ τ.1) (srUpdate C lr mx v0 method scale g e) keys x₀ (θ₀, (SR.init p, 0)) s ω t = walkers cfg r move (ψ θ₀) keys x₀ s ω t := by
  have R := exact_run (cfg := cfg) (r := r) (move := move) (ψ := fun τ : (Fin p → ℝ) × (SR.State p × ℕ) => ψ τ.1) (update := srUpdate C lr mx v0 method scale g e) (keys := keys) (s := s)
    (τ₀ := (θ₀, (SR.init p, 0))) hx (fun _ τ => τ.1 = θ₀ ∧ SR.Spec.Reachable C lr mx τ.2 ∧ τ.2.1.prevDelta = 0) ⟨rfl, .init, rfl⟩ (fun _ τ h => by simp only [h.1])
    (fun t τ h x hx => by
      obtain ⟨h1, h2, h3⟩ := h
      have hg : stepGradients method scale (g τ.1) (e τ.1) x = (0 : Fin p → ℝ) := by
        funext k
        unfold stepGradients
        rw [h1, exact_step hE method hm scale hd hn (g θ₀ k) x hx]
        rfl
      have hu : srUpdate C lr mx v0 method scale g e t τ x =
          (fun k => τ.1 k + (SR.step C lr mx (v0 t) (ImagTime.complexRaw fun a i k => g τ.1 k (x a () i)) 0 τ.2).1 k,
            (SR.step C lr mx (v0 t) (ImagTime.complexRaw fun a i k => g τ.1 k (x a () i)) 0 τ.2).2) := by
        unfold srUpdate
        dsimp only
        rw [hg]
      obtain ⟨s1, s2⟩ := sr_rest C hC heps lr mx τ.2 h2 h3 hd hn (v0 t) (ImagTime.complexRaw fun a i k => g τ.1 k (x a () i))
      rw [hu, s1]
      refine ⟨?_, SR.Spec.Reachable.step _ _ _ _ h2, s2⟩
      simpa using h1)
  refine ⟨(R t).1.1, fun k => ?_, (R t).2.1⟩
  unfold trainLoss
  dsimp only
  rw [(R t).1.1, exact_step hE method hm scale hd hn (g θ₀ k) _ (R (t + 1)).2.2]

open Matrix in
/-- **C146.** A fresh start is needed with momentum: an optimizer that has been moving when it comes to an exact wavefunction moves on. -/
theorem c146_momentum (C : SR.Config) (hC : SR.Spec.Valid C) (heps : ∀ t, C.eps ≤ C.damping t) (lr : ℕ → ℝ) (hlr : ∀ t, 0 < lr t) (mx : SR.MaxNorm)
    (hmx : ∀ f, mx = .schedule f → ∀ t, 0 < f t) (τ : (Fin p → ℝ) × (SR.State p × ℕ)) (hr : SR.Spec.Reachable C lr mx τ.2) (m : ℕ → ℝ) (hm' : C.mu = some m) (hmu : m τ.2.1.counter ≠ 0)
    (hv : τ.2.1.prevDelta ≠ 0) (v0 : ℕ → SR.Row d n 2 → ℝ) {ψ : (Fin p → ℝ) → V → ℂ} {g : (Fin p → ℝ) → Fin p → V → ℂ} {e : (Fin p → ℝ) → V → ℂ} {E0 : ℝ} (method : String)
    (hm : method = "iqr" ∨ method = "mad" ∨ method = "none") (scale : ℝ) (hd : 0 < d) (hn : 0 < n) (hE : ∀ x, ψ τ.1 x ≠ 0 → e τ.1 x = E0) (x : Fin d → Batch Unit n V)
    (hx : ∀ i j, ψ τ.1 (x i () j) ≠ 0) (t : ℕ) : (srUpdate C lr mx v0 method scale g e t τ x).1 ≠ τ.1 := by
  have hg : stepGradients method scale (g τ.1) (e τ.1) x = (0 : Fin p → ℝ) := by
    funext k
    unfold stepGradients
    rw [exact_step hE method hm scale hd hn (g τ.1 k) x hx]
    rfl
  obtain ⟨raw, hraw⟩ : ∃ raw : SR.Raw d n 2 p, raw = ImagTime.complexRaw fun a i k => g τ.1 k (x a () i) := ⟨_, rfl⟩
  have hu : (srUpdate C lr mx v0 method scale g e t τ x).1 = fun k => τ.1 k + (SR.step C lr mx (v0 t) raw 0 τ.2).1 k := by
    unfold srUpdate
    dsimp only
    rw [hg, ← hraw]
  intro h
  rw [hu] at h
  have h1 : (SR.step C lr mx (v0 t) raw 0 τ.2).1 = 0 := by
    funext k
    have := congrFun h k
    simpa using this
  rw [SR.Props.step_smul] at h1
  obtain ⟨u, hu'⟩ : ∃ u, u = (SR.update C (v0 t) raw 0 τ.2.1).1 := ⟨_, rfl⟩
  rw [← hu'] at h1
  have hf := SR.Props.factor_pos lr hlr mx hmx C.eps hC.eps τ.2.2 (SR.norm2 u) (SR.Props.norm2_nonneg u)
  have hu0 : u = 0 := by
    funext j
    have := congrFun h1 j
    simp only [Pi.zero_apply, neg_mul, neg_eq_zero, mul_eq_zero] at this
    exact this.resolve_left hf.ne'
  obtain ⟨lam, hlam, -, hpos, h4⟩ := SR.Props.c76_step C hC heps lr mx τ.2 hr hd hn (Or.inr rfl) (v0 t) raw 0
  rw [← hu', hu0] at h4
  obtain ⟨M, hM⟩ : ∃ M, M = SR.Spec.metric C (SR.Spec.variance C raw τ.2.1) := ⟨_, rfl⟩
  rw [← hM] at h4 hpos
  have hdet : IsUnit (SR.Spec.fisher C.clip raw + lam • M).det := (Matrix.isUnit_iff_isUnit_det _).1 hpos.isUnit
  have h5 : lam • (M *ᵥ SR.Spec.momentum C τ.2.1) = 0 := by
    unfold SR.Spec.robust at h4
    simp only [mulVec_zero, zero_add] at h4
    have := congrArg (fun v => (SR.Spec.fisher C.clip raw + lam • M) *ᵥ v) h4.symm
    simpa only [mulVec_mulVec, Matrix.mul_nonsing_inv _ hdet, one_mulVec, mulVec_zero] using this
  have hlam0 : lam ≠ 0 := ((hC.damping _).trans_le hlam).ne'
  have h6 := (smul_eq_zero.1 h5).resolve_left hlam0
  rw [hM, SR.Props.metric_eq C raw hC] at h6
  refine hv (funext fun j => ?_)
  have h7 := congrFun h6 j
  rw [mulVec_diagonal] at h7
  have hsc := SR.Props.scaleOf_pos C hC (SR.score C.clip raw) τ.2.1 (SR.Props.c76_history C hC lr mx τ.2 hr).1 j
  have h8 := (mul_eq_zero.1 h7).resolve_left (inv_ne_zero hsc.ne')
  unfold SR.Spec.momentum at h8
  rw [hm'] at h8
  exact (mul_eq_zero.1 h8).resolve_left hmu

/-- An optimizer with momentum that has taken one step along a gradient is in such a state. -/
example : ∃ τ : (Fin 1 → ℝ) × (SR.State 1 × ℕ), SR.Spec.Reachable ⟨fun _ => 1 / 1000, none, .standard, some fun _ => 9 / 10, none, false, 1 / 1000000, none, none⟩ (fun _ => 1 / 100) .none τ.2 ∧
    τ.2.1.prevDelta ≠ 0 := by
  obtain ⟨C, hC⟩ : ∃ C : SR.Config, C = ⟨fun _ => 1 / 1000, none, .standard, some fun _ => 9 / 10, none, false, 1 / 1000000, none, none⟩ := ⟨_, rfl⟩
  rw [← hC]
  have hv : SR.Spec.Valid C := by rw [hC]; exact ⟨by norm_num, by simp, by simp, by simp, by intro t; norm_num, by simp⟩
  have heps : ∀ t, C.eps ≤ C.damping t := by rw [hC]; intro t; norm_num
  refine ⟨(0, (SR.step C (fun _ => 1 / 100) .none (fun _ => 0 : SR.Row 1 1 2 → ℝ) (fun _ _ _ _ => 0) (fun _ => 1) (SR.init 1, 0)).2), .step _ _ _ _ .init, ?_⟩
  show (SR.update C (fun _ => 0 : SR.Row 1 1 2 → ℝ) (fun _ _ _ _ => 0) (fun _ => 1) (SR.init 1)).1 ≠ 0
  obtain ⟨h1, -, h3, h4, h5⟩ := SR.Props.update_eq C hv one_pos one_pos (Or.inr rfl) (fun _ => 0 : SR.Row 1 1 2 → ℝ) (fun _ _ _ _ => 0) (fun _ => 1) (SR.init 1)
    (SR.Props.c76_history C hv (fun _ => 1 / 100) .none _ .init).1
  have hp : SR.Spec.momentum C (SR.init 1) = 0 := by
    funext j
    rw [hC]
    simp [SR.Spec.momentum, SR.init]
  have hpos := SR.Props.robust_pos _ _ _ _ h5 (SR.Props.getGamma_pos C (SR.init 1).counter _ h5) h3 h4 (fun _ : Fin 1 => (1 : ℝ)) (by intro h; simpa using congrFun h 0)
  rw [hp] at h1
  intro h0
  rw [← h1, h0] at hpos
  simp at hpos

/-! ### A particle on a ring -/

/-- The trial function `exp (θ cos x)` of a free particle on a ring. -/
noncomputable def ring (θ : Fin 1 → ℝ) (x : ℝ) : ℝ := Real.exp (θ 0 * Real.cos x)

/-- Its local energy, `-ψ''/(2ψ)`. -/
noncomputable def ringEnergy (θ : Fin 1 → ℝ) (x : ℝ) : ℝ := -(1 / 2) * deriv (deriv (ring θ)) x / ring θ x

theorem ringEnergy_eq (θ : Fin 1 → ℝ) (x : ℝ) : ringEnergy θ x = (θ 0 * Real.cos x - (θ 0) ^ 2 * Real.sin x ^ 2) / 2 := by
  have d1 : ∀ y, HasDerivAt (ring θ) (Real.exp (θ 0 * Real.cos y) * (θ 0 * -Real.sin y)) y := fun y => ((Real.hasDerivAt_cos y).const_mul (θ 0)).exp
  have e1 : deriv (ring θ) = fun y => Real.exp (θ 0 * Real.cos y) * (θ 0 * -Real.sin y) := funext fun y => (d1 y).deriv
  have d2 : HasDerivAt (fun y => Real.exp (θ 0 * Real.cos y) * (θ 0 * -Real.sin y))
      (Real.exp (θ 0 * Real.cos x) * (θ 0 * -Real.sin x) * (θ 0 * -Real.sin x) + Real.exp (θ 0 * Real.cos x) * (θ 0 * -Real.cos x)) x :=
    (d1 x).mul (((Real.hasDerivAt_sin x).neg).const_mul (θ 0))
  unfold ringEnergy
  rw [e1, d2.deriv]
  unfold ring
  have := (Real.exp_pos (θ 0 * Real.cos x)).ne'
  field_simp
  ring

/-- Around `θ = 0`, the exact ground state, it is nearly exact. -/
theorem ring_near {R : ℝ} (hR : 0 ≤ R) : NearExact (Set.univ : Set ℝ) {θ : Fin 1 → ℝ | |θ 0| ≤ R} (fun θ x => (ring θ x : ℂ)) (fun _ _ x => (Real.cos x : ℂ))
    (fun θ x => (ringEnergy θ x : ℂ)) 0 ((R + R ^ 2) / 2) 0 1 where
  nodes θ _ x := by
    have h : ((ring θ x : ℝ) : ℂ) ≠ 0 := by
      rw [Complex.ofReal_ne_zero]
      exact (Real.exp_pos _).ne'
    simp only [Set.mem_univ, iff_true]
    exact h
  energy θ hθ x _ := by
    have hθ' : |θ 0| ≤ R := hθ
    simp only [Complex.ofReal_re, sub_zero]
    rw [ringEnergy_eq, abs_div, abs_two]
    have h1 : |θ 0 * Real.cos x| ≤ R := by
      rw [abs_mul]
      exact (mul_le_mul hθ' (Real.abs_cos_le_one x) (abs_nonneg _) hR).trans (by simp)
    have h2 : |(θ 0) ^ 2 * Real.sin x ^ 2| ≤ R ^ 2 := by
      rw [abs_of_nonneg (by positivity)]
      have a1 : (θ 0) ^ 2 ≤ R ^ 2 := sq_le_sq' (abs_le.1 hθ').1 (abs_le.1 hθ').2
      have a2 : Real.sin x ^ 2 ≤ 1 := Real.sin_sq_le_one x
      nlinarith [sq_nonneg (Real.sin x), sq_nonneg (θ 0)]
    have := (abs_sub (θ 0 * Real.cos x) ((θ 0) ^ 2 * Real.sin x ^ 2)).trans (add_le_add h1 h2)
    linarith
  phase θ _ x _ := by simp
  score θ _ x _ k := by
    simp only [Complex.norm_real, Real.norm_eq_abs]
    exact Real.abs_cos_le_one x

/-- From the ground state's neighbourhood: 100 steps with learning rate 1/1000, on two devices with three walkers each, starting at `θ = 1/10`:
the parameter moves by at most `1/10 · 4 · (3/10 + 9/100)/2`.  Starting at `θ = 0` it does not move at all. -/
example (cfg : Cfg) (r : RandomRng Ω Key N 3) (move : ℝ → N → ℝ → ℝ) (keys : ℕ → Fin 2 → Key) (x₀ : Ω → Fin 2 → Batch Unit 3 ℝ) (s : State) (ω : Ω) :
    |descended cfg r move (fun θ x => (ring θ x : ℂ)) "mad" 5 (fun _ => 1 / 1000) (fun _ _ x => (Real.cos x : ℂ)) (fun θ x => (ringEnergy θ x : ℂ)) keys x₀ (fun _ => 1 / 10) s ω 100 0 - 1 / 10|
        ≤ 78 / 1000 ∧
      ∀ t, descended cfg r move (fun θ x => (ring θ x : ℂ)) "mad" 5 (fun _ => 1 / 1000) (fun _ _ x => (Real.cos x : ℂ)) (fun θ x => (ringEnergy θ x : ℂ)) keys x₀ 0 s ω t = 0 := by
  have hne : ∀ (θ : Fin 1 → ℝ) (x : ℝ), ((ring θ x : ℝ) : ℂ) ≠ 0 := fun θ x => by
    rw [Complex.ofReal_ne_zero]
    exact (Real.exp_pos _).ne'
  constructor
  · have h := (c146_slow (ring_near (R := 3 / 10) (by norm_num)) "mad" (by simp) (scale := 5) (by norm_num) (d := 2) (n := 3) (by norm_num) (by norm_num) cfg r move keys x₀
      (fun _ => 1 / 10) s ω (fun i j => hne _ _) (R := 2 / 10) (by norm_num) (fun θ h => by
        show |θ 0| ≤ 3 / 10
        have := abs_le.1 (h 0)
        exact abs_le.2 ⟨by linarith, by linarith⟩) (η := fun _ => 1 / 1000) (fun _ => by norm_num) 100 (by simp; norm_num)).1 100 le_rfl 0
    refine h.trans ?_
    simp
    norm_num
  · intro t
    exact (c146_exact (E0 := 0) "mad" (by simp) 5 (by norm_num) (by norm_num) cfg r move keys x₀ 0 (fun x _ => by
      show ((ringEnergy 0 x : ℝ) : ℂ) = ((0 : ℝ) : ℂ)
      rw [ringEnergy_eq]
      simp) s ω (fun i j => hne _ _) (fun _ => 1 / 1000) t).1

/-- SR with momentum stays at the ground state too. -/
example (cfg : Cfg) (r : RandomRng Ω Key N 3) (move : ℝ → N → ℝ → ℝ) (keys : ℕ → Fin 2 → Key) (x₀ : Ω → Fin 2 → Batch Unit 3 ℝ) (s : State) (ω : Ω) (v0 : ℕ → SR.Row 2 3 2 → ℝ) (t : ℕ) :
    (trained cfg r move (fun τ x => (ring τ.1 x : ℂ)) (srUpdate ⟨fun _ => 1 / 1000, none, .standard, some fun _ => 9 / 10, none, false, 1 / 1000000, none, none⟩ (fun _ => 1 / 100) .none v0 "mad" 5
      (fun _ _ x => (Real.cos x : ℂ)) (fun θ x => (ringEnergy θ x : ℂ))) keys x₀ (0, (SR.init 1, 0)) s ω t).1 = 0 := by
  refine (c146_sr _ ⟨by norm_num, by simp, by simp, by simp, by intro t; norm_num, by simp⟩ (fun t => by norm_num) _ _ v0 (ψ := fun θ x => (ring θ x : ℂ)) (E0 := 0) "mad" (by simp) 5 (by norm_num)
    (by norm_num) cfg r move keys x₀ 0 (fun x _ => ?_) s ω (fun i j => ?_) t).1
  · show ((ringEnergy 0 x : ℝ) : ℂ) = ((0 : ℝ) : ℂ)
    rw [ringEnergy_eq]
    simp
  · show ((ring 0 _ : ℝ) : ℂ) ≠ 0
    rw [Complex.ofReal_ne_zero]
    exact (Real.exp_pos _).ne'

end Jaqmc.Average.Props
