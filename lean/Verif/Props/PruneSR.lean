import Verif.Model.PruneSR
import Verif.Lemmas.SR
import Verif.Spec.SR
import Mathlib.Tactic
/-!
C122: stochastic reconfiguration on the active parameters only.
-/
namespace Jaqmc.PruneSR.Props
open Jaqmc.SR Jaqmc.SR.Lemmas Jaqmc.PruneSR Matrix
open scoped Classical

variable {dev m k P Q : ℕ}

/-- The state of the optimizer of the network that has only the active parameters. -/
def restrict (e : Fin Q → Fin P) (st : State P) : State Q := ⟨st.counter, fun q => st.prevDelta (e q), fun q => st.accVar (e q)⟩

theorem setIdx_on {e : Fin Q → Fin P} (he : Function.Injective e) (x : Fin P → ℝ) (val : Fin Q → ℝ) (q : Fin Q) : setIdx x e val (e q) = val q := by
  unfold setIdx
  have h : ∃ q', e q' = e q := ⟨q, rfl⟩
  rw [dif_pos h, he h.choose_spec]

theorem setIdx_off {e : Fin Q → Fin P} (x : Fin P → ℝ) (val : Fin Q → ℝ) (j : Fin P) (hj : ∀ q, e q ≠ j) : setIdx x e val j = x j := by
  unfold setIdx
  rw [dif_neg]
  rintro ⟨q, hq⟩; exact hj q hq

theorem prunedUpdate_eq (C : Config) (v0 : Row dev m k → ℝ) (e : Fin Q → Fin P) (raw : Raw dev m k P) (grad : Fin P → ℝ) (st : State P) (hQ : Q ≠ 0) :
    ∃ o, prunedUpdate C v0 e raw grad st = some o ∧
      o.1 = setIdx (fun j => getGamma C st.counter (lamP C v0 (score C.clip fun d i a => getIdx (raw d i a) e)
          (getIdx (scaleP C (accP C e (score C.clip fun d i a => getIdx (raw d i a) e) st)) e) st.counter) *
            (scaleP C (accP C e (score C.clip fun d i a => getIdx (raw d i a) e) st) j * grad j) + momentum C st j) e
        (deltaActive C v0 (score C.clip fun d i a => getIdx (raw d i a) e) (getIdx (scaleP C (accP C e (score C.clip fun d i a => getIdx (raw d i a) e) st)) e)
          (getIdx (fun j => scaleP C (accP C e (score C.clip fun d i a => getIdx (raw d i a) e) st) j * grad j) e) (getIdx (momentum C st) e) st.counter) ∧
      o.2 = ⟨st.counter + 1, o.1, accNew C (accP C e (score C.clip fun d i a => getIdx (raw d i a) e) st) o.1 st⟩ := by
  unfold prunedUpdate
  rw [if_neg hQ]
  exact ⟨_, rfl, rfl, rfl⟩

/-- `update` in the same terms. -/
theorem update_eq (C : Config) (v0 : Row dev m k → ℝ) (raw : Raw dev m k P) (grad : Fin P → ℝ) (st : State P) :
    (update C v0 raw grad st).1 = deltaActive C v0 (score C.clip raw) (scaleOf C (score C.clip raw) st) (fun j => scaleOf C (score C.clip raw) st j * grad j)
      (momentum C st) st.counter ∧
    (update C v0 raw grad st).2 = ⟨st.counter + 1, (update C v0 raw grad st).1, accNew C (accVar C (score C.clip raw) st) (update C v0 raw grad st).1 st⟩ := by
  refine ⟨rfl, ?_⟩
  have : (update C v0 raw grad st).2.accVar = accNew C (accVar C (score C.clip raw) st) (update C v0 raw grad st).1 st := by
    funext j
    unfold accNew update
    dsimp only
    cases C.beta with
    | none => rfl
    | some b =>
      dsimp only
      split_ifs <;> rfl
  rw [← this]
  rfl

/-- C122: pruning fails when every parameter is pruned, and only then. -/
theorem c122_all_pruned (C : Config) (v0 : Row dev m k → ℝ) (e : Fin Q → Fin P) (raw : Raw dev m k P) (grad : Fin P → ℝ) (st : State P) :
    prunedUpdate C v0 e raw grad st = none ↔ Q = 0 := by
  unfold prunedUpdate
  by_cases h : Q = 0
  · simp [h]
  · simp [h]

theorem accP_on (C : Config) {e : Fin Q → Fin P} (he : Function.Injective e) (O : Matrix (Row dev m k) (Fin Q) ℝ) (st : State P) (q : Fin Q) :
    accP C e O st (e q) = accVar C O (restrict e st) q := by
  unfold accP accVar
  cases C.beta with
  | none => rfl
  | some b =>
    dsimp only
    by_cases hv : C.varMode
    · rw [if_pos hv, if_pos hv, setIdx_on he]; rfl
    · rw [if_neg hv, if_neg hv]; rfl

theorem scaleP_on (C : Config) {e : Fin Q → Fin P} (he : Function.Injective e) (O : Matrix (Row dev m k) (Fin Q) ℝ) (st : State P) (q : Fin Q) :
    scaleP C (accP C e O st) (e q) = scaleOf C O (restrict e st) q := by
  unfold scaleP scaleOf
  rw [accP_on C he]
  cases C.beta <;> rfl

/-- C122: on the active parameters the step and the state are those of the network that has only these parameters, whatever the options. -/
theorem c122_restrict (C : Config) (v0 : Row dev m k → ℝ) (e : Fin Q → Fin P) (he : Function.Injective e) (raw : Raw dev m k P) (grad : Fin P → ℝ) (st : State P)
    (o : (Fin P → ℝ) × State P) (ho : prunedUpdate C v0 e raw grad st = some o) :
    (fun q => o.1 (e q), restrict e o.2) = update C v0 (fun d i a q => raw d i a (e q)) (fun q => grad (e q)) (restrict e st) := by
  have hQ : Q ≠ 0 := fun h => by rw [(c122_all_pruned C v0 e raw grad st).mpr h] at ho; cases ho
  obtain ⟨o', h', h1, h2⟩ := prunedUpdate_eq C v0 e raw grad st hQ
  rw [ho] at h'
  cases h'
  obtain ⟨u1, u2⟩ := update_eq C v0 (fun d i a q => raw d i a (e q)) (fun q => grad (e q)) (restrict e st)
  have hs : ∀ O : Matrix (Row dev m k) (Fin Q) ℝ, getIdx (scaleP C (accP C e O st)) e = scaleOf C O (restrict e st) := fun O => funext (scaleP_on C he O st)
  have e1 : (fun q => o.1 (e q)) = (update C v0 (fun d i a q => raw d i a (e q)) (fun q => grad (e q)) (restrict e st)).1 := by
    rw [u1]
    funext q
    rw [h1, setIdx_on he, hs]
    congr 1
    · funext q; simp only [getIdx]; rw [scaleP_on C he]; rfl
  refine Prod.ext e1 ?_
  rw [u2, h2, ← e1]
  simp only [restrict]
  congr 1
  funext q
  unfold accNew
  rw [accP_on C he]
  rfl

theorem sum_active {e : Fin Q → Fin P} (he : Function.Injective e) (f : Fin P → ℝ) (h0 : ∀ j, (∀ q, e q ≠ j) → f j = 0) : ∑ j, f j = ∑ q, f (e q) := by
  refine (Fintype.sum_of_injective e he _ _ (fun j hj => h0 j fun q hq => hj ⟨q, hq⟩) fun _ => rfl).symm

theorem score_on (e : Fin Q → Fin P) (raw : Raw dev m k P) (r : Row dev m k) (q : Fin Q) :
    score none (fun d i a => getIdx (raw d i a) e) r q = score none raw r (e q) := by
  simp [score, rescale, meanScore, getIdx]

theorem score_off (raw : Raw dev m k P) (j : Fin P) (h : ∀ d i a, raw d i a j = 0) (r : Row dev m k) : score none raw r j = 0 := by
  simp [score, rescale, meanScore, h]

theorem normalize_on {e : Fin Q → Fin P} (he : Function.Injective e) (v : Fin P → ℝ) (eps : ℝ) (heps : 0 ≤ eps) (h0 : ∀ j, (∀ q, e q ≠ j) → v j = 0) (q : Fin Q) :
    normalizeMasked (fun q => v (e q)) (fun q => v (e q) > eps) q = normalizeMasked v (fun j => v j > eps) (e q) := by
  unfold normalizeMasked
  have hm : ∀ j, (∀ q, e q ≠ j) → ¬ v j > eps := fun j hj => by rw [h0 j hj]; exact not_lt.mpr heps
  rw [sum_active he (fun j => if v j > eps then v j else 0) fun j hj => if_neg (hm j hj),
    sum_active he (fun j => if v j > eps then (1 : ℝ) else 0) fun j hj => if_neg (hm j hj)]

theorem accP_same (C : Config) (heps : 0 ≤ C.eps) {e : Fin Q → Fin P} (he : Function.Injective e) (O : Matrix (Row dev m k) (Fin P) ℝ)
    (h0 : ∀ j, (∀ q, e q ≠ j) → ∀ r, O r j = 0) (st : State P) : accP C e (O.submatrix id e) st = accVar C O st := by
  funext j
  by_cases hj : ∃ q, e q = j
  · obtain ⟨q, rfl⟩ := hj
    rw [accP_on C he]
    unfold accVar
    cases C.beta with
    | none => rfl
    | some b =>
      dsimp only
      by_cases h1 : C.varMode
      · rw [if_pos h1, if_pos h1]
        refine if_congr Iff.rfl ?_ rfl
        have := normalize_on he (fun j => ∑ r, O r j ^ 2) C.eps heps (fun j hj => Finset.sum_eq_zero fun r _ => by rw [h0 j hj r]; ring) q
        rw [← this]; rfl
      · rw [if_neg h1, if_neg h1]; rfl
  · have hj' : ∀ q, e q ≠ j := fun q hq => hj ⟨q, hq⟩
    unfold accP accVar
    cases C.beta with
    | none => rfl
    | some b =>
      dsimp only
      by_cases hv : C.varMode
      · have hz : ∑ r, O r j ^ 2 = 0 := Finset.sum_eq_zero fun r _ => by rw [h0 j hj' r]; ring
        rw [if_pos hv, if_pos hv, setIdx_off _ _ _ hj', if_neg (by rw [hz]; exact not_lt.mpr heps)]
      · rw [if_neg hv, if_neg hv]

theorem scaleP_nonneg (C : Config) (acc : Fin P → ℝ) (j : Fin P) : 0 ≤ scaleP C acc j := by
  unfold scaleP
  cases C.beta with
  | none => norm_num
  | some b => dsimp only; positivity

theorem gram_same (chunks : Option ℕ) (hn : ∀ n, chunks = some n → 0 < n) {e : Fin Q → Fin P} (he : Function.Injective e) (O : Matrix (Row dev m k) (Fin P) ℝ)
    (h0 : ∀ j, (∀ q, e q ≠ j) → ∀ r, O r j = 0) (scale : Fin P → ℝ) (hs : ∀ j, 0 ≤ scale j) : gram chunks (O.submatrix id e) (getIdx scale e) = gram chunks O scale := by
  funext r t
  have hd : 0 < dev := r.1.pos
  rw [gram_eq chunks hn (O.submatrix id e) (getIdx scale e) (fun q => hs (e q)) hd, gram_eq chunks hn _ _ hs hd, sum_active he _ fun j hj => by rw [h0 j hj]; ring]
  rfl

theorem mulVec_same {e : Fin Q → Fin P} (he : Function.Injective e) (O : Matrix (Row dev m k) (Fin P) ℝ) (h0 : ∀ j, (∀ q, e q ≠ j) → ∀ r, O r j = 0) (v : Fin P → ℝ) :
    O.submatrix id e *ᵥ getIdx v e = O *ᵥ v := by
  funext r
  simp only [mulVec, dotProduct]
  rw [sum_active he (fun j => O r j * v j) fun j hj => by rw [h0 j hj]; ring]
  rfl

theorem delta_same (C : Config) (hn : ∀ n, C.chunks = some n → 0 < n) (v0 : Row dev m k → ℝ) {e : Fin Q → Fin P} (he : Function.Injective e) (O : Matrix (Row dev m k) (Fin P) ℝ)
    (h0 : ∀ j, (∀ q, e q ≠ j) → ∀ r, O r j = 0) (scale sg p : Fin P → ℝ) (hs : ∀ j, 0 ≤ scale j) (count : ℕ) :
    setIdx (fun j => getGamma C count (lamP C v0 (O.submatrix id e) (getIdx scale e) count) * sg j + p j) e
      (deltaActive C v0 (O.submatrix id e) (getIdx scale e) (getIdx sg e) (getIdx p e) count) = deltaActive C v0 O scale sg p count := by
  have hl : lamP C v0 (O.submatrix id e) (getIdx scale e) count = lamP C v0 O scale count := by unfold lamP; rw [gram_same C.chunks hn he O h0 scale hs]
  funext j
  by_cases hj : ∃ q, e q = j
  · obtain ⟨q, rfl⟩ := hj
    rw [setIdx_on he]
    unfold deltaActive
    rw [hl, gram_same C.chunks hn he O h0 scale hs, mulVec_same he O h0, mulVec_same he O h0]
    rfl
  · have hj' : ∀ q, e q ≠ j := fun q hq => hj ⟨q, hq⟩
    rw [setIdx_off _ _ _ hj', hl]
    unfold deltaActive
    have : ∀ z : Row dev m k → ℝ, (Oᵀ *ᵥ z) j = 0 := fun z => by
      simp only [mulVec, dotProduct, transpose_apply]
      exact Finset.sum_eq_zero fun r _ => by rw [h0 j hj' r]; ring
    rw [this]
    ring

/-- C122: without clipping of the scores, when the wavefunction does not depend on the pruned parameters (their scores vanish) pruning changes neither the step nor the state. -/
theorem c122_same (C : Config) (hC : Spec.Valid C) (hclip : C.clip = none) (v0 : Row dev m k → ℝ) (e : Fin Q → Fin P) (he : Function.Injective e) (hQ : 0 < Q)
    (raw : Raw dev m k P) (hz : ∀ j, (∀ q, e q ≠ j) → ∀ d i a, raw d i a j = 0) (grad : Fin P → ℝ) (st : State P) :
    prunedUpdate C v0 e raw grad st = some (update C v0 raw grad st) := by
  obtain ⟨o, h, h1, h2⟩ := prunedUpdate_eq C v0 e raw grad st (by omega)
  obtain ⟨u1, u2⟩ := update_eq C v0 raw grad st
  have hO : (score C.clip fun d i a => getIdx (raw d i a) e) = (score C.clip raw).submatrix id e := by
    rw [hclip]; funext r q; exact score_on e raw r q
  have h0 : ∀ j, (∀ q, e q ≠ j) → ∀ r, score C.clip raw r j = 0 := fun j hj r => by rw [hclip]; exact score_off raw j (hz j hj) r
  have hA := accP_same C hC.eps.le he (score C.clip raw) h0 st
  have hS : scaleP C (accVar C (score C.clip raw) st) = scaleOf C (score C.clip raw) st := by
    funext j; unfold scaleP scaleOf; cases C.beta <;> rfl
  rw [hO, hA, hS] at h1
  rw [hO, hA] at h2
  have e1 : o.1 = (update C v0 raw grad st).1 := by
    rw [h1, u1]
    refine delta_same C hC.chunks v0 he _ h0 _ _ _ (fun j => ?_) _
    rw [← hS]; exact scaleP_nonneg C _ j
  rw [h, Option.some.injEq]
  refine Prod.ext e1 ?_
  rw [h2, u2, e1]

/-- C122: a pruned parameter moves along its gradient and momentum only; with neither it stays. -/
theorem c122_pruned_stays (C : Config) (v0 : Row dev m k → ℝ) (e : Fin Q → Fin P) (raw : Raw dev m k P) (grad : Fin P → ℝ) (st : State P)
    (o : (Fin P → ℝ) × State P) (ho : prunedUpdate C v0 e raw grad st = some o) (j : Fin P) (hj : ∀ q, e q ≠ j) (hg : grad j = 0) (hp : st.prevDelta j = 0) :
    o.1 j = 0 ∧ o.2.prevDelta j = 0 := by
  have hQ : Q ≠ 0 := fun h => by rw [(c122_all_pruned C v0 e raw grad st).mpr h] at ho; cases ho
  obtain ⟨o', h', h1, h2⟩ := prunedUpdate_eq C v0 e raw grad st hQ
  rw [ho] at h'
  cases h'
  have : o.1 j = 0 := by
    rw [h1, setIdx_off _ _ _ hj, hg]
    unfold momentum
    cases C.mu <;> simp [hp]
  exact ⟨this, by rw [h2]; exact this⟩

/-! ### Clipping -/

/-- Options with clipping of the scores at 1. -/
noncomputable def clipConfig : Config := ⟨fun _ => 1, none, .standard, none, some fun _ => 0, true, 1 / 1000, some 1, none⟩

/-- Scores of two samples for three parameters, of which the last is inactive. -/
def clipRaw : Raw 1 2 1 3 := fun _ i _ j => if i = 0 then ![1, 2, 0] j else ![1, 0, 0] j

/-- The first two parameters. -/
def firstTwo (q : Fin 2) : Fin 3 := q.castSucc

theorem sq1 : Real.sqrt (1 ^ 2) = 1 := by norm_num
theorem sq2 : Real.sqrt (2 ^ 2) = 2 := Real.sqrt_sq (by norm_num)

theorem rescale_full (d : Fin 1) (i : Fin 2) : rescale (some 1) clipRaw d i = 1 := by
  fin_cases i
  · simp [rescale, clipRaw, Fin.sum_univ_succ]
    norm_num
  · simp [rescale, clipRaw, Fin.sum_univ_succ]

theorem rescale_pruned (d : Fin 1) (i : Fin 2) : rescale (some 1) (fun d i a => getIdx (clipRaw d i a) firstTwo) d i = if i = 0 then 2 / 3 else 1 := by
  fin_cases i
  · simp [rescale, clipRaw, Fin.sum_univ_succ, getIdx, firstTwo]
    norm_num
  · simp [rescale, clipRaw, Fin.sum_univ_succ, getIdx, firstTwo]

/-- C122: with clipping of the scores the result depends on pruning, because the clipped mean runs over the active parameters only. -/
theorem c122_clip_counterexample : Spec.Valid clipConfig ∧ (∀ j, (∀ q, firstTwo q ≠ j) → ∀ d i a, clipRaw d i a j = 0) ∧
    ∀ (v0 : Row 1 2 1 → ℝ) (grad : Fin 3 → ℝ), ∃ o, prunedUpdate clipConfig v0 firstTwo clipRaw grad (init 3) = some o ∧
      o.2.accVar ≠ (update clipConfig v0 clipRaw grad (init 3)).2.accVar := by
  refine ⟨⟨by norm_num [clipConfig], by intro c h; simp [clipConfig] at h; linarith, by intro b h; simp [clipConfig] at h; subst h; simp, by simp [clipConfig], by simp [clipConfig],
    by simp [clipConfig]⟩, ?_, fun v0 grad => ?_⟩
  · intro j hj d i a
    have : j = 2 := by
      fin_cases j
      · exact absurd rfl (hj 0)
      · exact absurd rfl (hj 1)
      · rfl
    subst this
    simp [clipRaw]
  · obtain ⟨o, h, _, h2⟩ := prunedUpdate_eq clipConfig v0 firstTwo clipRaw grad (init 3) (by norm_num)
    refine ⟨o, h, fun hc => ?_⟩
    have he : Function.Injective firstTwo := Fin.castSucc_injective 2
    have hc := congrFun hc (firstTwo 0)
    rw [(update_eq clipConfig v0 clipRaw grad (init 3)).2, h2] at hc
    have e1 : ∀ acc delta : Fin 3 → ℝ, accNew clipConfig acc delta (init 3) (firstTwo 0) = acc (firstTwo 0) := fun _ _ => rfl
    simp only [e1, accP_on clipConfig he] at hc
    have s0 : ∀ r : Row 1 2 1, score clipConfig.clip clipRaw r (firstTwo 0) = 0 := by
      intro r
      have : clipConfig.clip = some 1 := rfl
      simp only [this, score, meanScore, rescale_full]
      obtain ⟨a, b, c⟩ := r
      fin_cases b <;> simp [clipRaw, firstTwo]
    have hF : accVar clipConfig (score clipConfig.clip clipRaw) (init 3) (firstTwo 0) = 1 := by
      have z : ∑ r : Row 1 2 1, score clipConfig.clip clipRaw r (firstTwo 0) ^ 2 = 0 := Finset.sum_eq_zero fun r _ => by rw [s0]; ring
      unfold accVar
      rw [show clipConfig.beta = some fun _ => 0 from rfl]
      dsimp only
      refine (if_pos (show clipConfig.varMode = true from rfl)).trans ((if_neg (show ¬ ∑ r : Row 1 2 1, score clipConfig.clip clipRaw r (firstTwo 0) ^ 2 > clipConfig.eps from ?_)).trans rfl)
      rw [z]; norm_num [clipConfig]
    have hP : accVar clipConfig (score clipConfig.clip fun d i a => getIdx (clipRaw d i a) firstTwo) (restrict firstTwo (init 3)) 0 = 2 / 17 := by
      have q0 : ∀ r : Row 1 2 1, score clipConfig.clip (fun d i a => getIdx (clipRaw d i a) firstTwo) r 0 ^ 2 = 1 / 72 := by
        rintro ⟨a, b, c⟩
        have : clipConfig.clip = some 1 := rfl
        simp only [this, score, meanScore, rescale_pruned, div_pow]
        rw [Real.sq_sqrt (by positivity)]
        fin_cases b <;> simp [clipRaw, firstTwo, getIdx] <;> norm_num
      have q1 : ∀ r : Row 1 2 1, score clipConfig.clip (fun d i a => getIdx (clipRaw d i a) firstTwo) r 1 ^ 2 = 2 / 9 := by
        rintro ⟨a, b, c⟩
        have : clipConfig.clip = some 1 := rfl
        simp only [this, score, meanScore, rescale_pruned, div_pow]
        rw [Real.sq_sqrt (by positivity)]
        fin_cases b <;> simp [clipRaw, firstTwo, getIdx] <;> norm_num
      have v0' : ∑ r : Row 1 2 1, score clipConfig.clip (fun d i a => getIdx (clipRaw d i a) firstTwo) r 0 ^ 2 = 1 / 36 := by
        simp only [q0]; norm_num
      have v1' : ∑ r : Row 1 2 1, score clipConfig.clip (fun d i a => getIdx (clipRaw d i a) firstTwo) r 1 ^ 2 = 4 / 9 := by
        simp only [q1]; norm_num
      unfold accVar normalizeMasked
      simp only [Fin.sum_univ_two, v0', v1']
      norm_num [clipConfig, v0', v1']
    rw [hF, hP] at hc
    norm_num at hc

/-! ### A case that meets the hypotheses -/

/-- Options without clipping. -/
noncomputable def plainConfig : Config := ⟨fun _ => 1, some 10, .sqrt, some fun _ => 1 / 2, some fun _ => 1 / 2, true, 1 / 1000, none, some 4⟩

example (v0 : Row 1 2 1 → ℝ) (grad : Fin 3 → ℝ) (st : State 3) : prunedUpdate plainConfig v0 firstTwo clipRaw grad st = some (update plainConfig v0 clipRaw grad st) :=
  c122_same plainConfig ⟨by norm_num [plainConfig], by simp [plainConfig], by intro b h; simp [plainConfig] at h; subst h; norm_num,
    by intro n h; simp [plainConfig] at h; omega, by simp [plainConfig], by intro c h; simp [plainConfig] at h; linarith⟩ rfl v0 firstTwo (Fin.castSucc_injective 2) (by norm_num) clipRaw
    c122_clip_counterexample.2.1 grad st

end Jaqmc.PruneSR.Props
