import Verif.Lemmas.LaplacianCplx
import Verif.Model.LaplacianLinear
/-! Proof of C44 for the linear primitives. -/
namespace Jaqmc.Laplacian
open Spec Filter Topology

variable {κ : Type} [Fintype κ]

theorem put_shape : ∀ (as : List Arr) (y : NList as), (put as y).map Arr.shape = as.map Arr.shape
  | [], _ => rfl
  | .num t _ :: as, y => congrArg (Shape.num t :: ·) (put_shape as y.2)
  | .disc n v :: as, y => congrArg (Shape.disc n v :: ·) (put_shape as y)

theorem put_pt : ∀ as : List Arr, put as (pt as) = as
  | [] => rfl
  | .num t v :: as => congrArg (Arr.num t v :: ·) (put_pt as)
  | .disc n v :: as => congrArg (Arr.disc n v :: ·) (put_pt as)

noncomputable def coefR {n : ℕ} (out : ℕ) (c : ℕ → ℕ → ℝ) : (Fin n → ℝ) →L[ℝ] (Fin out → ℝ) :=
  ContinuousLinearMap.pi fun i => ∑ j : Fin n, c i j • ContinuousLinearMap.proj (R := ℝ) (φ := fun _ => ℝ) j

theorem coefR_apply {n : ℕ} (out : ℕ) (c : ℕ → ℕ → ℝ) (v : Fin n → ℝ) (i : Fin out) : coefR out c v i = ∑ j : Fin n, c i j * v j := by
  simp [coefR]

noncomputable def coefC {n : ℕ} (out : ℕ) (c : ℕ → ℕ → ℝ) : (Fin n → ℂ) →L[ℝ] (Fin out → ℂ) :=
  ContinuousLinearMap.pi fun i => ∑ j : Fin n, c i j • ContinuousLinearMap.proj (R := ℝ) (φ := fun _ => ℂ) j

theorem coefC_apply {n : ℕ} (out : ℕ) (c : ℕ → ℕ → ℝ) (v : Fin n → ℂ) (i : Fin out) :
    coefC out c v i = ∑ j : Fin n, (c i j : ℂ) * v j := by
  simp [coefC]

theorem linR_clm (c : ℕ → ℕ → ℕ → ℝ) (out : ℕ) : ∀ (as : List Arr) (p : ℕ) (w : Fin out → ℝ), linR c out p as = .ok w →
    ∃ A : NList as →L[ℝ] (Fin out → ℝ), ∀ y, linR c out p (put as y) = .ok (A y)
  | [], p, w, _ => ⟨0, fun _ => rfl⟩
  | .disc n v :: as, p, w, h => linR_clm c out as (p + 1) w h
  | .num (.cplx n) v :: as, p, w, h => by cases h
  | .num (.real n) v :: as, p, w, h => by
    cases hr : linR c out (p + 1) as with
    | error e => simp only [linR, hr, Except.map] at h; cases h
    | ok w' =>
      obtain ⟨A, hA⟩ := linR_clm c out as (p + 1) w' hr
      let B : Space (.real n) × NList as →L[ℝ] (Fin out → ℝ) :=
        ((coefR (n := n) out (c p)).comp (ContinuousLinearMap.fst ℝ (Fin n → ℝ) (NList as))) + A.comp (ContinuousLinearMap.snd ℝ (Fin n → ℝ) (NList as))
      refine ⟨B, fun y => ?_⟩
      show (linR c out (p + 1) (put as y.2)).map _ = _
      simp only [hA y.2, Except.map]
      congr 1
      funext i
      exact congrArg (· + A y.2 i) (coefR_apply (n := n) out (c p) y.1 i).symm

theorem linC_clm (c : ℕ → ℕ → ℕ → ℝ) (out : ℕ) : ∀ (as : List Arr) (p : ℕ) (w : Fin out → ℂ), linC c out p as = .ok w →
    ∃ A : NList as →L[ℝ] (Fin out → ℂ), ∀ y, linC c out p (put as y) = .ok (A y)
  | [], p, w, _ => ⟨0, fun _ => rfl⟩
  | .disc n v :: as, p, w, h => linC_clm c out as (p + 1) w h
  | .num (.real n) v :: as, p, w, h => by cases h
  | .num (.cplx n) v :: as, p, w, h => by
    cases hr : linC c out (p + 1) as with
    | error e => simp only [linC, hr, Except.map] at h; cases h
    | ok w' =>
      obtain ⟨A, hA⟩ := linC_clm c out as (p + 1) w' hr
      let B : Space (.cplx n) × NList as →L[ℝ] (Fin out → ℂ) :=
        ((coefC (n := n) out (c p)).comp (ContinuousLinearMap.fst ℝ (Fin n → ℂ) (NList as))) + A.comp (ContinuousLinearMap.snd ℝ (Fin n → ℂ) (NList as))
      refine ⟨B, fun y => ?_⟩
      show (linC c out (p + 1) (put as y.2)).map _ = _
      simp only [hA y.2, Except.map]
      congr 1
      funext i
      exact congrArg (· + A y.2 i) (coefC_apply (n := n) out (c p) y.1 i).symm

/-- A linear primitive is affine wherever it is defined. -/
theorem lin_affine (lay : Layout) (as r : List Arr) (h : linBind lay as = .ok r) : AffineAt (linBind lay) as := by
  unfold linBind at h
  cases hl : lay (as.map Arr.shape) with
  | error e => simp only [hl] at h; cases h
  | ok oc =>
    obtain ⟨out, c⟩ := oc
    simp only [hl] at h
    by_cases hc : (as.map Arr.shape).any Shape.isCplx
    · rw [if_pos hc] at h
      cases hw : linC c out 0 as with
      | error e => simp only [hw, Except.map] at h; cases h
      | ok w =>
        obtain ⟨A, hA⟩ := linC_clm c out as 0 w hw
        refine ⟨.cplx out, A, (0 : Fin out → ℂ), Eventually.of_forall fun y => ?_⟩
        unfold linBind
        simp only [put_shape, hl, if_pos hc, hA y, Except.map]
        congr 3
        exact (add_zero (A y)).symm
    · rw [if_neg hc] at h
      cases hw : linR c out 0 as with
      | error e => simp only [hw, Except.map] at h; cases h
      | ok w =>
        obtain ⟨A, hA⟩ := linR_clm c out as 0 w hw
        refine ⟨.real out, A, (0 : Fin out → ℝ), Eventually.of_forall fun y => ?_⟩
        unfold linBind
        simp only [put_shape, hl, if_neg hc, hA y, Except.map]
        congr 3
        exact (add_zero (A y)).symm

/-- `wrap_linear` is sound as soon as success of the primitive implies local affinity. -/
theorem linear_sound_of (bind : List Arr → Except String (List Arr)) (h : ∀ as r, bind as = .ok r → AffineAt bind as) :
    SoundFor (κ := κ) bind (wrapLinear bind) fun _ => True := by
  intro γs vs hd _ outs ho
  cases hb : bind (vs.map TVal.primal) with
  | error e => simp only [wrapLinear, hb] at ho; cases ho
  | ok r => exact linear_sound bind γs vs hd (h _ r hb) outs ho

theorem lin_sound (lay : Layout) : SoundFor (κ := κ) (linBind lay) (wrapLinear (linBind lay)) fun _ => True :=
  linear_sound_of _ (lin_affine lay)

/-! ### add -/

noncomputable def bcL (𝕜 : Type) [NormedAddCommGroup 𝕜] [NormedSpace ℝ 𝕜] {n s : ℕ} : (Fin n → 𝕜) →L[ℝ] (Fin s → 𝕜) :=
  ContinuousLinearMap.pi fun i => if h : n = 1 then ContinuousLinearMap.proj (R := ℝ) (φ := fun _ => 𝕜) (⟨0, by omega⟩ : Fin n)
    else if h : i.val < n then ContinuousLinearMap.proj (R := ℝ) (φ := fun _ => 𝕜) (⟨i.val, h⟩ : Fin n) else 0

theorem bcL_apply {𝕜 : Type} [NormedAddCommGroup 𝕜] [NormedSpace ℝ 𝕜] {n s : ℕ} (v : Fin n → 𝕜) (i : Fin s) : bcL 𝕜 v i = bc v i := by
  unfold bcL bc
  simp only [ContinuousLinearMap.pi_apply]
  split
  · rfl
  · split <;> rfl

theorem add_affine (as r : List Arr) (h : addBind as = .ok r) : AffineAt addBind as := by
  match as, h with
  | [.num (.real n) u, .num (.real m) v], h =>
    cases hs : bsize n m with
    | none => simp only [addBind, bindBin, Arr.real?, elementwise2, hs] at h; cases h
    | some s =>
      let B : Space (.real n) × Space (.real m) × PUnit →L[ℝ] (Fin s → ℝ) :=
        (bcL ℝ (n := n)).comp (ContinuousLinearMap.fst ℝ (Fin n → ℝ) ((Fin m → ℝ) × PUnit)) +
          (bcL ℝ (n := m)).comp ((ContinuousLinearMap.fst ℝ (Fin m → ℝ) PUnit).comp (ContinuousLinearMap.snd ℝ (Fin n → ℝ) ((Fin m → ℝ) × PUnit)))
      refine ⟨.real s, B, (0 : Fin s → ℝ), Eventually.of_forall fun y => ?_⟩
      show addBind [.num (.real n) y.1, .num (.real m) y.2.1] = _
      simp only [addBind, bindBin, Arr.real?, elementwise2, hs, Except.map]
      refine congrArg (fun w : Fin s → ℝ => Except.ok [Arr.num (.real s) w]) (funext fun i : Fin s => ?_)
      exact ((add_zero _).trans (congrArg₂ (· + ·) (bcL_apply (n := n) y.1 i) (bcL_apply (n := m) y.2.1 i))).symm
  | [.num (.cplx n) u, .num (.cplx m) v], h =>
    cases hs : bsize n m with
    | none => simp only [addBind, bindBin, Arr.real?, Arr.cplx?, elementwise2, hs] at h; cases h
    | some s =>
      let B : Space (.cplx n) × Space (.cplx m) × PUnit →L[ℝ] (Fin s → ℂ) :=
        (bcL ℂ (n := n)).comp (ContinuousLinearMap.fst ℝ (Fin n → ℂ) ((Fin m → ℂ) × PUnit)) +
          (bcL ℂ (n := m)).comp ((ContinuousLinearMap.fst ℝ (Fin m → ℂ) PUnit).comp (ContinuousLinearMap.snd ℝ (Fin n → ℂ) ((Fin m → ℂ) × PUnit)))
      refine ⟨.cplx s, B, (0 : Fin s → ℂ), Eventually.of_forall fun y => ?_⟩
      show addBind [.num (.cplx n) y.1, .num (.cplx m) y.2.1] = _
      simp only [addBind, bindBin, Arr.real?, Arr.cplx?, elementwise2, hs, Except.map]
      refine congrArg (fun w : Fin s → ℂ => Except.ok [Arr.num (.cplx s) w]) (funext fun i : Fin s => ?_)
      exact ((add_zero _).trans (congrArg₂ (· + ·) (bcL_apply (n := n) y.1 i) (bcL_apply (n := m) y.2.1 i))).symm
  | [], h => cases h
  | [_], h => cases h
  | _ :: _ :: _ :: _, h => cases h
  | [.num (.real n) u, .num (.cplx m) v], h => cases h
  | [.num (.cplx n) u, .num (.real m) v], h => cases h
  | [.num (.real n) u, .disc m v], h => cases h
  | [.num (.cplx n) u, .disc m v], h => cases h
  | [.disc n u, .num (.real m) v], h => cases h
  | [.disc n u, .num (.cplx m) v], h => cases h
  | [.disc n u, .disc m v], h => cases h

theorem add_sound : SoundFor (κ := κ) addBind addRule fun _ => True := linear_sound_of _ add_affine

end Jaqmc.Laplacian
