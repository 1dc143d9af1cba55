import Mathlib.Analysis.Calculus.FDeriv.Symmetric
import Verif.Lemmas.Laplacian
import Verif.Spec.LaplacianProg
/-! Proof of C44 for the generic handlers. -/
namespace Jaqmc.Laplacian
open Spec Filter Topology

variable {κ : Type} [Fintype κ]

theorem merge_xs : ∀ vs : List (TVal κ), merge vs (xs vs) = vs.map TVal.primal
  | [] => rfl
  | .plain a :: vs => congrArg (a :: ·) (merge_xs vs)
  | .tracked t a :: vs => congrArg (Arr.num t a.x :: ·) (merge_xs vs)

/-- The tracked values among all floating-point values. -/
def emb : ∀ vs : List (TVal κ), TList vs → NList (vs.map TVal.primal)
  | [], _ => PUnit.unit
  | .plain (.num _ v) :: vs, y => (v, emb vs y)
  | .plain (.disc _ _) :: vs, y => emb vs y
  | .tracked _ _ :: vs, y => (y.1, emb vs y.2)

/-- Its linear part. -/
noncomputable def embL : ∀ vs : List (TVal κ), TList vs →L[ℝ] NList (vs.map TVal.primal)
  | [] => ContinuousLinearMap.id ℝ PUnit
  | .plain (.num t _) :: vs => ((0 : TList vs →L[ℝ] Space t).prod (embL vs) : TList vs →L[ℝ] Space t × _)
  | .plain (.disc _ _) :: vs => embL vs
  | .tracked t _ :: vs => ((ContinuousLinearMap.fst ℝ (Space t) (TList vs)).prod
      ((embL vs).comp (ContinuousLinearMap.snd ℝ (Space t) (TList vs))) : Space t × TList vs →L[ℝ] Space t × _)

theorem put_emb : ∀ (vs : List (TVal κ)) (y : TList vs), put (vs.map TVal.primal) (emb vs y) = merge vs y
  | [], _ => rfl
  | .plain (.num t v) :: vs, y => congrArg (Arr.num t v :: ·) (put_emb vs y)
  | .plain (.disc n v) :: vs, y => congrArg (Arr.disc n v :: ·) (put_emb vs y)
  | .tracked t _ :: vs, y => congrArg (Arr.num t y.1 :: ·) (put_emb vs y.2)

theorem emb_xs : ∀ vs : List (TVal κ), emb vs (xs vs) = pt (vs.map TVal.primal)
  | [] => rfl
  | .plain (.num _ v) :: vs => congrArg (Prod.mk v) (emb_xs vs)
  | .plain (.disc _ _) :: vs => emb_xs vs
  | .tracked _ a :: vs => congrArg (Prod.mk a.x) (emb_xs vs)

theorem emb_eq : ∀ (vs : List (TVal κ)) (y : TList vs), emb vs y = embL vs y + emb vs 0
  | [], _ => rfl
  | .plain (.num t v) :: vs, y => by
    show ((v, emb vs y) : Space t × _) = ((0 : Space t), embL vs y) + (v, emb vs 0)
    rw [Prod.mk_add_mk, zero_add, emb_eq vs y]
  | .plain (.disc _ _) :: vs, y => emb_eq vs y
  | .tracked t _ :: vs, y => by
    show ((y.1, emb vs y.2) : Space t × _) = (y.1, embL vs y.2) + ((0 : Space t), emb vs 0)
    rw [Prod.mk_add_mk, add_zero, emb_eq vs y.2]

theorem contDiff_emb (vs : List (TVal κ)) : ContDiff ℝ 2 (emb vs) := by
  have : emb vs = fun y => embL vs y + emb vs 0 := funext (emb_eq vs)
  rw [this]
  exact (embL vs).contDiff.add contDiff_const

theorem eventually_merge {vs : List (TVal κ)} {P : List Arr → Prop} {Q : NList (vs.map TVal.primal) → Prop}
    (h : ∀ᶠ y in 𝓝 (pt (vs.map TVal.primal)), Q y) : ∀ᶠ y in 𝓝 (xs vs), Q (emb vs y) := by
  have hc : Tendsto (emb vs) (𝓝 (xs vs)) (𝓝 (pt (vs.map TVal.primal))) := by
    have := (contDiff_emb vs).continuous.tendsto (xs vs)
    rwa [emb_xs] at this
  exact hc.eventually h

/-- From a description of the arguments, the curve of all tracked arguments. -/
theorem curve_of : ∀ (γs : List (κ → ℝ → Arr)) (vs : List (TVal κ)), List.Forall₂ Describes γs vs →
    ∃ g : κ → ℝ → TList vs, (∀ k, ∀ᶠ s in 𝓝 (0 : ℝ), (γs.map fun γ => γ k s) = merge vs (g k s)) ∧
      CurveLap g (xs vs) (fun k => js k vs) (ls vs)
  | [], [], _ => ⟨fun _ _ => PUnit.unit, fun _ => Eventually.of_forall fun _ => rfl, CurveLap.const (κ := κ) PUnit.unit⟩
  | γ :: γs, .plain a :: vs, .cons h hs => by
    obtain ⟨g, h1, h2⟩ := curve_of γs vs hs
    refine ⟨g, fun k => ?_, h2⟩
    filter_upwards [h1 k, h k] with s e1 e2
    show γ k s :: _ = a :: merge vs (g k s)
    rw [e2, e1]
  | γ :: γs, .tracked t a :: vs, .cons h hs => by
    obtain ⟨g, h1, h2⟩ := curve_of γs vs hs
    obtain ⟨f, h3, h4⟩ := h
    refine ⟨fun k s => (f k s, g k s), fun k => ?_, h4.prodMk h2⟩
    filter_upwards [h1 k, h3 k] with s e1 e2
    show γ k s :: _ = Arr.num t (f k s) :: merge vs (g k s)
    rw [e2, e1]

theorem outAt_ok (t : Ty) (w : Space t) : outAt t (.ok [.num t w]) = w := by
  simp [outAt]

/-- Every primitive evaluated on plain inputs. -/
theorem plain_sound (bind : List Arr → Except String (List Arr)) (γs : List (κ → ℝ → Arr)) (vs : List (TVal κ))
    (h : List.Forall₂ Describes γs vs) (hp : vs.any TVal.isTracked = false) (outs : List (TVal κ))
    (ho : (bind (vs.map TVal.primal)).map (List.map .plain) = .ok outs) : Follows bind γs (vs.map TVal.primal) outs := by
  cases hb : bind (vs.map TVal.primal) with
  | error e => simp [hb, Except.map] at ho
  | ok os =>
    simp only [hb, Except.map, Except.ok.injEq] at ho
    subst ho
    refine ⟨by rw [hb, List.map_map]; congr 1; exact (List.map_id _).symm, os.map fun a _ _ => a, ?_, ?_⟩
    · rw [List.forall₂_map_left_iff, List.forall₂_map_right_iff, List.forall₂_same]
      intro a _ k
      exact Eventually.of_forall fun _ => rfl
    · intro k
      have hc : ∀ᶠ s in 𝓝 (0 : ℝ), (γs.map fun γ => γ k s) = vs.map TVal.primal := by
        clear hb
        induction h with
        | nil => exact Eventually.of_forall fun _ => rfl
        | @cons γ v γs vs h1 _ ih =>
          simp only [List.any_cons, Bool.or_eq_false_iff] at hp
          cases v with
          | tracked t a => simp [TVal.isTracked] at hp
          | plain a =>
            filter_upwards [h1 k, ih hp.2] with s e1 e2
            rw [List.map_cons, List.map_cons, e1, e2]
            rfl
      filter_upwards [hc] with s e
      rw [e, hb, List.map_map]
      congr 1
      exact (List.map_id _).symm

omit [Fintype κ] in
/-- `wrap_without_fwd_laplacian` on locally constant functions. -/
theorem barrier_sound (bind : List Arr → Except String (List Arr)) [Fintype κ] :
    SoundFor (κ := κ) bind (wrapBarrier bind) (ConstAt bind) := by
  intro γs vs h hok outs ho
  obtain ⟨os, hos⟩ := hok
  obtain ⟨g, h1, h2⟩ := curve_of γs vs h
  have he := eventually_merge (P := fun _ => True) hos
  simp only [put_emb] at he
  have h0 := he.self_of_nhds
  rw [merge_xs] at h0
  unfold wrapBarrier at ho
  simp only [h0, Except.map, Except.ok.injEq] at ho
  subst ho
  refine ⟨by rw [h0, List.map_map]; congr 1; exact (List.map_id _).symm, os.map fun a _ _ => a, ?_, ?_⟩
  · rw [List.forall₂_map_left_iff, List.forall₂_map_right_iff, List.forall₂_same]
    intro a _ k
    exact Eventually.of_forall fun _ => rfl
  · intro k
    filter_upwards [h1 k, (h2.tendsto k).eventually he] with s e1 e2
    rw [e1, e2, List.map_map]
    congr 1
    exact (List.map_id _).symm

/-- One tracked result. -/
theorem follows_one {bind : List Arr → Except String (List Arr)} {γs : List (κ → ℝ → Arr)} {vs : List (TVal κ)}
    (h : List.Forall₂ Describes γs vs) (t : Ty) (G : TList vs → Space t)
    (hG : ∀ᶠ y in 𝓝 (xs vs), bind (merge vs y) = .ok [.num t (G y)]) (a : Lap κ (Space t)) (hx : a.x = G (xs vs))
    (hl : ∀ g : κ → ℝ → TList vs, CurveLap g (xs vs) (fun k => js k vs) (ls vs) →
      CurveLap (fun k s => G (g k s)) a.x a.jac a.lap) :
    Follows bind γs (vs.map TVal.primal) [.tracked t a] := by
  obtain ⟨g, h1, h2⟩ := curve_of γs vs h
  have h0 := hG.self_of_nhds
  rw [merge_xs] at h0
  refine ⟨by rw [h0]; simp only [List.map_cons, List.map_nil, TVal.primal, hx],
    [fun k s => .num t (G (g k s))], .cons ⟨_, fun k => Eventually.of_forall fun _ => rfl, hl g h2⟩ .nil, ?_⟩
  intro k
  filter_upwards [h1 k, (h2.tendsto k).eventually hG] with s e1 e2
  rw [e1, e2]
  rfl

/-- The function of the tracked arguments, when the primitive computes `F` near the inputs. -/
theorem merged_eventually {bind : List Arr → Except String (List Arr)} {vs : List (TVal κ)} {t : Ty}
    {F : NList (vs.map TVal.primal) → Space t}
    (h : ∀ᶠ y in 𝓝 (pt (vs.map TVal.primal)), bind (put (vs.map TVal.primal) y) = .ok [.num t (F y)]) :
    bind (vs.map TVal.primal) = .ok [.num t (F (pt (vs.map TVal.primal)))] ∧
    (∀ᶠ y in 𝓝 (xs vs), bind (merge vs y) = .ok [.num t (mergedFwd bind vs t y)]) ∧
    mergedFwd bind vs t =ᶠ[𝓝 (xs vs)] (fun y => F (emb vs y)) := by
  have he := eventually_merge (P := fun _ => True) h
  simp only [put_emb] at he
  have h0 := he.self_of_nhds
  rw [merge_xs, emb_xs] at h0
  have h2 : mergedFwd bind vs t =ᶠ[𝓝 (xs vs)] (fun y => F (emb vs y)) := by
    filter_upwards [he] with y hy
    rw [mergedFwd, hy, outAt_ok]
  refine ⟨h0, ?_, h2⟩
  filter_upwards [he, h2] with y hy hy2
  rw [hy, hy2]

/-- `wrap_linear` on locally affine functions. -/
theorem linear_sound (bind : List Arr → Except String (List Arr)) :
    SoundFor (κ := κ) bind (wrapLinear bind) (AffineAt bind) := by
  intro γs vs h hok outs ho
  obtain ⟨t, A, c, hA⟩ := hok
  obtain ⟨h0, h1, h2⟩ := merged_eventually (t := t) (F := fun y => A y + c) hA
  unfold wrapLinear at ho
  simp only [h0, Except.ok.injEq] at ho
  subst ho
  set F := mergedFwd bind vs t with hF
  have h3 : F =ᶠ[𝓝 (xs vs)] fun y => (A.comp (embL vs)) y + (A (emb vs 0) + c) := by
    filter_upwards [h2] with y hy
    rw [hy, emb_eq vs y, map_add, add_assoc]
    rfl
  have hd : fderiv ℝ F (xs vs) = A.comp (embL vs) := by
    rw [h3.fderiv_eq, fderiv_add_const]
    exact ContinuousLinearMap.fderiv _
  have hx : A (pt (vs.map TVal.primal)) + c = F (xs vs) := by
    rw [h2.self_of_nhds]
    show _ = A (emb vs (xs vs)) + c
    rw [emb_xs]
  refine follows_one h t F h1 _ hx ?_
  intro g hg
  have h4 := (hg.clm (A.comp (embL vs))).add (CurveLap.const (κ := κ) (A (emb vs 0) + c))
  have h5 : CurveLap (fun k s => F (g k s)) _ _ _ := h4.congr fun k => (hg.tendsto k).eventually h3
  show CurveLap _ (A (pt _) + c) (fun k => fderiv ℝ F (xs vs) (js k vs)) (fderiv ℝ F (xs vs) (ls vs))
  rw [hd, hx]
  simpa [h3.self_of_nhds] using h5

end Jaqmc.Laplacian
