import Mathlib.Analysis.Complex.RealDeriv
import Verif.Props.Laplacian
/-!
C44: where the transform does not compute the Laplacian.
-/
namespace Jaqmc.Laplacian.Props
open Jaqmc.Laplacian Jaqmc.Laplacian.Spec Filter Topology

/-- The tracked scalar `x` with its identity seed. -/
noncomputable def seed1 (x : ℝ) : TVal Unit := .tracked (.real 1) ⟨fun _ : Fin 1 => x, fun _ _ => (1 : ℝ), fun _ => (0 : ℝ)⟩

theorem seed1_describes (x : ℝ) : Describes (fun (_ : Unit) s => .num (.real 1) fun _ : Fin 1 => x + s) (seed1 x) := by
  refine ⟨fun _ s _ => x + s, fun k => Eventually.of_forall fun _ => rfl, ?_⟩
  have h := CurveLap.pi (ι := Fin 1) fun _ => CurveLap_line (κ := Unit) x fun _ => (1 : ℝ)
  simp only [smul_eq_mul, mul_one] at h
  exact h

/-- `forward_laplacian(lambda a, b: b / a)(LapTuple(x, 1, 0), x)`: numerator and denominator are the same array object,
the Hessian term is left out, and the reported Laplacian of `b / a` at `a = b = 1` is 0.  With equal but distinct arrays
it is 2, which is right. -/
theorem c44_div_alias (a : Arr) (ha : a = .num (.real 1) fun _ : Fin 1 => (1 : ℝ)) :
    (∃ b : Lap Unit (Space (.real 1)), divRule true [.plain a, seed1 1] = .ok [.tracked (.real 1) b] ∧ b.lap = fun _ : Fin 1 => (0 : ℝ)) ∧
    (∃ b : Lap Unit (Space (.real 1)), divRule false [.plain a, seed1 1] = .ok [.tracked (.real 1) b] ∧ b.lap = fun _ : Fin 1 => (2 : ℝ)) ∧
    ¬ SoundFor (κ := Unit) divBind (divRule true) (okBin okDiv okDiv) := by
  subst ha
  have h1 : ∃ b : Lap Unit (Space (.real 1)), divRule true [.plain (.num (.real 1) fun _ : Fin 1 => (1 : ℝ)), seed1 1] = .ok [.tracked (.real 1) b] ∧
      b.lap = fun _ : Fin 1 => (0 : ℝ) := by
    refine ⟨_, rfl, funext fun i : Fin 1 => ?_⟩
    show _ * bc (fun _ : Fin 1 => (0 : ℝ)) i + (if true = true then (0 : ℝ) else _) = _
    rw [bc_one]; simp
  have h2 : ∃ b : Lap Unit (Space (.real 1)), divRule false [.plain (.num (.real 1) fun _ : Fin 1 => (1 : ℝ)), seed1 1] = .ok [.tracked (.real 1) b] ∧
      b.lap = fun _ : Fin 1 => (2 : ℝ) := by
    refine ⟨_, rfl, funext fun i : Fin 1 => ?_⟩
    show _ * bc (fun _ : Fin 1 => (0 : ℝ)) i + (if false = true then (0 : ℝ) else
      2 * bc (fun _ : Fin 1 => (1 : ℝ)) i / bc (fun _ : Fin 1 => (1 : ℝ)) i ^ 3 * ∑ k : Unit, bc (fun _ : Fin 1 => (1 : ℝ)) i * bc (fun _ : Fin 1 => (1 : ℝ)) i) = _
    simp only [bc_one]; simp
  refine ⟨h1, h2, fun hs => ?_⟩
  obtain ⟨b, e1, l1⟩ := h1
  obtain ⟨c, e2, l2⟩ := h2
  have hd : List.Forall₂ Describes [fun (_ : Unit) (_ : ℝ) => Arr.num (.real 1) fun _ : Fin 1 => (1 : ℝ), fun (_ : Unit) s => .num (.real 1) fun _ : Fin 1 => 1 + s]
      [.plain (.num (.real 1) fun _ : Fin 1 => (1 : ℝ)), seed1 1] :=
    .cons (fun _ => Eventually.of_forall fun _ => rfl) (.cons (seed1_describes 1) .nil)
  have hok : okBin okDiv okDiv ([.plain (.num (.real 1) fun _ : Fin 1 => (1 : ℝ)), seed1 1].map TVal.primal) := by
    refine ⟨fun u v _ hv j => ?_, fun u v hu _ => by cases hu⟩
    cases hv
    exact one_ne_zero
  obtain ⟨-, δs, d1, d2⟩ := hs _ _ hd hok _ e1
  obtain ⟨-, δs', d1', d2'⟩ := div_sound _ _ hd hok _ e2
  match δs, δs', d1, d1' with
  | [δ], [δ'], .cons ⟨g, g1, g2⟩ .nil, .cons ⟨g', g1', g2'⟩ .nil =>
    have he : ∀ k, ∀ᶠ s in 𝓝 (0 : ℝ), g k s = g' k s := by
      intro k
      filter_upwards [d2 k, d2' k, g1 k, g1' k] with s s1 s2 s3 s4
      have := s1.symm.trans s2
      simp only [List.map_cons, List.map_nil, s3, s4, Except.ok.injEq, List.cons.injEq, and_true] at this
      exact eq_of_heq (Arr.num.inj this).2
    have := (g2.unique (g2'.congr he)).2
    have h0 := congrFun (l1.symm.trans (this.trans l2)) (0 : Fin 1)
    norm_num at h0

/-- A user function that happens to be named `softplus` and is wrapped in `jax.jit`: the interpreter looks the name up in
its table of handlers and never looks at the function.  Here the function is the identity; already the value is wrong. -/
theorem c44_name_collision (registry : String → Option (Prim Unit)) (h : registry "softplus" = some ⟨fnBind .softplus, fnRule .softplus, okFn .softplus⟩)
    (p : Prog Unit) (hp : p = ⟨[], [], [0], [], [.var 0]⟩) :
    ∃ b : Lap Unit (Space (.real 1)), (pjitNamed registry "softplus" p).evalEqn [seed1 0] = .ok [.tracked (.real 1) b] ∧
      p.runPlain [(seed1 0).primal] = .ok [.num (.real 1) fun _ : Fin 1 => (0 : ℝ)] ∧ b.x = fun _ : Fin 1 => Real.log 2 := by
  subst hp
  unfold pjitNamed
  rw [h]
  refine ⟨_, rfl, rfl, funext fun i : Fin 1 => ?_⟩
  show Real.log (1 + Real.exp 0) = _
  rw [Real.exp_zero]; norm_num

/-- `|z|²` as a complex-valued function (smooth, not holomorphic), handled like an unregistered primitive. -/
noncomputable def absSq : List Arr → Except String (List Arr)
  | [.num (.cplx n) z] => .ok [.num (.cplx n) fun i : Fin n => (z i : ℂ) * (starRingEnd ℂ) (z i)]
  | _ => .error "TypeError"

/-- `z = a + i b` at 0 with two tracked real inputs `a`, `b`. -/
noncomputable def seedZ : TVal (Fin 2) := .tracked (.cplx 1) ⟨fun _ : Fin 1 => (0 : ℂ), fun k _ => if k = 0 then 1 else Complex.I, fun _ => (0 : ℂ)⟩

theorem seedZ_idx : Fintype.card (Idx [seedZ]) = 1 := by
  have h : Fintype.card (Idx [seedZ]) = Fintype.card (Fin 1 ⊕ Empty) := rfl
  rw [h]; rfl

/-- More tracked inputs than elements of the argument: the Hessian is obtained from `jax.vjp`, as if the function were
holomorphic, and the Laplacian of `a² + b²` comes out as 0 instead of 4. -/
theorem c44_non_holomorphic : ∃ b : Lap (Fin 2) (Space (.cplx 1)), wrapGeneral absSq [seedZ] = .ok [.tracked (.cplx 1) b] ∧
    b.lap = (fun _ : Fin 1 => (0 : ℂ)) ∧
    CurveLap (fun (k : Fin 2) (s : ℝ) (_ : Fin 1) => ((s : ℂ) * if k = 0 then 1 else Complex.I) *
      (starRingEnd ℂ) ((s : ℂ) * if k = 0 then 1 else Complex.I)) (fun _ => 0) (fun _ _ => 0) (fun _ => (4 : ℂ)) := by
  refine ⟨_, rfl, ?_, ?_⟩
  · show fderiv ℝ (mergedFwd absSq [seedZ] (.cplx 1)) (xs [seedZ]) (ls [seedZ]) + generalHessian [seedZ] (.cplx 1) (mergedFwd absSq [seedZ] (.cplx 1)) = _
    have h0 : ls [seedZ] = 0 := rfl
    have h1 : generalHessian [seedZ] (.cplx 1) (mergedFwd absSq [seedZ] (.cplx 1)) = viaHessianCplx [seedZ] 1 (mergedFwd absSq [seedZ] (.cplx 1)) := by
      show (if Fintype.card (Fin 2) > Fintype.card (Idx [seedZ]) then (if anyComplex [seedZ] = true then viaHessianCplx [seedZ] 1 (mergedFwd absSq [seedZ] (.cplx 1)) else viaHessianReal [seedZ] (.cplx 1) (mergedFwd absSq [seedZ] (.cplx 1)))
        else viaTrace [seedZ] (.cplx 1) (mergedFwd absSq [seedZ] (.cplx 1))) = _
      rw [if_pos (by rw [seedZ_idx]; decide), if_pos (show anyComplex [seedZ] = true from rfl)]
    have h2 : ∀ i j : Idx [seedZ], ∑ k : Fin 2, coord [seedZ] (js k [seedZ]) i * coord [seedZ] (js k [seedZ]) j = 0 := by
      intro i j
      match i, j with
      | .inl i, .inl j =>
        rw [Fin.sum_univ_two]
        show (1 : ℂ) * 1 + Complex.I * Complex.I = 0
        simp
      | .inr e, _ => exact e.elim
      | .inl _, .inr e => exact e.elim
    rw [h0, map_zero, zero_add, h1]
    unfold viaHessianCplx
    funext o
    simp only [h2, zero_mul, Finset.sum_const_zero]
  · have hl : ∀ w : ℂ, (fun s : ℝ => (0 : ℂ) + s • w) = fun s : ℝ => (s : ℂ) * w := by intro w; funext s; simp
    have h := CurveLap_line (κ := Fin 2) (0 : ℂ) fun k => if k = 0 then (1 : ℂ) else Complex.I
    have hc := h.clm Complex.conjCLE.toContinuousLinearMap
    have h3 := CurveLap.pi (ι := Fin 1) fun _ => h.mul hc
    refine Spec.CurveLap.of_eq (h3.congr fun k => Eventually.of_forall fun s => ?_) ?_ (fun k => ?_) ?_
    · funext i; simp
    · simp
    · simp
    · funext i; simp; norm_num

end Jaqmc.Laplacian.Props
