import Verif.Lemmas.LaplacianSeed
/-!
C44: the dense forward Laplacian computes value, Jacobian and Laplacian of the traced program.
-/
namespace Jaqmc.Laplacian.Props
open Jaqmc.Laplacian Jaqmc.Laplacian.Spec Filter Topology

/-- Output `j` of a run. -/
abbrev nth (r : Except String (List Arr)) (j : ℕ) : Option Arr :=
  match r with
  | .ok outs => outs[j]?
  | .error _ => none

theorem outAt_nth {κ : Type} [Fintype κ] {p : Prog κ} {args : List Arr} {j : ℕ} {t : Ty} {y : NList args} {v : Space t}
    (h : nth (p.runPlain (put args y)) j = some (.num t v)) : output p args j t y = v := by
  unfold output
  cases hr : p.runPlain (put args y) with
  | error e => rw [hr] at h; cases h
  | ok outs =>
    rw [hr] at h
    have h' : outs[j]? = some (.num t v) := h
    simp only [Except.map, h', Option.toList]
    exact outAt_ok t v

/-- C44.  A traced program built from the library's handlers is run by `forward_laplacian` on inputs some of which are
seeded (with weights `w`), at a point where every primitive is smooth (`okRun`).  If the run succeeds, its primal values
are those of the program; every tracked output carries the value of that output, its derivative along every seeded
coordinate, and the sum of the second derivatives along all seeded coordinates; and every untracked output stays constant
along the seeded coordinates.

Partial: not covered are division of an array object by its own tracked self and nested functions with registered names
(both wrong, see `LaplacianLimits`), non-holomorphic complex functions without a rule of their own (wrong when there are
more tracked inputs than elements), scans of length 0, and sparse Jacobians (C45). -/
theorem c44_forward_laplacian_partial (ins : Inputs) (w : SIdx ins → ℝ) (p : Prog (SIdx ins)) (hp : ∀ e ∈ p.eqns, Builtin e.prim)
    (hlim : p.fewReads) (hok : p.okRun (leaves ins)) (outs : List (TVal (SIdx ins))) (h : forwardLaplacian ins w p = .ok outs) :
    p.runPlain (leaves ins) = .ok (outs.map TVal.primal) ∧
    (∀ (j : ℕ) (t : Ty) (a : Lap (SIdx ins) (Space t)), outs[j]? = some (.tracked t a) →
      IsLaplacian (pt (leaves ins)) (fun k => dir ins k (w k)) (output p (leaves ins) j t) a.x a.jac a.lap ∧
      ∀ k, ∀ᶠ s in 𝓝 (0 : ℝ), nth (p.runPlain (put (leaves ins) (pt (leaves ins) + s • dir ins k (w k)))) j =
        some (.num t (output p (leaves ins) j t (pt (leaves ins) + s • dir ins k (w k))))) ∧
    (∀ (j : ℕ) (a : Arr), outs[j]? = some (.plain a) → ∀ k, ∀ᶠ s in 𝓝 (0 : ℝ),
      nth (p.runPlain (put (leaves ins) (pt (leaves ins) + s • dir ins k (w k)))) j = some a) := by
  obtain ⟨γs, h1, h2⟩ := seedWith_lines ins (fun k => dir ins k (w k)) fun k => rowOk_dir ins k (w k)
  have hprim : (seeds ins w).map TVal.primal = leaves ins := seedWith_primal ins _
  have hs := prog_sound p hlim (fun e he => builtin_sound (hp e he)) γs (seeds ins w) h1 (by rw [hprim]; exact hok) outs h
  obtain ⟨hv, δs, hδ, he⟩ := hs
  rw [hprim] at hv
  simp only [h2] at he
  have hlen := hδ.length_eq
  have hget : ∀ (j : ℕ) (o : TVal (SIdx ins)), outs[j]? = some o → ∃ δ, δs[j]? = some δ ∧ Describes δ o := by
    intro j o ho
    obtain ⟨hj, hjo⟩ := List.getElem?_eq_some_iff.1 ho
    have hj' : j < δs.length := by omega
    refine ⟨δs[j], List.getElem?_eq_getElem hj', ?_⟩
    have := (List.forall₂_iff_get.1 hδ).2 j hj' hj
    simp only [List.get_eq_getElem] at this
    rwa [hjo] at this
  have hnth : ∀ (j : ℕ) (δ : SIdx ins → ℝ → Arr), δs[j]? = some δ → ∀ k, ∀ᶠ s in 𝓝 (0 : ℝ),
      nth (p.runPlain (put (leaves ins) (pt (leaves ins) + s • dir ins k (w k)))) j = some (δ k s) := by
    intro j δ hj k
    filter_upwards [he k] with s e
    rw [e]
    simp [nth, hj]
  refine ⟨hv, fun j t a hj => ?_, fun j a hj k => ?_⟩
  · obtain ⟨δ, hδj, g, hg1, hg2⟩ := hget j _ hj
    have key : ∀ k, ∀ᶠ s in 𝓝 (0 : ℝ), nth (p.runPlain (put (leaves ins) (pt (leaves ins) + s • dir ins k (w k)))) j = some (.num t (g k s)) := by
      intro k
      filter_upwards [hnth j δ hδj k, hg1 k] with s e1 e2
      rw [e1, e2]
    have key2 : ∀ k, ∀ᶠ s in 𝓝 (0 : ℝ), output p (leaves ins) j t (pt (leaves ins) + s • dir ins k (w k)) = g k s := by
      intro k
      filter_upwards [key k] with s e
      exact outAt_nth e
    refine ⟨⟨?_, hg2.congr key2⟩, fun k => ?_⟩
    · apply outAt_nth
      rw [put_pt, hv]
      simp [nth, hj, TVal.primal]
    · filter_upwards [key k, key2 k] with s e1 e2
      rw [e1, e2]
  · obtain ⟨δ, hδj, hd⟩ := hget j _ hj
    filter_upwards [hnth j δ hδj k, hd k] with s e1 e2
    rw [e1, e2]

/-- C44 in terms of Fréchet derivatives: where the output is twice continuously differentiable as a function of the
inputs, the Jacobian holds its derivatives and the Laplacian the sum of its second derivatives, along the seeded
directions. -/
theorem c44_derivatives_partial (ins : Inputs) (w : SIdx ins → ℝ) (p : Prog (SIdx ins)) (hp : ∀ e ∈ p.eqns, Builtin e.prim)
    (hlim : p.fewReads) (hok : p.okRun (leaves ins)) (outs : List (TVal (SIdx ins))) (h : forwardLaplacian ins w p = .ok outs)
    (j : ℕ) (t : Ty) (a : Lap (SIdx ins) (Space t)) (hj : outs[j]? = some (.tracked t a))
    (hu : ContDiffAt ℝ 2 (output p (leaves ins) j t) (pt (leaves ins))) :
    a.x = output p (leaves ins) j t (pt (leaves ins)) ∧
    (∀ k, a.jac k = fderiv ℝ (output p (leaves ins) j t) (pt (leaves ins)) (dir ins k (w k))) ∧
    a.lap = ∑ k, fderiv ℝ (fderiv ℝ (output p (leaves ins) j t)) (pt (leaves ins)) (dir ins k (w k)) (dir ins k (w k)) := by
  obtain ⟨h1, h2⟩ := ((c44_forward_laplacian_partial ins w p hp hlim hok outs h).2.1 j t a hj).1
  have h3 := Spec.CurveLap.comp hu (CurveLap_line (pt (leaves ins)) fun k => dir ins k (w k))
  rw [h1] at h3
  obtain ⟨e1, e2⟩ := h2.unique h3
  refine ⟨h1.symm, fun k => congrFun e1 k, ?_⟩
  rw [e2]
  simp

/-- C44 for LapTuples supplied by the caller: whatever curves the input triples describe (one bundle of curves per
input), the outputs describe the program's outputs along the same curves. -/
theorem c44_user_tuples_partial {κ : Type} [Fintype κ] (p : Prog κ) (hp : ∀ e ∈ p.eqns, Builtin e.prim) (hlim : p.fewReads) :
    SoundFor p.runPlain p.runLap p.okRun := prog_sound p hlim fun e he => builtin_sound (hp e he)

/-! ### The hypotheses can be met -/

/-- `lambda x: jnp.sum(x * x)` -/
noncomputable def demo (κ : Type) [Fintype κ] : Prog κ :=
  ⟨[], [], [0], [⟨[.var 0, .var 0], [1], ⟨mulBind, mulRule, fun _ => True⟩⟩,
    ⟨[.var 1], [2], ⟨linBind (sumLay 1 fun _ => 0), wrapLinear (linBind (sumLay 1 fun _ => 0)), fun _ => True⟩⟩], [.var 2]⟩

theorem demo_builtin (κ : Type) [Fintype κ] : ∀ e ∈ (demo κ).eqns, Builtin e.prim := by
  intro e he
  simp only [demo, List.mem_cons, List.not_mem_nil, or_false] at he
  rcases he with rfl | rfl
  · exact .mul
  · exact .lin _

theorem demo_few (κ : Type) [Fintype κ] : (demo κ).fewReads := by
  intro x hx
  simp only [demo, Prog.lapJaxpr, List.map_cons, List.map_nil, liftA, Interp.occ, Interp.Spec.reads] at hx ⊢
  by_cases h0 : x = 0 <;> by_cases h1 : x = 1 <;> by_cases h2 : x = 2 <;> simp_all <;> decide

theorem demo_ok (κ : Type) [Fintype κ] (args : List Arr) : (demo κ).okRun args :=
  fun _ _ => ⟨trivial, fun _ _ _ _ => ⟨trivial, fun _ _ => trivial⟩⟩

theorem demo_first {κ : Type} [Fintype κ] (a : Lap κ (Space (.real 2))) :
    ∃ b, (⟨mulBind, mulRule, fun _ => True⟩ : Prim κ).evalEqn [.tracked (.real 2) a, .tracked (.real 2) a] = .ok [.tracked (.real 2) b] :=
  ⟨_, rfl⟩

theorem demo_second {κ : Type} [Fintype κ] (a : Lap κ (Space (.real 2))) :
    ∃ b, (⟨linBind (sumLay 1 fun _ => 0), wrapLinear (linBind (sumLay 1 fun _ => 0)), fun _ => True⟩ : Prim κ).evalEqn
      [.tracked (.real 2) a] = .ok [.tracked (.real 1) b] := ⟨_, rfl⟩

/-- A seeded run of `demo` on two coordinates: it succeeds with a tracked output. -/
theorem demo_run (v : Fin 2 → ℝ) :
    ∃ a, forwardLaplacian [(true, .num (.real 2) v)] (fun _ => 1) (demo _) = .ok [.tracked (.real 1) a] := by
  unfold forwardLaplacian Prog.runLap
  rw [(Jaqmc.Interp.Props.c43_same (demo _).lapJaxpr _ _ (demo_few _)).1]
  unfold Interp.Spec.eval
  simp only [seeds, seedWith, demo, Prog.lapJaxpr, List.map_cons, List.map_nil, liftA]
  generalize hs : (⟨v, _, _⟩ : Lap (SIdx [(true, Arr.num (.real 2) v)]) (Space (.real 2))) = a0
  obtain ⟨a1, h1⟩ := demo_first a0
  obtain ⟨a2, h2⟩ := demo_second a1
  refine ⟨a2, ?_⟩
  simp [Interp.Spec.run, Interp.Spec.values, Interp.Spec.value, Interp.Spec.bind, Bind.bind, Except.bind, Pure.pure, Except.pure, h1, h2, flatten, Except.map]

theorem demo_plain {κ : Type} [Fintype κ] (v : Fin 2 → ℝ) :
    (demo κ).runPlain [.num (.real 2) v] = .ok [.num (.real 1) fun _ : Fin 1 => v 0 * v 0 + v 1 * v 1] := by
  have h1 : mulBind [.num (.real 2) v, .num (.real 2) v] = .ok [.num (.real 2) fun i : Fin 2 => v i * v i] := by
    simp only [mulBind, bindBin, Arr.real?, elementwise2, bsize_self, Except.map, Arr.ofReal]
    refine congrArg (fun w : Fin 2 → ℝ => Except.ok [Arr.num (.real 2) w]) (funext fun i => ?_)
    show bc (n := 2) v i * bc (n := 2) v i = _
    rw [bc_self (n := 2)]
  have h2 : linBind (sumLay 1 fun _ => 0) [.num (.real 2) fun i : Fin 2 => v i * v i] =
      .ok [.num (.real 1) fun _ : Fin 1 => v 0 * v 0 + v 1 * v 1] := by
    simp only [linBind, sumLay, Arr.shape, List.map_cons, List.map_nil, Shape.isCplx, List.any_cons, List.any_nil, Bool.or_self,
      Bool.false_eq_true, if_false, linR, Except.map]
    refine congrArg (fun w : Fin 1 → ℝ => Except.ok [Arr.num (.real 1) w]) (funext fun i => ?_)
    simp [Fin.sum_univ_two]
  unfold Prog.runPlain Interp.Spec.eval
  simp [demo, Prog.plainJaxpr, Interp.Spec.run, Interp.Spec.values, Interp.Spec.value, Interp.Spec.bind, Bind.bind, Except.bind,
    Pure.pure, Except.pure, h1, h2, flatten]

abbrev demoIn (v : Fin 2 → ℝ) : Inputs := [(true, .num (.real 2) v)]

/-- By C44, the Laplacian of `|x|²` in two dimensions comes out as 4, and the Jacobian as `2 x`. -/
example (v : Fin 2 → ℝ) (a : Lap _ (Space (.real 1)))
    (h : forwardLaplacian (demoIn v) (fun _ => 1) (demo (SIdx (demoIn v))) = .ok [.tracked (.real 1) a]) :
    a.lap = (fun _ : Fin 1 => (4 : ℝ)) ∧ ∀ i : Fin 2, a.jac (.inl i) = fun _ : Fin 1 => 2 * v i := by
  obtain ⟨-, h2⟩ := ((c44_forward_laplacian_partial _ _ _ (demo_builtin _) (demo_few _) (demo_ok _ _) _ h).2.1 0 _ a rfl).1
  have hu : ∀ y : NList (leaves (demoIn v)), output (demo (SIdx (demoIn v))) (leaves (demoIn v)) 0 (.real 1) y =
      fun _ : Fin 1 => (y.1 : Fin 2 → ℝ) 0 * (y.1 : Fin 2 → ℝ) 0 + (y.1 : Fin 2 → ℝ) 1 * (y.1 : Fin 2 → ℝ) 1 := by
    intro y
    apply outAt_nth (κ := SIdx (demoIn v))
    exact congrArg (fun r => nth r 0) (demo_plain y.1)
  simp only [hu] at h2
  have c : ∀ i : Fin 2, CurveLap (fun (k : SIdx (demoIn v)) s =>
      ((pt (leaves (demoIn v)) + s • dir (demoIn v) k 1).1 : Fin 2 → ℝ) i) (v i)
      (fun k => ((dir (demoIn v) k 1).1 : Fin 2 → ℝ) i) 0 := fun i =>
    CurveLap_line (v i) fun k => ((dir (demoIn v) k 1).1 : Fin 2 → ℝ) i
  have h3 := CurveLap.pi (ι := Fin 1) fun _ => ((c 0).mul (c 0)).add ((c 1).mul (c 1))
  obtain ⟨e1, e2⟩ := Spec.CurveLap.unique h2 h3
  have hd : ∀ i j : Fin 2, ((dir (demoIn v) (.inl i) 1).1 : Fin 2 → ℝ) j = if j = i then 1 else 0 := by
    intro i j
    show (if j.val = i.val then ((1 : ℝ) : ℂ).re else 0) = _
    simp [Fin.ext_iff]
  have hs : ∀ j : Fin 2, (∑ k : SIdx (demoIn v), ((dir (demoIn v) k 1).1 : Fin 2 → ℝ) j * ((dir (demoIn v) k 1).1 : Fin 2 → ℝ) j) = 1 := by
    intro j
    have : (∑ k : SIdx (demoIn v), ((dir (demoIn v) k 1).1 : Fin 2 → ℝ) j * ((dir (demoIn v) k 1).1 : Fin 2 → ℝ) j) =
        (∑ i : Fin 2, ((dir (demoIn v) (.inl i) 1).1 : Fin 2 → ℝ) j * ((dir (demoIn v) (.inl i) 1).1 : Fin 2 → ℝ) j) + ∑ i : Empty, _ :=
      Fintype.sum_sum_type (α₁ := Fin 2) (α₂ := Empty) fun k => ((dir (demoIn v) k 1).1 : Fin 2 → ℝ) j * ((dir (demoIn v) k 1).1 : Fin 2 → ℝ) j
    rw [this]
    simp [hd]
  constructor
  · refine e2.trans (funext fun _ : Fin 1 => ?_)
    rw [hs, hs]; norm_num
  · intro i
    refine (congrFun e1 (.inl i)).trans (funext fun _ : Fin 1 => ?_)
    simp only [hd]
    fin_cases i <;> simp <;> ring

end Jaqmc.Laplacian.Props
