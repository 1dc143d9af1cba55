import Verif.Props.SparseLimits
/-!
C45: programs over sparse Jacobians give, once expanded, exactly the values, Jacobians and Laplacians of the dense rules.
-/
namespace Jaqmc.Sparse.Props
open Jaqmc.Sparse Jaqmc.Sparse.Spec

section
variable {K : Type} [Field K]

/-- Seeding a variable with an owner axis is accepted and means the same as the dense seed. -/
theorem c45_seed {x w : Arr K} {ax : ℕ} (hax : ax < x.shape.length) :
    ∃ v, seedInput x w ax = some v ∧ v.ExpandsTo (seed x (w.bcast x.shape)) :=
  seedInput_expands hax

/-- Every primitive: whatever the handler returns on well-formed operands (sparse, dense or plain, in any mixture it
accepts), with or without a fallback to the dense representation, expands to the dense rule of the expanded operands. -/
theorem c45_primitive_partial (op : Op K) {n : ℕ} {vs : List (Val K)} {Ds : List (DLap K)} {v : Val K}
    (hw : ∀ u ∈ vs, u.WF) (hl : vs.mapM (Val.lift n) = some Ds) (hp : op.Pre vs Ds) (h : op.run vs = some v) :
    ∃ E, op.rule n Ds = some E ∧ v.ExpandsTo E := by
  obtain ⟨E, h1, _, h2⟩ := run_expands op hw hl hp h
  exact ⟨E, h1, h2⟩

/-- Every program on a seeded variable and constants: all intermediate results can be expanded, the variable expands to the
dense seed, constants have no derivatives, and every equation holds under the dense rules. -/
theorem c45_program_partial {x w : Arr K} {ax : ℕ} (hax : ax < x.shape.length) {s : SLap K} (hs : seedInput x w ax = some s)
    (consts : List (Arr K)) (prog : List (Eqn K)) {out : List (Val K)}
    (hrun : runProg prog (.sparse s :: consts.map .plain) = some out)
    (hpre : ∀ e ∈ prog, ∀ vs Ds, e.args.mapM (out[·]?) = some vs → vs.mapM (Val.lift x.shape.prod) = some Ds → e.op.Pre vs Ds) :
    ∃ D L, D.Same (seed x (w.bcast x.shape)) ∧ L.length = prog.length ∧
      out.mapM (Val.lift x.shape.prod) = some (D :: consts.map (const x.shape.prod) ++ L) ∧
      DenseRun x.shape.prod prog (consts.length + 1) (D :: consts.map (const x.shape.prod) ++ L) := by
  obtain ⟨s', hs', hx⟩ := seedInput_expands (w := w) hax
  rw [hs] at hs'
  obtain rfl := Option.some.inj hs'
  obtain ⟨D, hD, hsame⟩ := expands_lift (v := .sparse s) hx
  have hn : (seed x (w.bcast x.shape)).n = x.shape.prod := rfl
  rw [hn] at hD
  have hc : ∀ cs : List (Arr K), (cs.map Val.plain).mapM (Val.lift x.shape.prod) = some (cs.map (const x.shape.prod)) := by
    intro cs
    induction cs with
    | nil => rfl
    | cons c cs ih => rw [List.map_cons, List.mapM_cons, ih]; rfl
  have hF : ((Val.sparse s) :: consts.map .plain).mapM (Val.lift x.shape.prod) = some (D :: consts.map (const x.shape.prod)) := by
    rw [List.mapM_cons, hD, hc]; rfl
  have hw : ∀ u ∈ (Val.sparse s) :: consts.map .plain, u.WF := by
    intro u hu
    rcases List.mem_cons.1 hu with rfl | hu
    · exact hx.1
    · obtain ⟨c, _, rfl⟩ := List.mem_map.1 hu
      trivial
  obtain ⟨_, L, hL, hlen, hrun'⟩ := runProg_dense hw hF hrun hpre
  refine ⟨D, L, hsame, hlen, hL, ?_⟩
  simpa using hrun'

/-! ### The rules one by one -/

theorem c45_unary {f f1 f2 : K → K} {s v : SLap K} {D : DLap K} (hw : s.WF) (hD : s.expand = some D)
    (h : handleUnary f f1 f2 s = some v) : v.ExpandsTo (chain1 f f1 f2 D) := handleUnary_expands hw hD h

theorem c45_add_sub {sub : Bool} {n : ℕ} {l r v : Val K} {D E : DLap K} (hwl : l.WF) (hwr : r.WF)
    (hl : l.lift n = some D) (hr : r.lift n = some E) (hc : Compat D.x.shape E.x.shape)
    (h : handleAddSub sub l r = some v) : v.ExpandsTo (chain2 (if sub then subF else addF) D E) :=
  handleAddSub_expands hwl hwr hl hr hc h

theorem c45_mul {n : ℕ} {l r v : Val K} {D E : DLap K} (hwl : l.WF) (hwr : r.WF)
    (hl : l.lift n = some D) (hr : r.lift n = some E) (hc : Compat D.x.shape E.x.shape)
    (h : handleMul l r = some v) : v.ExpandsTo (chain2 mulF D E) := handleMul_expands hwl hwr hl hr hc h

theorem c45_div {n : ℕ} {l r v : Val K} {D E : DLap K} (hwl : l.WF) (hwr : r.WF)
    (hl : l.lift n = some D) (hr : r.lift n = some E) (hc : Compat D.x.shape E.x.shape)
    (h : handleDiv l r = some v) : v.ExpandsTo (chain2 divF D E) := handleDiv_expands hwl hwr hl hr hc h

theorem c45_reduce_sum {axes : List ℕ} {s : SLap K} {v : Val K} {D : DLap K} (hw : s.WF) (hD : s.expand = some D)
    (hn : axes.Nodup) (hne : ∀ a ∈ axes, D.x.shape.getD a 0 ≠ 0) (h : handleReduceSum axes s = some v) :
    v.ExpandsTo (linear (laxReduceSum · axes) D) := handleReduceSum_expands hw hD hn hne h

theorem c45_gather {starts : Arr ℤ} {concrete : Bool} {g : GatherDims} {sizes : List ℕ} {mode : GatherMode} {fillv : K}
    {s : SLap K} {v : Val K} {D : DLap K} (hw : s.WF) (hD : s.expand = some D)
    (ok : g.OK D.x.shape starts.shape sizes) (h : handleGather starts concrete g sizes mode fillv s = some v) :
    v.ExpandsTo (affine (fun A => laxGather A starts g sizes mode fillv) (fun A => laxGather A starts g sizes mode 0) D) :=
  handleGather_expands hw hD ok h

theorem c45_dot_general {d : DotDims} {n : ℕ} {l r v : Val K} {D E : DLap K} (hwl : l.WF) (hwr : r.WF)
    (hl : l.lift n = some D) (hr : r.lift n = some E) (ok : d.OK D.x.shape E.x.shape) (hne : ∀ c ∈ d.lc, D.x.shape.getD c 0 ≠ 0)
    (h : handleDot d l r = some v) : v.ExpandsTo (bilinear (laxDot · · d) D E) :=
  handleDot_expands hwl hwr hl hr ok hne h

end

theorem c45_abs_real {s v : SLap ℝ} {D : DLap ℝ} (hw : s.WF) (hD : s.expand = some D)
    (hne : ∀ i, InB D.x.shape i → D.x.get i ≠ 0) (h : handleAbsReal s = some v) :
    v.ExpandsTo (chain1 (fun x => |x|) (fun x => if x = 0 then 0 else if 0 < x then 1 else -1) (fun _ => 0) D) :=
  handleAbsReal_expands hw hD hne h

theorem c45_abs_complex {s : SLap ℂ} {v : SLap ℝ} {D : DLap ℂ} (hw : s.WF) (hD : s.expand = some D)
    (h : handleAbsComplex s = some v) : v.ExpandsTo (absComplex D) := handleAbsComplex_expands hw hD h

/-! ### A concrete program: `Σ_ij f(|r_i - r_j|²) + Σ_i w · r_i` for two particles in three dimensions -/

/-- Positions of two particles. -/
def pos : Arr ℚ := ⟨[2, 3], fun i => 1 + (i.headD 0 : ℚ) * 3 + (i.getD 1 0 : ℚ)⟩

/-- A weight vector. -/
def wts : Arr ℚ := ⟨[3], fun i => 1 + (i.headD 0 : ℚ)⟩

/-- `r[:, None] - r[None]`, squared and summed, `x ↦ x²`, summed (dense from here on); `r @ w`, summed; their sum. -/
def pairProg : List (Eqn ℚ) := [
  ⟨.broadcastInDim [2, 1, 3] [0, 2], [0]⟩,
  ⟨.broadcastInDim [1, 2, 3] [1, 2], [0]⟩,
  ⟨.addSub true, [2, 3]⟩,
  ⟨.mul, [4, 4]⟩,
  ⟨.reduceSum [2], [5]⟩,
  ⟨.unary (fun x => x ^ 2) (fun x => 2 * x) (fun _ => 2), [6]⟩,
  ⟨.reduceSum [0, 1], [7]⟩,
  ⟨.dot ⟨[1], [0], [], []⟩, [0, 1]⟩,
  ⟨.reduceSum [0], [9]⟩,
  ⟨.addSub false, [8, 10]⟩]

/-- Shapes of all values of the run. -/
def pairShapes : List (List ℕ) :=
  [[2, 3], [3], [2, 1, 3], [1, 2, 3], [2, 2, 3], [2, 2, 3], [2, 2], [2, 2], [], [2], [], []]

theorem pair_runs : ∃ s out, seedInput pos (fullA [] 1) 0 = some s ∧ runProg pairProg [.sparse s, .plain wts] = some out ∧
    out.map (fun v => v.arr.shape) = pairShapes ∧
    out.map (fun v => match v with | .plain _ => 0 | .sparse s => s.jac.roles.length | .dense _ => 9) = [1, 0, 1, 1, 2, 2, 2, 2, 9, 1, 9, 9] := by
  have hs : (seedInput pos (fullA [] 1) 0).isSome = true := by decide +kernel
  obtain ⟨s, hs⟩ := Option.isSome_iff_exists.1 hs
  have h : ((seedInput pos (fullA [] 1) 0).bind fun s => (runProg pairProg [.sparse s, .plain wts]).map fun out =>
      (out.map (fun v => v.arr.shape),
       out.map (fun v => match v with | .plain _ => 0 | .sparse s => s.jac.roles.length | .dense _ => 9))) =
      some (pairShapes, [1, 0, 1, 1, 2, 2, 2, 2, 9, 1, 9, 9]) := by decide +kernel
  rw [hs] at h
  simp only [Option.bind_some, Option.map_eq_some_iff] at h
  obtain ⟨out, h1, h2⟩ := h
  simp only [Prod.mk.injEq] at h2
  exact ⟨s, out, hs, h1, h2.1, h2.2⟩

/-- The hypotheses of `c45_program_partial` hold for this program: it runs partly sparse (one and two owners), partly dense. -/
theorem c45_program_example : ∃ s out, seedInput pos (fullA [] 1) 0 = some s ∧ runProg pairProg [.sparse s, .plain wts] = some out ∧
    ∃ D L, D.Same (seed pos ((fullA [] 1).bcast [2, 3])) ∧ L.length = 10 ∧
      out.mapM (Val.lift 6) = some (D :: const 6 wts :: L) ∧ DenseRun 6 pairProg 2 (D :: const 6 wts :: L) := by
  obtain ⟨s, out, hs, hr, hsh, -⟩ := pair_runs
  refine ⟨s, out, hs, hr, ?_⟩
  have hx : ∀ (a : ℕ) (sh : List ℕ), pairShapes[a]? = some sh → ∀ v : Val ℚ, out[a]? = some v → ∀ D : DLap ℚ, v.lift 6 = some D → D.x.shape = sh := by
    intro a sh ha v hv D hD
    rw [lift_x hD]
    rw [← hsh, List.getElem?_map, hv] at ha
    simpa using ha
  have h1 : ∀ (a : ℕ) (sh : List ℕ), pairShapes[a]? = some sh → ∀ (vs : List (Val ℚ)) Ds, ([a].mapM (out[·]?)) = some vs → vs.mapM (Val.lift 6) = some Ds →
      ∃ D, Ds = [D] ∧ D.x.shape = sh := by
    intro a sh ha vs Ds h2 h3
    obtain ⟨v, vs', hv, hn, rfl⟩ := mapM_cons_some h2
    have : vs' = [] := by simpa using hn.symm
    subst this
    obtain ⟨D, Ds', hD, hn', rfl⟩ := mapM_cons_some h3
    have : Ds' = [] := by simpa using hn'.symm
    subst this
    exact ⟨D, rfl, hx a sh ha v hv D hD⟩
  have h2 : ∀ (a b : ℕ) (sh th : List ℕ), pairShapes[a]? = some sh → pairShapes[b]? = some th → ∀ (vs : List (Val ℚ)) Ds, ([a, b].mapM (out[·]?)) = some vs →
      vs.mapM (Val.lift 6) = some Ds → ∃ D E, Ds = [D, E] ∧ D.x.shape = sh ∧ E.x.shape = th := by
    intro a b sh th ha hb vs Ds h2 h3
    obtain ⟨v, vs', hv, hn, rfl⟩ := mapM_cons_some h2
    obtain ⟨u, us', hu, hn', rfl⟩ := mapM_cons_some hn
    have : us' = [] := by simpa using hn'.symm
    subst this
    obtain ⟨D, Ds', hD, hn', rfl⟩ := mapM_cons_some h3
    obtain ⟨E, Ds'', hE, hn'', rfl⟩ := mapM_cons_some hn'
    have : Ds'' = [] := by simpa using hn''.symm
    subst this
    exact ⟨D, E, rfl, hx a sh ha v hv D hD, hx b th hb u hu E hE⟩
  have hpre : ∀ e ∈ pairProg, ∀ vs Ds, e.args.mapM (out[·]?) = some vs → vs.mapM (Val.lift pos.shape.prod) = some Ds → e.op.Pre vs Ds := by
    intro e he vs Ds hv hd
    simp only [pairProg, List.mem_cons, List.not_mem_nil, or_false] at he
    rcases he with rfl | rfl | rfl | rfl | rfl | rfl | rfl | rfl | rfl | rfl
    · obtain ⟨D, rfl, hD⟩ := h1 0 _ rfl _ _ hv hd; show _ = _; rw [hD]; rfl
    · obtain ⟨D, rfl, hD⟩ := h1 0 _ rfl _ _ hv hd; show _ = _; rw [hD]; rfl
    · obtain ⟨D, E, rfl, hD, hE⟩ := h2 2 3 _ _ rfl rfl _ _ hv hd
      show Compat _ _; rw [hD, hE]; unfold Compat; decide
    · obtain ⟨D, E, rfl, hD, hE⟩ := h2 4 4 _ _ rfl rfl _ _ hv hd
      show Compat _ _; rw [hD, hE]; unfold Compat; decide
    · obtain ⟨D, rfl, hD⟩ := h1 5 _ rfl _ _ hv hd; show _ ∧ _; rw [hD]; decide
    · obtain ⟨D, rfl, hD⟩ := h1 6 _ rfl _ _ hv hd; trivial
    · obtain ⟨D, rfl, hD⟩ := h1 7 _ rfl _ _ hv hd; show _ ∧ _; rw [hD]; decide
    · obtain ⟨D, E, rfl, hD, hE⟩ := h2 0 1 _ _ rfl rfl _ _ hv hd
      show DotDims.OK _ _ _ ∧ _; rw [hD, hE]; exact ⟨⟨by decide, by decide, by decide, by decide, by decide, by decide⟩, by decide⟩
    · obtain ⟨D, rfl, hD⟩ := h1 9 _ rfl _ _ hv hd; show _ ∧ _; rw [hD]; decide
    · obtain ⟨D, E, rfl, hD, hE⟩ := h2 8 10 _ _ rfl rfl _ _ hv hd
      show Compat _ _; rw [hD, hE]; unfold Compat; decide
  exact c45_program_partial (K := ℚ) (by decide) hs [wts] pairProg hr hpre

end Jaqmc.Sparse.Props
