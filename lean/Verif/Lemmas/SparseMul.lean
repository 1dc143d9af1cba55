import Verif.Lemmas.SparseBinary
/-! Multiplication, powers and division (C45). -/
namespace Jaqmc.Sparse
open Spec
variable {K : Type} [Field K]

theorem blockDot_shape (s c : ℕ) (A B : Arr K) : (blockDot s c A B).shape = A.shape.drop 2 := rfl

/-- Everything the two multiplication rules share: the shape and value part of `a * b` for broadcast operands. -/
theorem mul_finish {a₀ b₀ a b : SLap K} {D E : DLap K} {sh : List ℕ} (hwa : a₀.WF) (hwb : b₀.WF)
    (hD : a₀.expand = some D) (hE : b₀.expand = some E) (hn : a₀.jac.inShape = b₀.jac.inShape)
    (hsh : sh = bshape a₀.x.shape b₀.x.shape)
    (ha : broadcastSL a₀ sh = some a) (hb : broadcastSL b₀ sh = some b) {j : SJac K} {C : Arr K}
    (hv : j.Valid) (hout : j.out = sh) (hin : j.inShape = a₀.jac.inShape)
    (hres : ∀ o ∈ j.roles, o ∈ a.jac.roles ∨ o ∈ b.jac.roles) (hC : C.shape = sh)
    (hrow : ∀ i, InB sh i → ∀ r, r < a₀.jac.inShape.prod →
      (j.row r).get i = b.x.get i * (a.jac.row r).get i + a.x.get i * (b.jac.row r).get i)
    (hCg : ∀ i, InB sh i → C.get i = ∑ r ∈ Finset.range a₀.jac.inShape.prod, (a.jac.row r).get i * (b.jac.row r).get i) :
    SLap.ExpandsTo ⟨binop (· * ·) a.x b.x, j,
      binop (· + ·) (binop (· + ·) (binop (· * ·) b.x a.lap) (binop (· * ·) a.x b.lap)) (C.map (2 * ·))⟩ (chain2 mulF D E) := by
  obtain ⟨wa, oa, xa, la, ja⟩ := broadcastSL_some hwa ha
  obtain ⟨wb, ob, xb, lb, jb⟩ := broadcastSL_some hwb hb
  have sxa : a.x.shape = sh := by rw [xa]; rfl
  have sxb : b.x.shape = sh := by rw [xb]; rfl
  have sla : a.lap.shape = sh := by rw [la]; rfl
  have slb : b.lap.shape = sh := by rw [lb]; rfl
  have s1 := binop_same_shape (· * ·) sxb sla
  have s2 := binop_same_shape (· * ·) sxa slb
  have s3 := binop_same_shape (· + ·) s1 s2
  have hlsa : a₀.lap.shape = a₀.x.shape := by rw [hwa.lap, hwa.x]
  have hlsb : b₀.lap.shape = b₀.x.shape := by rw [hwb.lap, hwb.x]
  refine ruleSS hwa hwb hD hE (by rw [hn]) hsh (bfacts hwa ja) (bfacts hwb jb) hv hout hin hres ?_ ?_ ?_ ?_ ?_
  · exact binop_same_shape _ sxa sxb
  · exact binop_same_shape _ s3 hC
  · intro i hi
    exact (binop_same_get _ sxa sxb hi).trans (by rw [xa, xb]; rfl)
  · intro i hi r hr
    simp only
    rw [hrow i hi r hr, xa, xb]
    rfl
  · intro i hi
    simp only
    rw [binop_same_get _ s3 (show (C.map (2 * ·)).shape = sh from hC) hi, binop_same_get _ s1 s2 hi, binop_same_get _ sxb sla hi,
      binop_same_get _ sxa slb hi, map_get, hCg i hi, xa, xb, la, lb]
    simp only [bcast_get, mulF, hlsa, hlsb]
    ring

theorem mulLocal1_expands {a₀ b₀ v : SLap K} {D E : DLap K} (hwa : a₀.WF) (hwb : b₀.WF)
    (hD : a₀.expand = some D) (hE : b₀.expand = some E) (h1a : a₀.jac.roles.length = 1) (h1b : b₀.jac.roles.length = 1)
    (h : mulLocal1 a₀ b₀ = some v) : v.ExpandsTo (chain2 mulF D E) := by
  unfold mulLocal1 at h
  simp only [Option.bind_eq_bind, Option.pure_def] at h
  split at h
  · simp at h
  rename_i hc
  simp only [not_not] at hc
  obtain ⟨c1, c2⟩ := compat_iff.mp hc
  simp only [Option.bind_some, Option.bind_eq_some_iff] at h
  obtain ⟨a, haj, b, hbj, as, has, bs, hbs, h⟩ := h
  rw [← hwa.x, ← hwb.x] at haj hbj
  have hra := (expand_some hD).2
  have hrb := (expand_some hE).2
  obtain ⟨wa, oa, xa, la, ja⟩ := broadcastSL_some hwa haj
  obtain ⟨wb, ob, xb, lb, jb⟩ := broadcastSL_some hwb hbj
  have fa := bfacts hwa ja
  have fb := bfacts hwb jb
  have sxa : a.x.shape = b.jac.out := by rw [xa, ob]; rfl
  have sxb : b.x.shape = a.jac.out := by rw [xb, oa]; rfl
  obtain ⟨p1, p2, p3, p4, p5, p6, p7⟩ := scaleSJ_some wa.jac (Or.inl sxb) has
  obtain ⟨q1, q2, q3, q4, q5, q6, q7⟩ := scaleSJ_some wb.jac (Or.inl sxa) hbs
  obtain ⟨o, ho⟩ := role_one (j := a.jac) (by rw [fa.len, h1a])
  obtain ⟨p, hp⟩ := role_one (j := b.jac) (by rw [fb.len, h1b])
  have hin : a.jac.inShape = b.jac.inShape := by rw [fa.inShape, fb.inShape, c1]
  have hax : a.jac.ownAx = b.jac.ownAx := by rw [fa.ownAx, fb.ownAx, c2]
  have hcross : ∀ i, InB (bshape a₀.x.shape b₀.x.shape) i →
      ∑ r ∈ Finset.range a₀.jac.inShape.prod, (a.jac.row r).get i * (b.jac.row r).get i =
      if o.at i = p.at i then (blockDot 1 a.jac.coords a.jac.blocks b.jac.blocks).get i else 0 := by
    intro i hi
    have := sum_row_mul hin hax wa.jac.axis id (fun _ _ => rfl) rfl (i := i)
      (fun o ho => at_lt wa.jac ho (fa.resh hra o ho) (by rw [oa]; exact hi))
    simp only [id] at this
    rw [← fa.inShape, this, ho, hp]
    simp [blockDot]
  have hrowS : ∀ i, InB (bshape a₀.x.shape b₀.x.shape) i → ∀ r, r < a₀.jac.inShape.prod →
      (as.row r).get i + (bs.row r).get i = b.x.get i * (a.jac.row r).get i + a.x.get i * (b.jac.row r).get i := by
    intro i hi r hr
    rw [scaleSJ_row wa.jac (Or.inl sxb) has (by rw [oa]; exact hi) (by rw [fa.inShape]; exact hr),
      scaleSJ_row wb.jac (Or.inl sxa) hbs (by rw [ob]; exact hi) (by rw [← hin, fa.inShape]; exact hr), sxa, sxb,
      bsrc_self (by rw [oa]; exact hi), bsrc_self (by rw [ob]; exact hi)]
  have hCs : (blockDot 1 a.jac.coords a.jac.blocks b.jac.blocks).shape = bshape a₀.x.shape b₀.x.shape := oa
  split at h
  · rename_i hroles
    simp only [Option.bind_eq_some_iff, Option.some.injEq] at h
    obtain ⟨j, hj, rfl⟩ := h
    obtain ⟨je, j1, _⟩ := withBlocks_some hj
    have hbsh : bs.blocks.shape = as.blocks.shape := by
      rw [p6, q6, wa.jac.shape, wb.jac.shape, hroles, oa, ob]
      simp only [SJac.coords, hin, hax]
    have hop : o = p := by rw [ho, hp] at hroles; simpa using hroles
    refine mul_finish hwa hwb hD hE c1 rfl haj hbj j1 ?_ ?_ ?_ hCs ?_ ?_
    · rw [je]; show List.drop 2 (binop _ _ _).shape = _
      rw [binop_same_shape _ rfl hbsh, p6]; exact oa
    · rw [je]; exact p3.trans fa.inShape
    · rw [je]; intro o' h'; exact Or.inl (p5 ▸ h')
    · intro i hi r hr
      rw [← hrowS i hi r hr]
      have hoa : as.roles = [o] := p5.trans ho
      have hob : bs.roles = [o] := by rw [q5, hp, hop]
      rw [row_one (j := j) (o := o) (by rw [je]; exact hoa), row_one (j := as) (o := o) hoa, row_one (j := bs) (o := o) hob]
      have hr' : rowCoord as.inShape as.ownAx r < as.coords := rowCoord_lt (by rw [p3, fa.inShape]; exact hr)
      have e := binop_same_get (· + ·) (A := as.blocks) (B := bs.blocks) rfl hbsh (i := 0 :: rowCoord as.inShape as.ownAx r :: i) (by
        rw [p1.shape, hoa, p2, oa]
        exact inB_cons.mpr ⟨by simp, inB_cons.mpr ⟨hr', hi⟩⟩)
      rw [je]
      simp only
      rw [e]
      simp only [p3, p4, q3, q4, hin, hax]
      ring
    · intro i hi
      rw [hcross i hi, if_pos (by rw [hop])]
  · split at h
    · rename_i o' _ p' _ ho' hp'
      rw [ho] at ho'; rw [hp] at hp'
      obtain ⟨rfl, _⟩ := List.cons.inj ho'
      obtain ⟨rfl, _⟩ := List.cons.inj hp'
      simp only [Option.bind_eq_some_iff, Option.some.injEq] at h
      obtain ⟨m, hm, j, hj, rfl⟩ := h
      obtain ⟨j1, j2, j3, j4, j5, j6⟩ := liftLocal2_some p1 (by rw [p5, ho]; rfl) (by rw [q5, hp]; rfl) hj
      refine mul_finish hwa hwb hD hE c1 rfl haj hbj (C := maskA m (blockDot 1 a.jac.coords a.jac.blocks b.jac.blocks)) j1
        (by rw [j2, p2, oa]) (by rw [j3, p3, fa.inShape]) (by rw [p5, q5] at j5; exact j5) hCs ?_ ?_
      · intro i hi r hr
        rw [← hrowS i hi r hr, j6, one_mul]
      · intro i hi
        rw [hcross i hi]
        unfold ownerMask at hm
        split at hm
        · obtain rfl := Option.some.inj hm
          simp [maskA]
        · cases hm
    · cases h

theorem crossTerm_some {a b : SJac K} {s t : ℕ} {T : Arr K} (h : crossTerm a b s t = some T) :
    T.shape = a.out ∧ ∃ o p, a.roles[s]? = some o ∧ b.roles[t]? = some p ∧
      ∀ i, T.get i = if o.at i = p.at i then ∑ c ∈ Finset.range a.coords, a.blocks.get (s :: c :: i) * b.blocks.get (t :: c :: i) else 0 := by
  unfold crossTerm at h
  simp only [Option.bind_eq_bind, Option.pure_def, Option.bind_eq_some_iff, Option.some.injEq] at h
  obtain ⟨o, ho, p, hp, m, hm, rfl⟩ := h
  refine ⟨rfl, o, p, ho, hp, fun i => ?_⟩
  unfold ownerMask at hm
  split at hm
  · obtain rfl := Option.some.inj hm
    simp [maskA]
  · cases hm

theorem crossTrace2_some {a b : SJac K} (hva : a.Valid) (hin : a.inShape = b.inShape) (hax : a.ownAx = b.ownAx)
    (h2a : a.roles.length = 2) (h2b : b.roles.length = 2) (hra : ∀ o ∈ a.roles, o.reshapable = true) {T : Arr K}
    (h : crossTrace2 a b = some T) :
    T.shape = a.out ∧ ∀ i, InB a.out i → T.get i = ∑ r ∈ Finset.range a.inShape.prod, (a.row r).get i * (b.row r).get i := by
  unfold crossTrace2 at h
  simp only [Option.bind_eq_bind, Option.pure_def, Option.bind_eq_some_iff, Option.some.injEq] at h
  obtain ⟨t00, h00, t01, h01, t10, h10, t11, h11, rfl⟩ := h
  obtain ⟨s00, o, p, ho, hp, g00⟩ := crossTerm_some h00
  obtain ⟨s01, o1, p1, ho1, hp1, g01⟩ := crossTerm_some h01
  obtain ⟨s10, o2, p2, ho2, hp2, g10⟩ := crossTerm_some h10
  obtain ⟨s11, o3, p3, ho3, hp3, g11⟩ := crossTerm_some h11
  have s1 := binop_same_shape (· + ·) (A := fullA a.out (0 : K)) rfl s00
  have s2 := binop_same_shape (· + ·) s1 s01
  have s3 := binop_same_shape (· + ·) s2 s10
  refine ⟨binop_same_shape _ s3 s11, fun i hi => ?_⟩
  have := sum_row_mul hin hax hva.axis id (fun _ _ => rfl) rfl (i := i) (fun o ho => at_lt hva ho (hra o ho) hi)
  simp only [id] at this
  rw [this, binop_same_get _ s3 s11 hi, binop_same_get _ s2 s10 hi, binop_same_get _ s1 s01 hi,
    binop_same_get _ (by rfl) s00 hi, g00, g01, g10, g11, h2a, h2b]
  simp only [Finset.sum_range_succ, Finset.sum_range_zero, zero_add, ho, hp, hp1, ho2, full_get]
  rw [ho] at ho1; rw [hp] at hp2; rw [ho2] at ho3; rw [hp1] at hp3
  obtain rfl := Option.some.inj ho1
  obtain rfl := Option.some.inj hp2
  obtain rfl := Option.some.inj ho3
  obtain rfl := Option.some.inj hp3
  ring

theorem mulLocal2_expands {a₀ b₀ v : SLap K} {D E : DLap K} (hwa : a₀.WF) (hwb : b₀.WF)
    (hD : a₀.expand = some D) (hE : b₀.expand = some E) (h2a : a₀.jac.roles.length = 2) (h2b : b₀.jac.roles.length = 2)
    (h : mulLocal2 a₀ b₀ = some (some v)) : v.ExpandsTo (chain2 mulF D E) := by
  unfold mulLocal2 at h
  simp only [Option.bind_eq_bind, Option.pure_def] at h
  split at h
  · simp at h
  rename_i hc
  simp only [not_not] at hc
  obtain ⟨c1, c2⟩ := compat_iff.mp hc
  simp only [Option.bind_some, Option.bind_eq_some_iff] at h
  obtain ⟨a, haj, b, hbj, h⟩ := h
  rw [← hwa.x, ← hwb.x] at haj hbj
  have hra := (expand_some hD).2
  obtain ⟨wa, oa, xa, la, ja⟩ := broadcastSL_some hwa haj
  obtain ⟨wb, ob, xb, lb, jb⟩ := broadcastSL_some hwb hbj
  have fa := bfacts hwa ja
  have fb := bfacts hwb jb
  have sxa : a.x.shape = b.jac.out := by rw [xa, ob]; rfl
  have sxb : b.x.shape = a.jac.out := by rw [xb, oa]; rfl
  have hin : a.jac.inShape = b.jac.inShape := by rw [fa.inShape, fb.inShape, c1]
  have hax : a.jac.ownAx = b.jac.ownAx := by rw [fa.ownAx, fb.ownAx, c2]
  split at h
  · simp at h
  rename_i roles ls rs hm
  simp only [Option.bind_eq_some_iff, Option.some.injEq] at h
  obtain ⟨as, has, bs, hbs, C, hC, j, hj, rfl⟩ := h
  obtain ⟨p1, p2, p3, p4, p5, p6, p7⟩ := scaleSJ_some wa.jac (Or.inl sxb) has
  obtain ⟨q1, q2, q3, q4, q5, q6, q7⟩ := scaleSJ_some wb.jac (Or.inl sxa) hbs
  obtain ⟨m1, m2, m3, m4, m5⟩ := mergeLocal2_some hm
  obtain ⟨je, j1, _⟩ := withBlocks_some hj
  obtain ⟨C1, C2⟩ := crossTrace2_some wa.jac hin hax (by rw [fa.len, h2a]) (by rw [fb.len, h2b]) (fa.resh hra) hC
  refine mul_finish hwa hwb hD hE c1 rfl haj hbj j1 ?_ ?_ ?_ (C1.trans oa) ?_ ?_
  · rw [je]; show List.drop 2 (mergeBlocks _ _ _ _).shape = _
    rw [mergeBlocks_shape, p6]; exact oa
  · rw [je]; exact p3.trans fa.inShape
  · rw [je]; exact m5
  · intro i hi r hr
    rw [merge_row hm hj p5 q5 (by rw [p3, q3, hin]) (by rw [p4, q4, hax]) (by rw [p3, fa.inShape]; exact hr),
      scaleSJ_row wa.jac (Or.inl sxb) has (by rw [oa]; exact hi) (by rw [fa.inShape]; exact hr),
      scaleSJ_row wb.jac (Or.inl sxa) hbs (by rw [ob]; exact hi) (by rw [← hin, fa.inShape]; exact hr), sxa, sxb,
      bsrc_self (by rw [oa]; exact hi), bsrc_self (by rw [ob]; exact hi)]
  · intro i hi
    rw [C2 i (by rw [oa]; exact hi), fa.inShape]

/-- Scaling by a plain operand (`x * c` and `x / c`). -/
theorem scaled_expands {F : Fun2 K} {a : SLap K} {p : Arr K} {D : DLap K} {s : SLap K} {q w : Arr K} {j : SJac K} (hwa : a.WF)
    (hD : a.expand = some D) (hs : toCommon a p = some (s, q)) (hw : w.shape = bshape a.x.shape p.shape)
    (hj : scaleSJ s.jac w = some j)
    (hf : ∀ i, InB (bshape a.x.shape p.shape) i → ∀ u, F.f u (p.get (bsrc p.shape i)) = u * w.get i)
    (hd : ∀ i, InB (bshape a.x.shape p.shape) i → ∀ u, F.d1 u (p.get (bsrc p.shape i)) = w.get i)
    (hdd : ∀ u c, F.d11 u c = 0) :
    SLap.ExpandsTo ⟨binop (· * ·) s.x w, j, binop (· * ·) s.lap w⟩ (chain2 F D (const D.n p)) := by
  obtain ⟨rfl, ws, hout, hx, hla, hjj⟩ := toCommon_some hwa hs
  have hb := common_bfacts hwa hs
  have hls : a.lap.shape = a.x.shape := by rw [hwa.lap, hwa.x]
  have hxs : s.x.shape = bshape a.x.shape p.shape := by rw [hx]; rfl
  have hlss : s.lap.shape = bshape a.x.shape p.shape := by rw [hla]; rfl
  obtain ⟨j1, j2, j3, j4, j5, _, _⟩ := scaleSJ_some ws.jac (Or.inl (hw.trans hout.symm)) hj
  refine ruleSP hwa hD rfl hb j1 (j2.trans hout) (j3.trans hb.inShape) (fun o ho => j5 ▸ ho) ?_ ?_ ?_ ?_ ?_
  · exact binop_same_shape _ hxs hw
  · exact binop_same_shape _ hlss hw
  · intro i hi
    rw [hf i hi]
    exact (binop_same_get _ hxs hw hi).trans (by rw [hx]; rfl)
  · intro i hi r hr
    rw [hd i hi, scaleSJ_row ws.jac (Or.inl (hw.trans hout.symm)) hj (hout ▸ hi) (by rw [hb.inShape]; exact hr), hw, bsrc_self hi]
  · intro i hi
    rw [hd i hi, hdd]
    refine (binop_same_get _ hlss hw hi).trans ?_
    rw [hla, bcast_get, hls]; ring

theorem handleMul_expands {n : ℕ} {l r v : Val K} {D E : DLap K} (hwl : l.WF) (hwr : r.WF)
    (hl : l.lift n = some D) (hr : r.lift n = some E) (hc : Compat D.x.shape E.x.shape)
    (h : handleMul l r = some v) : v.ExpandsTo (chain2 mulF D E) := by
  unfold handleMul at h
  simp only [Option.bind_eq_bind, Option.pure_def] at h
  split at h
  · rename_i a p
    obtain ⟨na, hD⟩ := lift_sparse hl
    obtain rfl := lift_plain hr
    simp only [Option.bind_eq_some_iff, Option.some.injEq] at h
    obtain ⟨⟨s, q⟩, hs, j, hj, rfl⟩ := h
    rw [← lift_n hl]
    have hq := (toCommon_some hwl hs).1
    refine scaled_expands (F := mulF) hwl hD hs (by rw [hq]; rfl) hj (fun i _ u => ?_) (fun i _ u => ?_) fun _ _ => rfl
    · rw [hq]; rfl
    · rw [hq]; rfl
  · rename_i p a
    obtain ⟨na, hE⟩ := lift_sparse hr
    obtain rfl := lift_plain hl
    simp only [Option.bind_eq_some_iff, Option.some.injEq] at h
    obtain ⟨⟨s, q⟩, hs, j, hj, rfl⟩ := h
    have hq := (toCommon_some hwr hs).1
    have key : SLap.ExpandsTo ⟨binop (· * ·) s.x q, j, binop (· * ·) s.lap q⟩ (chain2 mulF E (const E.n p)) :=
      scaled_expands (F := mulF) hwr hE hs (by rw [hq]; rfl) hj (fun i _ u => by rw [hq]; rfl) (fun i _ u => by rw [hq]; rfl) fun _ _ => rfl
    have hsx : a.x.shape = E.x.shape := by rw [(expand_some hE).1]
    refine SLap.ExpandsTo.congr key ?_
    have hcm : bshape E.x.shape p.shape = bshape p.shape E.x.shape := (bshape_comm hc).symm
    rw [lift_n hr]
    refine ⟨⟨hcm, fun i _ => ?_⟩, show E.n = n from lift_n hr, fun r _ => ⟨hcm, fun i _ => ?_⟩, ⟨hcm, fun i _ => ?_⟩⟩
    · simp only [chain2, mulF, const, bcast_get]; ring
    · simp only [chain2, mulF, const, bcast_get, full_get]; ring
    · simp only [chain2, mulF, const, bcast_get, full_get]; simp
  · rename_i a b
    obtain ⟨na, hD⟩ := lift_sparse hl
    obtain ⟨nb, hE⟩ := lift_sparse hr
    split at h
    · rename_i h1
      simp only [Option.map_eq_some_iff] at h
      obtain ⟨w, hw, rfl⟩ := h
      exact mulLocal1_expands hwl hwr hD hE h1.1 h1.2 hw
    · split at h
      · rename_i h2
        simp only [Option.bind_eq_some_iff] at h
        obtain ⟨w, hw, h⟩ := h
        split at h
        · obtain rfl := Option.some.inj h
          exact mulLocal2_expands hwl hwr hD hE h2.1 h2.2 hw
        · exact dense2_expands hl hr h
      · exact dense2_expands hl hr h
  · exact dense2_expands hl hr h

theorem handlePow_expands {pw pw1 pw2 : K → K → K} {n : ℕ} {a : SLap K} {p : Arr K} {v : Val K} {dense : Option (Val K)} {D : DLap K}
    (hwa : a.WF) (hl : (Val.sparse a).lift n = some D) (h : handlePow pw pw1 pw2 (.sparse a) (.plain p) dense = some v) :
    v.ExpandsTo (chain2 (powF pw pw1 pw2) D (const n p)) := by
  unfold handlePow at h
  simp only [Option.bind_eq_bind, Option.pure_def, Option.bind_eq_some_iff, Option.some.injEq] at h
  obtain ⟨⟨s, q⟩, hs, j, hj, T, hT, rfl⟩ := h
  obtain ⟨na, hD⟩ := lift_sparse hl
  obtain ⟨rfl, ws, hout, hx, hla, hjj⟩ := toCommon_some hwa hs
  have hb := common_bfacts hwa hs
  rw [← lift_n hl]
  have hra := (expand_some hD).2
  have hls : a.lap.shape = a.x.shape := by rw [hwa.lap, hwa.x]
  have hxs : s.x.shape = bshape a.x.shape p.shape := by rw [hx]; rfl
  have hlss : s.lap.shape = bshape a.x.shape p.shape := by rw [hla]; rfl
  have f1 := binop_same_shape pw1 (B := p.bcast (bshape a.x.shape p.shape)) hxs rfl
  have f2 := binop_same_shape pw2 (B := p.bcast (bshape a.x.shape p.shape)) hxs rfl
  obtain ⟨j1, j2, j3, j4, j5, _, _⟩ := scaleSJ_some ws.jac (Or.inl (f1.trans hout.symm)) hj
  obtain ⟨T1, T2⟩ := sparseTrace_id ws.jac (hb.resh hra) hT
  have hTs := T1.trans hout
  have s1 := binop_same_shape (· * ·) f1 hlss
  have s2 := binop_same_shape (· * ·) f2 hTs
  have g1 : ∀ i, InB (bshape a.x.shape p.shape) i → (binop pw1 s.x (p.bcast (bshape a.x.shape p.shape))).get i =
      pw1 (a.x.get (bsrc a.x.shape i)) (p.get (bsrc p.shape i)) := fun i hi =>
    (binop_same_get _ hxs (by rfl) hi).trans (by rw [hx]; rfl)
  have g2 : ∀ i, InB (bshape a.x.shape p.shape) i → (binop pw2 s.x (p.bcast (bshape a.x.shape p.shape))).get i =
      pw2 (a.x.get (bsrc a.x.shape i)) (p.get (bsrc p.shape i)) := fun i hi =>
    (binop_same_get _ hxs (by rfl) hi).trans (by rw [hx]; rfl)
  refine ruleSP hwa hD rfl hb j1 (j2.trans hout) (j3.trans hb.inShape) (fun o ho => j5 ▸ ho) ?_ ?_ ?_ ?_ ?_
  · exact binop_same_shape _ hxs rfl
  · exact binop_same_shape _ s1 s2
  · intro i hi
    exact (binop_same_get _ hxs (by rfl) hi).trans (by rw [hx]; rfl)
  · intro i hi r hr
    simp only
    rw [scaleSJ_row ws.jac (Or.inl (f1.trans hout.symm)) hj (hout ▸ hi) (by rw [hb.inShape]; exact hr), f1, bsrc_self hi, g1 i hi]
    rfl
  · intro i hi
    simp only
    rw [binop_same_get _ s1 s2 hi, binop_same_get _ f1 hlss hi, binop_same_get _ f2 hTs hi, g1 i hi, g2 i hi, hla, bcast_get, hls,
      T2 i (hout ▸ hi), hb.inShape]
    rfl

theorem sparseReciprocal_expands {s v : SLap K} {D : DLap K} (hw : s.WF) (hD : s.expand = some D)
    (h : sparseReciprocal s = some v) :
    v.ExpandsTo (chain1 (fun x => x⁻¹) (fun x => -(x⁻¹ * x⁻¹)) (fun x => 2 * (x⁻¹ * x⁻¹ * x⁻¹)) D) := by
  unfold sparseReciprocal at h
  simp only [Option.bind_eq_bind, Option.pure_def, Option.bind_eq_some_iff, Option.some.injEq] at h
  obtain ⟨T, hT, j, hj, rfl⟩ := h
  obtain ⟨rfl, hr⟩ := expand_some hD
  have si : (s.x.map (·⁻¹)).shape = s.jac.out := hw.x
  have ssq := binop_same_shape (· * ·) si si
  have scu := binop_same_shape (· * ·) ssq si
  have hf : ((binop (· * ·) (s.x.map (·⁻¹)) (s.x.map (·⁻¹))).map (- ·)).shape = s.jac.out := ssq
  obtain ⟨j1, j2, j3, j4, j5, _, _⟩ := scaleSJ_some hw.jac (Or.inl hf) hj
  obtain ⟨T1, T2⟩ := sparseTrace_id hw.jac hr hT
  have s1 := binop_same_shape (· * ·) (A := s.lap.map (- ·)) hw.lap ssq
  have s2 := binop_same_shape (· * ·) (A := T.map (2 * ·)) T1 scu
  apply expandsTo_intro
  · exact ⟨j1, by rw [j2]; exact hw.x, by rw [j2]; exact binop_same_shape _ s1 s2⟩
  · intro o ho; exact hr o (j5 ▸ ho)
  · simp [chain1, j3]
  · exact ⟨rfl, fun i _ => rfl⟩
  · intro r hr'
    refine ⟨by simp [row_shape, chain1, j2, hw.x], fun i hi => ?_⟩
    rw [row_shape, j2] at hi
    rw [scaleSJ_row hw.jac (Or.inl hf) hj hi hr', hf, bsrc_self hi, map_get, binop_same_get _ si si hi]; rfl
  · refine ⟨by rw [binop_same_shape _ s1 s2]; exact hw.x.symm, fun i hi => ?_⟩
    rw [binop_same_shape _ s1 s2] at hi
    rw [binop_same_get _ s1 s2 hi, binop_same_get _ (show (s.lap.map (- ·)).shape = _ from hw.lap) ssq hi, binop_same_get _ si si hi,
      binop_same_get _ (show (T.map (2 * ·)).shape = _ from T1) scu hi,
      binop_same_get _ ssq si hi, binop_same_get _ si si hi]
    simp only [map_get, T2 i hi, chain1]
    ring

end Jaqmc.Sparse
