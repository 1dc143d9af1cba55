import Verif.Lemmas.SparseArith
/-! Addition, subtraction, remainder and multiplication (C45). -/
namespace Jaqmc.Sparse
open Spec
variable {K : Type} [Field K]

/-- Negate or keep. -/
def sg (sub : Bool) : K := if sub then -1 else 1

theorem addLocal1_expands {sub : Bool} {a b v : SLap K} {D E : DLap K} (hwa : a.WF) (hwb : b.WF)
    (hD : a.expand = some D) (hE : b.expand = some E) (h1a : a.jac.roles.length = 1) (h1b : b.jac.roles.length = 1)
    (h : addLocal1 sub a b = some v) : v.ExpandsTo (chain2 (if sub then subF else addF) D E) := by
  unfold addLocal1 at h
  simp only [Option.bind_eq_bind, Option.pure_def] at h
  split at h
  · simp at h
  rename_i hc
  simp only [not_not] at hc
  obtain ⟨c1, c2⟩ := compat_iff.mp hc
  simp only [Option.bind_some, Option.bind_eq_some_iff] at h
  obtain ⟨aj, haj, bj, hbj, h⟩ := h
  rw [← hwa.x, ← hwb.x] at haj hbj
  have ha := bfacts hwa haj
  have hb := bfacts hwb hbj
  have hx : (if sub = true then binop (· - ·) a.x b.x else binop (· + ·) a.x b.x).shape = bshape a.x.shape b.x.shape := by
    cases sub <;> rfl
  have hl : (binop (· + ·) a.lap (if sub = true then b.lap.map (- ·) else b.lap)).shape = bshape a.x.shape b.x.shape := by
    cases sub <;> simp [binop, map_shape, hwa.lap, hwb.lap, hwa.x, hwb.x]
  have hls : a.lap.shape = a.x.shape := by rw [hwa.lap, hwa.x]
  have hls' : b.lap.shape = b.x.shape := by rw [hwb.lap, hwb.x]
  have fin : ∀ j : SJac K, j.Valid → j.out = bshape a.x.shape b.x.shape → j.inShape = a.jac.inShape →
      (∀ o ∈ j.roles, o ∈ aj.roles ∨ o ∈ bj.roles) →
      (∀ i, InB (bshape a.x.shape b.x.shape) i → ∀ r, r < a.jac.inShape.prod → (j.row r).get i = (aj.row r).get i + sg sub * (bj.row r).get i) →
      SLap.ExpandsTo ⟨if sub = true then binop (· - ·) a.x b.x else binop (· + ·) a.x b.x, j,
        binop (· + ·) a.lap (if sub = true then b.lap.map (- ·) else b.lap)⟩ (chain2 (if sub then subF else addF) D E) := by
    intro j j1 j2 j3 j4 j5
    refine ruleSS hwa hwb hD hE (by rw [c1]) rfl ha hb j1 j2 j3 j4 hx hl ?_ ?_ ?_
    · intro i _; cases sub <;> rfl
    · intro i hi r hr
      rw [j5 i hi r hr]
      cases sub <;> simp [subF, addF, sg]
    · intro i _
      cases sub <;> simp [subF, addF, binop, map_get, map_shape, hls, hls']
  split at h
  · simp only [Option.bind_eq_some_iff, Option.some.injEq] at h
    obtain ⟨j, hj, rfl⟩ := h
    obtain ⟨j1, j2, j3, j4, j5, j6⟩ := liftLocal2_some ha.valid (by rw [ha.len, h1a]) (by rw [hb.len, h1b]) hj
    exact fin j j1 (by rw [j2, ha.out]) (by rw [j3, ha.inShape]) j5 (fun i _ r _ => j6 r i)
  · rename_i hroles
    simp only [ne_eq, not_not] at hroles
    simp only [Option.bind_eq_some_iff, Option.some.injEq] at h
    obtain ⟨j, hj, rfl⟩ := h
    obtain ⟨rfl, j1, _⟩ := withBlocks_some hj
    have hbs : bj.blocks.shape = aj.blocks.shape := by
      rw [hb.valid.shape, ha.valid.shape, hroles, hb.out, ha.out]
      simp only [SJac.coords, ha.inShape, hb.inShape, ha.ownAx, hb.ownAx, c1, c2]
    have hbs' : (if sub = true then bj.blocks.map (- ·) else bj.blocks).shape = aj.blocks.shape := by
      cases sub <;> simp [map_shape, hbs]
    have hout : (SJac.mk (binop (· + ·) aj.blocks (if sub = true then bj.blocks.map (- ·) else bj.blocks)) aj.roles
        aj.inShape aj.ownAx).out = bshape a.x.shape b.x.shape := by
      show List.drop 2 (binop _ _ _).shape = _
      rw [binop_same_shape _ rfl hbs']; exact ha.out
    refine fin _ j1 hout ha.inShape (fun o ho => Or.inl ho) ?_
    intro i hi r hr
    obtain ⟨o, ho⟩ := role_one (j := aj) (by rw [ha.len, h1a])
    rw [row_one (j := ⟨binop _ _ _, aj.roles, _, _⟩) (o := o) ho, row_one (j := aj) (o := o) ho, row_one (j := bj) (o := o) (hroles ▸ ho)]
    have hr' : rowCoord aj.inShape aj.ownAx r < aj.coords := rowCoord_lt (by rw [ha.inShape]; exact hr)
    have e : (binop (fun x1 x2 => x1 + x2) aj.blocks (if sub = true then bj.blocks.map (- ·) else bj.blocks)).get
        (0 :: rowCoord aj.inShape aj.ownAx r :: i) = aj.blocks.get (0 :: rowCoord aj.inShape aj.ownAx r :: i) +
        sg sub * bj.blocks.get (0 :: rowCoord aj.inShape aj.ownAx r :: i) := by
      rw [binop_same_get _ rfl hbs' (i := 0 :: rowCoord aj.inShape aj.ownAx r :: i)]
      · cases sub <;> simp [sg, map_get]
      · rw [ha.valid.shape, ho, ha.out]
        exact inB_cons.mpr ⟨by simp, inB_cons.mpr ⟨hr', hi⟩⟩
    simp only
    rw [e]
    simp only [ha.inShape, hb.inShape, ha.ownAx, hb.ownAx, c1, c2]
    ring

/-- The Jacobian made by `_Local2BinaryMerge` from operands scaled by `A` and `B`. -/
theorem merge_row {a b as bs j : SJac K} {roles : List OwnerRole} {ls rs : List ℕ}
    (hm : mergeLocal2 a b = some (roles, ls, rs)) (hj : as.withBlocks (mergeBlocks ls rs as.blocks bs.blocks) roles = some j)
    (ra : as.roles = a.roles) (rb : bs.roles = b.roles)
    (hin : bs.inShape = as.inShape) (hax : bs.ownAx = as.ownAx)
    {i : List ℕ} {r : ℕ} (hr : r < as.inShape.prod) :
    (j.row r).get i = (as.row r).get i + (bs.row r).get i := by
  obtain ⟨m1, m2, m3, m4, m5⟩ := mergeLocal2_some hm
  obtain ⟨rfl, _, _⟩ := withBlocks_some hj
  rw [row_merge (j := ⟨mergeBlocks ls rs as.blocks bs.blocks, roles, as.inShape, as.ownAx⟩) (a := as) (b := bs) (ls := ls) (rs := rs)
    ⟨rfl, rfl⟩ ⟨hin.symm, hax.symm⟩ (by rw [m1, ra]) (by rw [m2, rb]) (by rw [ra]; exact m3) (by rw [rb]; exact m4)
    (i := i) (A := fun m c => as.blocks.get (m :: c :: i)) (B := fun m c => bs.blocks.get (m :: c :: i))
    (fun s _ c _ => mergeBlocks_get ls rs as.blocks bs.blocks s c i) hr]
  rfl

theorem addLocal2_expands {sub : Bool} {a b v : SLap K} {D E : DLap K} (hwa : a.WF) (hwb : b.WF)
    (hD : a.expand = some D) (hE : b.expand = some E)
    (h : addLocal2 sub a b = some (some v)) : v.ExpandsTo (chain2 (if sub then subF else addF) D E) := by
  unfold addLocal2 at h
  simp only [Option.bind_eq_bind, Option.pure_def] at h
  split at h
  · simp at h
  rename_i hc
  simp only [not_not] at hc
  obtain ⟨c1, c2⟩ := compat_iff.mp hc
  simp only [Option.bind_some, Option.bind_eq_some_iff] at h
  obtain ⟨aj, haj, bj, hbj, h⟩ := h
  rw [← hwa.x, ← hwb.x] at haj hbj
  have ha := bfacts hwa haj
  have hb := bfacts hwb hbj
  split at h
  · simp at h
  rename_i roles ls rs hm
  simp only [Option.bind_eq_some_iff, Option.some.injEq] at h
  obtain ⟨j, hj, rfl⟩ := h
  have hls : a.lap.shape = a.x.shape := by rw [hwa.lap, hwa.x]
  have hls' : b.lap.shape = b.x.shape := by rw [hwb.lap, hwb.x]
  obtain ⟨m1, m2, m3, m4, m5⟩ := mergeLocal2_some hm
  obtain ⟨je, j1, _⟩ := withBlocks_some hj
  have hrow : ∀ i r, r < aj.inShape.prod → (j.row r).get i = (aj.row r).get i + sg sub * (bj.row r).get i := by
    intro i r hr
    rw [merge_row (as := aj) (bs := ⟨if sub = true then bj.blocks.map (- ·) else bj.blocks, bj.roles, bj.inShape, bj.ownAx⟩) hm hj rfl rfl
      (by simp [ha.inShape, hb.inShape, c1]) (by simp [ha.ownAx, hb.ownAx, c2]) hr]
    congr 1
    rw [row_get, row_get, Finset.mul_sum]
    refine Finset.sum_congr rfl fun s _ => ?_
    cases sub <;> simp [sg, map_get, SJac.sel]
  refine ruleSS hwa hwb hD hE (by rw [c1]) rfl ha hb j1 ?_ ?_ ?_ ?_ ?_ ?_ ?_ ?_
  · rw [je]; show List.drop 2 (mergeBlocks _ _ _ _).shape = _
    rw [mergeBlocks_shape]; exact ha.out
  · rw [je]; exact ha.inShape
  · rw [je]; exact m5
  · cases sub <;> rfl
  · cases sub <;> simp [binop, map_shape, hls, hls']
  · intro i _; cases sub <;> rfl
  · intro i hi r hr
    simp only
    rw [hrow i r (by rw [ha.inShape]; exact hr)]
    cases sub <;> simp [subF, addF, sg]
  · intro i _
    cases sub <;> simp [subF, addF, binop, map_get, map_shape, hls, hls']

/-! ### Dense fallback -/

theorem lift_basis {n : ℕ} {v : Val K} {D : DLap K} (h : v.lift n = some D) : v.basis = none ∨ v.basis = some n := by
  unfold Val.lift at h
  cases v with
  | plain p => exact Or.inl rfl
  | dense d => simp only at h; split at h; · rename_i e; right; simp [Val.basis, e]
               · cases h
  | sparse s => simp only at h; split at h; · rename_i e; right; simp [Val.basis, e]
                · cases h

theorem lift_n {n : ℕ} {v : Val K} {D : DLap K} (h : v.lift n = some D) : D.n = n := by
  unfold Val.lift at h
  cases v with
  | plain p => rw [← Option.some.inj h]; rfl
  | dense d => simp only at h; split at h; · rename_i e; rw [← Option.some.inj h, e]
               · cases h
  | sparse s => simp only at h; split at h; · rename_i e; rw [(expand_some h).1]; exact e
                · cases h

theorem chain2_wf (F : Fun2 K) (D E : DLap K) : (chain2 F D E).WF := ⟨fun _ _ => rfl, rfl⟩

theorem dense2_expands {F : Fun2 K} {n : ℕ} {l r v : Val K} {D E : DLap K} (hl : l.lift n = some D) (hr : r.lift n = some E)
    (h : dense2 F l r = some v) : v.ExpandsTo (chain2 F D E) := by
  unfold dense2 at h
  simp only [Option.bind_eq_bind, Option.bind_eq_some_iff, Option.some.injEq] at h
  obtain ⟨m, hm, D', hD', E', hE', rfl⟩ := h
  have : m = n := by
    unfold basisOf at hm
    rcases lift_basis hl with h1 | h1 <;> rcases lift_basis hr with h2 | h2 <;> simp_all [List.findSome?]
  subst this
  rw [hl] at hD'; rw [hr] at hE'
  obtain rfl := Option.some.inj hD'
  obtain rfl := Option.some.inj hE'
  exact ⟨chain2_wf _ _ _, .refl _⟩

theorem lift_sparse {n : ℕ} {s : SLap K} {D : DLap K} (h : (Val.sparse s).lift n = some D) :
    s.jac.inShape.prod = n ∧ s.expand = some D := by
  unfold Val.lift at h
  simp only at h
  split at h
  · exact ⟨by assumption, h⟩
  · cases h

theorem lift_plain {n : ℕ} {p : Arr K} {D : DLap K} (h : (Val.plain p).lift n = some D) : D = const n p :=
  (Option.some.inj h).symm

/-! ### Sparse with plain, common part -/

theorem common_bfacts {s t : SLap K} {p q : Arr K} (hw : s.WF) (h : toCommon s p = some (t, q)) :
    BFacts s t.jac (bshape s.x.shape p.shape) := bfacts hw (toCommon_some hw h).2.2.2.2.2

theorem handleAddSub_expands {sub : Bool} {n : ℕ} {l r v : Val K} {D E : DLap K} (hwl : l.WF) (hwr : r.WF)
    (hl : l.lift n = some D) (hr : r.lift n = some E) (hc : Compat D.x.shape E.x.shape)
    (h : handleAddSub sub l r = some v) : v.ExpandsTo (chain2 (if sub then subF else addF) D E) := by
  unfold handleAddSub at h
  simp only [Option.bind_eq_bind, Option.pure_def] at h
  split at h
  · rename_i a b
    obtain ⟨na, hD⟩ := lift_sparse hl
    obtain ⟨nb, hE⟩ := lift_sparse hr
    split at h
    · rename_i h1
      simp only [Option.map_eq_some_iff] at h
      obtain ⟨w, hw, rfl⟩ := h
      exact addLocal1_expands hwl hwr hD hE h1.1 h1.2 hw
    · split at h
      · simp only [Option.bind_eq_some_iff] at h
        obtain ⟨w, hw, h⟩ := h
        split at h
        · obtain rfl := Option.some.inj h
          exact addLocal2_expands hwl hwr hD hE hw
        · exact dense2_expands hl hr h
      · exact dense2_expands hl hr h
  · rename_i a p
    obtain ⟨na, hD⟩ := lift_sparse hl
    obtain rfl := lift_plain hr
    simp only [Option.bind_eq_some_iff, Option.some.injEq] at h
    obtain ⟨⟨s, q⟩, hs, rfl⟩ := h
    obtain ⟨rfl, ws, hout, hx, hla, hj⟩ := toCommon_some hwl hs
    have hb := common_bfacts hwl hs
    have hn := lift_n hl
    rw [← hn]
    have hls : a.lap.shape = a.x.shape := by rw [hwl.lap, hwl.x]
    have hxs : s.x.shape = bshape a.x.shape p.shape := by rw [hx]; rfl
    refine ruleSP hwl hD rfl hb ws.jac hout hb.inShape (fun o ho => ho) ?_ ?_ ?_ ?_ ?_
    · cases sub <;> exact binop_same_shape _ hxs rfl
    · show s.lap.shape = _; rw [hla]; rfl
    · intro i hi
      cases sub
      · exact (binop_same_get _ hxs (by rfl) hi).trans (by rw [hx]; rfl)
      · exact (binop_same_get _ hxs (by rfl) hi).trans (by rw [hx]; rfl)
    · intro i hi r _
      cases sub <;> simp [addF, subF]
    · intro i hi
      simp only [hla, bcast_get, hls]
      cases sub <;> simp [addF, subF]
  · rename_i p a
    obtain ⟨na, hE⟩ := lift_sparse hr
    obtain rfl := lift_plain hl
    simp only [Option.bind_eq_some_iff] at h
    obtain ⟨⟨s, q⟩, hs, h⟩ := h
    obtain ⟨rfl, ws, hout, hx, hla, hj⟩ := toCommon_some hwr hs
    have hb := common_bfacts hwr hs
    have hn := lift_n hr
    have hsx : a.x.shape = E.x.shape := by rw [(expand_some hE).1]
    have hcm : bshape p.shape a.x.shape = bshape a.x.shape p.shape := by
      rw [bshape_comm]; rw [hsx]; exact hc
    have hls : a.lap.shape = a.x.shape := by rw [hwr.lap, hwr.x]
    have hxs : s.x.shape = bshape a.x.shape p.shape := by rw [hx]; rfl
    rw [← hn]
    cases sub with
    | true =>
      simp only [if_true, Option.bind_eq_some_iff, Option.some.injEq] at h
      obtain ⟨j, hjs, rfl⟩ := h
      obtain ⟨j1, j2, j3, j4, j5, _, _⟩ := scaleSJ_some ws.jac (Or.inr rfl) hjs
      refine rulePS hwr hE hcm.symm hb j1 (by rw [j2, hout]) (by rw [j3, hb.inShape]) (fun o ho => j5 ▸ ho) ?_ ?_ ?_ ?_ ?_
      · exact binop_same_shape _ rfl hxs
      · show s.lap.shape = _; rw [hla]; rfl
      · intro i hi
        exact (binop_same_get _ (by rfl) hxs hi).trans (by rw [hx]; rfl)
      · intro i hi r hr
        simp only
        rw [scaleSJ_row ws.jac (Or.inr rfl) hjs (hout ▸ hi) (by rw [hb.inShape]; exact hr)]
        rfl
      · intro i hi
        simp only [hla, bcast_get, hls, map_get]
        simp [subF]
    | false =>
      obtain rfl := Option.some.inj h
      refine rulePS hwr hE hcm.symm hb ws.jac hout hb.inShape (fun o ho => ho) ?_ ?_ ?_ ?_ ?_
      · exact binop_same_shape _ rfl hxs
      · show s.lap.shape = _; rw [hla]; rfl
      · intro i hi
        exact (binop_same_get _ (by rfl) hxs hi).trans (by rw [hx]; rfl)
      · intro i hi r _
        simp [addF]
      · intro i hi
        simp only [hla, bcast_get, hls]
        simp [addF]
  · exact dense2_expands hl hr h

theorem handleRem_expands {rem : K → K → K} {n : ℕ} {a : SLap K} {p : Arr K} {v : Val K} {dense : Option (Val K)} {D : DLap K} (hwa : a.WF)
    (hl : (Val.sparse a).lift n = some D) (h : handleRem rem (.sparse a) (.plain p) dense = some v) :
    v.ExpandsTo (chain2 (remF rem) D (const n p)) := by
  unfold handleRem at h
  simp only [Option.bind_eq_bind, Option.pure_def, Option.bind_eq_some_iff, Option.some.injEq] at h
  obtain ⟨⟨s, q⟩, hs, rfl⟩ := h
  obtain ⟨na, hD⟩ := lift_sparse hl
  obtain ⟨rfl, ws, hout, hx, hla, hj⟩ := toCommon_some hwa hs
  have hb := common_bfacts hwa hs
  have hn := lift_n hl
  rw [← hn]
  have hls : a.lap.shape = a.x.shape := by rw [hwa.lap, hwa.x]
  have hxs : s.x.shape = bshape a.x.shape p.shape := by rw [hx]; rfl
  refine ruleSP hwa hD rfl hb ws.jac hout hb.inShape (fun o ho => ho) ?_ ?_ ?_ ?_ ?_
  · exact binop_same_shape _ hxs rfl
  · show s.lap.shape = _; rw [hla]; rfl
  · intro i hi
    exact (binop_same_get _ hxs (by rfl) hi).trans (by rw [hx]; rfl)
  · intro i hi r _
    simp [remF]
  · intro i hi
    simp only [hla, bcast_get, hls]
    simp [remF]

end Jaqmc.Sparse
