import Verif.Lemmas.SparseMul
import Verif.Lemmas.SparseReduceSel
/-! Pointwise maximum and minimum (C45). -/
namespace Jaqmc.Sparse
open Spec
variable {K : Type} [Field K]

open Classical in
theorem handlePick_expands {pick : K → K → K} {pred : K → K → Bool} {n : ℕ} {l r v : Val K} {D E : DLap K} (hwl : l.WF) (hwr : r.WF)
    (hl : l.lift n = some D) (hr : r.lift n = some E) (hsh : D.x.shape = E.x.shape)
    (hanti : ∀ a b, a ≠ b → (pred a b = true ↔ ¬ pred b a = true))
    (htie : (l.IsSparse ∧ r.IsSparse) ∨ ∀ i, InB D.x.shape i → D.x.get i ≠ E.x.get i)
    (hmeta : ∀ a b, l = .sparse a → r = .sparse b → compat a.jac b.jac)
    (h : handlePick pick pred l r (dense2 (pickF pick fun a b => pred a b = true) l r) = some v) :
    v.ExpandsTo (chain2 (pickF pick fun a b => pred a b = true) D E) := by
  unfold handlePick at h
  simp only [Option.bind_eq_bind, Option.pure_def] at h
  split at h
  · rename_i a p
    obtain ⟨na, hD⟩ := lift_sparse hl
    obtain rfl := lift_plain hr
    simp only [Option.bind_eq_some_iff, Option.some.injEq] at h
    obtain ⟨⟨s, q⟩, hs, j, hj, rfl⟩ := h
    have htie' := htie.resolve_left fun h => h.2
    obtain ⟨rfl, ws, hout, hx, hla, hjj⟩ := toCommon_some hwl hs
    have hb := common_bfacts hwl hs
    have hDx : D.x = a.x := by rw [(expand_some hD).1]
    have hsh' : a.x.shape = p.shape := by rw [← hDx]; exact hsh
    have hls : a.lap.shape = a.x.shape := by rw [hwl.lap, hwl.x]
    rw [← lift_n hl]
    have hbs : bshape a.x.shape p.shape = a.x.shape := by rw [← hsh', bshape_self]
    have hxs : s.x.shape = bshape a.x.shape p.shape := by rw [hx]; rfl
    have hlss : s.lap.shape = bshape a.x.shape p.shape := by rw [hla]; rfl
    have f1 := binop_same_shape pred (B := p.bcast (bshape a.x.shape p.shape)) hxs rfl
    have f1' : ((binop pred s.x (p.bcast (bshape a.x.shape p.shape))).map fun b => if b = true then (1 : K) else 0).shape = s.jac.out := f1.trans hout.symm
    obtain ⟨j1, j2, j3, j4, j5, _, _⟩ := scaleSJ_some ws.jac (Or.inl f1') hj
    have g1 : ∀ i, InB (bshape a.x.shape p.shape) i → (binop pred s.x (p.bcast (bshape a.x.shape p.shape))).get i =
        pred (a.x.get (bsrc a.x.shape i)) (p.get (bsrc p.shape i)) := fun i hi =>
      (binop_same_get _ hxs (by rfl) hi).trans (by rw [hx]; rfl)
    have tie : ∀ i, InB (bshape a.x.shape p.shape) i → a.x.get (bsrc a.x.shape i) ≠ p.get (bsrc p.shape i) := by
      intro i hi
      rw [hbs] at hi
      rw [← hsh', bsrc_self hi, ← hDx]
      exact htie' i (by rw [hDx]; exact hi)
    refine ruleSP hwl hD rfl hb j1 (j2.trans hout) (j3.trans hb.inShape) (fun o ho => j5 ▸ ho) ?_ ?_ ?_ ?_ ?_
    · exact binop_same_shape _ hxs rfl
    · exact hlss
    · intro i hi
      exact (binop_same_get _ hxs (by rfl) hi).trans (by rw [hx]; rfl)
    · intro i hi r hr
      simp only
      rw [scaleSJ_row ws.jac (Or.inl f1') hj (hout ▸ hi) (by rw [hb.inShape]; exact hr), f1', hout, bsrc_self hi, map_get, g1 i hi]
      simp [pickF, tie i hi]
    · intro i hi
      simp only [maskA]
      rw [g1 i hi, hla, bcast_get, hls]
      simp [pickF, tie i hi]
  · rename_i p a
    obtain ⟨na, hE⟩ := lift_sparse hr
    obtain rfl := lift_plain hl
    simp only [Option.bind_eq_some_iff, Option.some.injEq] at h
    obtain ⟨⟨s, q⟩, hs, j, hj, rfl⟩ := h
    have htie' := htie.resolve_left fun h => h.1
    obtain ⟨rfl, ws, hout, hx, hla, hjj⟩ := toCommon_some hwr hs
    have hb := common_bfacts hwr hs
    have hDx : E.x = a.x := by rw [(expand_some hE).1]
    have hsh' : a.x.shape = p.shape := by rw [← hDx]; exact hsh.symm
    have hls : a.lap.shape = a.x.shape := by rw [hwr.lap, hwr.x]
    rw [show n = E.n from (lift_n hr).symm]
    have hbs : bshape a.x.shape p.shape = a.x.shape := by rw [← hsh', bshape_self]
    have hbs' : bshape p.shape a.x.shape = bshape a.x.shape p.shape := by rw [← hsh']
    have hxs : s.x.shape = bshape a.x.shape p.shape := by rw [hx]; rfl
    have hlss : s.lap.shape = bshape a.x.shape p.shape := by rw [hla]; rfl
    have f1 := binop_same_shape pred (B := p.bcast (bshape a.x.shape p.shape)) hxs rfl
    have f1' : ((binop pred s.x (p.bcast (bshape a.x.shape p.shape))).map fun b => if b = true then (1 : K) else 0).shape = s.jac.out := f1.trans hout.symm
    obtain ⟨j1, j2, j3, j4, j5, _, _⟩ := scaleSJ_some ws.jac (Or.inl f1') hj
    have g1 : ∀ i, InB (bshape a.x.shape p.shape) i → (binop pred s.x (p.bcast (bshape a.x.shape p.shape))).get i =
        pred (a.x.get (bsrc a.x.shape i)) (p.get (bsrc p.shape i)) := fun i hi =>
      (binop_same_get _ hxs (by rfl) hi).trans (by rw [hx]; rfl)
    have tie : ∀ i, InB (bshape a.x.shape p.shape) i → p.get (bsrc p.shape i) ≠ a.x.get (bsrc a.x.shape i) := by
      intro i hi
      rw [hbs] at hi
      rw [← hsh', bsrc_self hi, ← hDx]
      exact htie' i (show InB p.shape i by rw [← hsh']; exact hi)
    refine rulePS (sh := bshape a.x.shape p.shape) hwr hE hbs'.symm hb j1 (j2.trans hout) (j3.trans hb.inShape) (fun o ho => j5 ▸ ho) ?_ ?_ ?_ ?_ ?_
    · exact binop_same_shape (A := p.bcast (bshape a.x.shape p.shape)) _ rfl hxs
    · exact hlss
    · intro i hi
      exact (binop_same_get (A := p.bcast (bshape a.x.shape p.shape)) _ (by rfl) hxs hi).trans (by rw [hx]; rfl)
    · intro i hi r hr
      simp only
      rw [scaleSJ_row ws.jac (Or.inl f1') hj (hout ▸ hi) (by rw [hb.inShape]; exact hr), f1', hout, bsrc_self hi, map_get, g1 i hi]
      have := hanti _ _ (tie i hi)
      by_cases hp : pred (p.get (bsrc p.shape i)) (a.x.get (bsrc a.x.shape i)) = true
      · have h2 := this.mp hp
        simp [pickF, tie i hi, hp, h2]
      · have h2 : pred (a.x.get (bsrc a.x.shape i)) (p.get (bsrc p.shape i)) = true := by
          by_contra h3; exact hp (this.mpr h3)
        simp [pickF, tie i hi, hp, h2]
    · intro i hi
      simp only [maskA]
      rw [g1 i hi, hla, bcast_get, hls]
      have := hanti _ _ (tie i hi)
      by_cases hp : pred (p.get (bsrc p.shape i)) (a.x.get (bsrc a.x.shape i)) = true
      · have h2 := this.mp hp
        simp [pickF, tie i hi, hp, h2]
      · have h2 : pred (a.x.get (bsrc a.x.shape i)) (p.get (bsrc p.shape i)) = true := by
          by_contra h3; exact hp (this.mpr h3)
        simp [pickF, tie i hi, hp, h2]
  · rename_i a b
    obtain ⟨na, hD⟩ := lift_sparse hl
    obtain ⟨nb, hE⟩ := lift_sparse hr
    have hm := hmeta a b rfl rfl
    unfold compat at hm
    simp only [Bool.and_eq_true, beq_iff_eq] at hm
    split at h
    · rename_i hroles
      simp only [Option.bind_eq_some_iff, Option.some.injEq] at h
      obtain ⟨a', ha', b', hb', j, hj, rfl⟩ := h
      have hax : a.x.shape = b.x.shape := by
        have := hsh
        rw [(expand_some hD).1, (expand_some hE).1] at this
        exact this
      have hout : a.jac.out = b.jac.out := by rw [← hwl.x, ← hwr.x, hax]
      rw [← hout, bshape_self] at ha' hb' hj
      obtain ⟨wa, oa, xa, la, ja⟩ := broadcastSL_some hwl ha'
      obtain ⟨wb, ob, xb, lb, jb⟩ := broadcastSL_some hwr hb'
      have ja' : a'.jac = a.jac := by
        unfold broadcastSJ at ja; rw [if_pos rfl] at ja; exact (Option.some.inj ja).symm
      have jb' : b'.jac = b.jac := by
        unfold broadcastSJ at jb; rw [if_pos hout.symm] at jb; exact (Option.some.inj jb).symm
      obtain ⟨je, jv, jl⟩ := withBlocks_some hj
      have xas : a'.x.shape = a.jac.out := by rw [xa]; rfl
      have xbs : b'.x.shape = a.jac.out := by rw [xb]; rfl
      have las : a'.lap.shape = a.jac.out := by rw [la]; rfl
      have lbs : b'.lap.shape = a.jac.out := by rw [lb]; rfl
      generalize hwl' : binop (fun u v => if u = v then (1 / 2 : K) else if pred u v = true then 1 else 0) a'.x b'.x = wl at hj je ⊢
      generalize hwr' : binop (fun u v => if u = v then (1 / 2 : K) else if pred u v = true then 0 else 1) a'.x b'.x = wr at hj je ⊢
      have wls : wl.shape = a.jac.out := by rw [← hwl']; exact binop_same_shape _ xas xbs
      have wrs : wr.shape = a.jac.out := by rw [← hwr']; exact binop_same_shape _ xas xbs
      have hbsh : (bshape a.x.shape b.x.shape) = a.jac.out := by rw [← hax, bshape_self, hwl.x]
      have xag : ∀ i, InB a.jac.out i → a'.x.get i = a.x.get (bsrc a.x.shape i) := fun i hi => by rw [xa]; rfl
      have xbg : ∀ i, InB a.jac.out i → b'.x.get i = b.x.get (bsrc b.x.shape i) := fun i hi => by rw [xb]; rfl
      have wlg : ∀ i, InB a.jac.out i → wl.get i = (pickF pick fun a b => pred a b = true).d1 (a.x.get (bsrc a.x.shape i)) (b.x.get (bsrc b.x.shape i)) := fun i hi => by
        rw [← hwl', binop_same_get _ xas xbs hi, xag i hi, xbg i hi]; simp only [pickF]; congr
      have wrg : ∀ i, InB a.jac.out i → wr.get i = (pickF pick fun a b => pred a b = true).d2 (a.x.get (bsrc a.x.shape i)) (b.x.get (bsrc b.x.shape i)) := fun i hi => by
        rw [← hwr', binop_same_get _ xas xbs hi, xag i hi, xbg i hi]; simp only [pickF]; congr
      have hA := bfacts hwl ja
      have hB := bfacts hwr jb
      have bsa : a'.jac.blocks.shape = a.jac.roles.length :: a.jac.coords :: a.jac.out := by rw [ja']; exact hwl.jac.shape
      have hcoords : a.jac.coords = b.jac.coords := by unfold SJac.coords; rw [hm.1, hm.2]
      have bsb : b'.jac.blocks.shape = a.jac.roles.length :: a.jac.coords :: a.jac.out := by rw [jb', hroles, hcoords, hout]; exact hwr.jac.shape
      have p1 : (binop (· * ·) (laxReshape wl (1 :: 1 :: a.jac.out)) a'.jac.blocks).shape = a.jac.roles.length :: a.jac.coords :: a.jac.out := by
        simp only [binop, laxReshape, bsa, bshape_ones']
      have p2 : (binop (· * ·) (laxReshape wr (1 :: 1 :: a.jac.out)) b'.jac.blocks).shape = a.jac.roles.length :: a.jac.coords :: a.jac.out := by
        simp only [binop, laxReshape, bsb, bshape_ones']
      have l1 := binop_same_shape (· * ·) wls las
      have l2 := binop_same_shape (· * ·) wrs lbs
      have jout : j.out = a.jac.out := by
        rw [je]; show List.drop 2 _ = _
        rw [binop_same_shape _ p1 p2]; rfl
      have hblk : ∀ i, InB a.jac.out i → ∀ t, t < a.jac.roles.length → ∀ c, c < a.jac.coords → j.blocks.get (t :: c :: i) =
          wl.get i * a.jac.blocks.get (t :: c :: i) + wr.get i * b.jac.blocks.get (t :: c :: i) := by
        intro i hi t ht c hc
        have hall : InB (a.jac.roles.length :: a.jac.coords :: a.jac.out) (t :: c :: i) := inB_cons.mpr ⟨ht, inB_cons.mpr ⟨hc, hi⟩⟩
        rw [je]
        simp only
        rw [binop_same_get _ p1 p2 hall]
        rw [ja'] at bsa; rw [jb'] at bsb
        simp only [binop, laxReshape, ja', jb', bsa, bsb, bsrc_pair ht hc hi, bsrc_ones hi, ravel_one_one, wls, wrs, unravel_ravel hi]
      refine ruleSS hwl hwr hD hE (by rw [hm.1]) hbsh.symm hA hB jv jout (by rw [je, ja']) ?_ ?_ ?_ ?_ ?_ ?_
      · intro o ho; left
        have : j.roles = a'.jac.roles := by rw [je]
        rw [← this]; exact ho
      · exact binop_same_shape _ xas xbs
      · exact binop_same_shape _ l1 l2
      · intro i hi
        simp only
        rw [binop_same_get _ xas xbs hi, xag i hi, xbg i hi]; rfl
      · intro i hi r hr
        rw [← wlg i hi, ← wrg i hi]
        simp only [ja', jb']
        rw [row_get, row_get, row_get, Finset.mul_sum, Finset.mul_sum]
        have h1 : j.roles = a.jac.roles := by rw [je, ja']
        have h2 : j.inShape = a.jac.inShape := by rw [je, ja']
        have h3 : j.ownAx = a.jac.ownAx := by rw [je, ja']
        rw [h1, ← hroles, ← Finset.sum_add_distrib]
        refine Finset.sum_congr rfl fun t ht => ?_
        rw [h2, h3, ← hm.1, ← hm.2, hblk i hi t (Finset.mem_range.mp ht) _ (rowCoord_lt hr)]
        have e1 : j.sel t i = a.jac.sel t i := by funext o; unfold SJac.sel; rw [h1]
        have e2 : b.jac.sel t i = a.jac.sel t i := by funext o; unfold SJac.sel; rw [hroles]
        rw [e1, e2]; ring
      · intro i hi
        simp only
        have hla : a.lap.shape = a.x.shape := by rw [hwl.lap, hwl.x]
        have hlb : b.lap.shape = b.x.shape := by rw [hwr.lap, hwr.x]
        rw [binop_same_get _ l1 l2 hi, binop_same_get _ wls las hi, binop_same_get _ wrs lbs hi, wlg i hi, wrg i hi, la, lb, bcast_get, bcast_get, hla, hlb]
        simp [pickF]
    · exact dense2_expands hl hr h
  · exact dense2_expands hl hr h

end Jaqmc.Sparse
