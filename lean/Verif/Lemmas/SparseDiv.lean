import Verif.Lemmas.SparseMul
import Mathlib.Algebra.BigOperators.Field
/-! Division, components and absolute values (C45). -/
namespace Jaqmc.Sparse
open Spec

/-! ### In-bounds broadcasting -/

theorem bshapeRev_length (s t : List ℕ) : (bshapeRev s t).length = max s.length t.length := by
  induction s generalizing t with
  | nil => cases t <;> simp [bshapeRev]
  | cons a s ih =>
    cases t with
    | nil => simp [bshapeRev]
    | cons b t => simp [bshapeRev, ih]

theorem bshape_length (s t : List ℕ) : (bshape s t).length = max s.length t.length := by
  simp [bshape, bshapeRev_length]

theorem bshapeRev_getD_left (s t : List ℕ) (k : ℕ) (hk : k < s.length) (h1 : s.getD k 0 ≠ 1) : (bshapeRev s t).getD k 0 = s.getD k 0 := by
  induction s generalizing t k with
  | nil => simp at hk
  | cons a s ih =>
    cases t with
    | nil => simp [bshapeRev]
    | cons b t =>
      cases k with
      | zero => simp only [List.getD_cons_zero] at h1; simp [bshapeRev, h1]
      | succ k => simpa [bshapeRev] using ih t k (by simpa using hk) (by simpa using h1)

theorem getD_reverse' (l : List ℕ) (k : ℕ) (h : k < l.length) : l.reverse.getD k 0 = l.getD (l.length - 1 - k) 0 := by
  rw [List.getD_eq_getElem _ _ (by simpa using h), List.getD_eq_getElem _ _ (by omega), List.getElem_reverse]

theorem bsrc_inB_left {s t i : List ℕ} (hi : InB (bshape s t) i) : InB s (bsrc s i) := by
  refine ⟨by simp [bsrc], fun a ha => ?_⟩
  unfold bsrc
  rw [getD_map_range, if_pos ha]
  split
  · rename_i h; rw [h]; exact Nat.one_pos
  · rename_i h
    have hl := hi.1
    rw [bshape_length] at hl
    have hp : a + (i.length - s.length) < (bshape s t).length := by rw [← hi.1]; omega
    refine lt_of_lt_of_eq (hi.2 _ hp) ?_
    unfold bshape at hp ⊢
    rw [List.length_reverse] at hp
    rw [getD_reverse' _ _ hp, bshapeRev_length]
    simp only [List.length_reverse]
    rw [← hl]
    have e : i.length - 1 - (a + (i.length - s.length)) = s.length - 1 - a := by omega
    rw [e]
    have hg : s.reverse.getD (s.length - 1 - a) 0 = s.getD a 0 := by
      rw [getD_reverse' _ _ (by omega)]; congr 1; omega
    rw [bshapeRev_getD_left _ _ _ (by simp; omega) (by rw [hg]; exact h), hg]

theorem Compat.symm {s t : List ℕ} (h : Compat s t) : Compat t s := fun a h1 h2 => by
  rcases h a h2 h1 with h | h | h
  · exact Or.inr (Or.inl h)
  · exact Or.inl h
  · exact Or.inr (Or.inr h.symm)

theorem bsrc_inB_right {s t i : List ℕ} (h : Compat s t) (hi : InB (bshape s t) i) : InB t (bsrc t i) := by
  rw [bshape_comm h] at hi
  exact bsrc_inB_left hi

variable {K : Type} [Field K]

theorem chain2_congr (F : Fun2 K) {D D' E E' : DLap K} (hD : D.Same D') (hE : E.Same E') (hn : D.n = E.n) (wD : D.WF) (wE : E.WF)
    (hc : Compat D.x.shape E.x.shape) : (chain2 F D E).Same (chain2 F D' E') := by
  have hsx := hD.1.1
  have hsy := hE.1.1
  have hsh : bshape D.x.shape E.x.shape = bshape D'.x.shape E'.x.shape := by rw [hsx, hsy]
  have l1 : D'.lap.shape = D'.x.shape := by rw [← hD.2.2.2.1, wD.lap, hsx]
  have l2 : E'.lap.shape = E'.x.shape := by rw [← hE.2.2.2.1, wE.lap, hsy]
  have r1 : ∀ r < D.n, (D'.jac r).shape = D'.x.shape := fun r hr => by rw [← (hD.2.2.1 r hr).1, wD.jac r hr, hsx]
  have r2 : ∀ r < D.n, (E'.jac r).shape = E'.x.shape := fun r hr => by rw [← (hE.2.2.1 r (hn ▸ hr)).1, wE.jac r (hn ▸ hr), hsy]
  have gx : ∀ i, InB (bshape D.x.shape E.x.shape) i → D.x.get (bsrc D.x.shape i) = D'.x.get (bsrc D'.x.shape i) := fun i hi => by
    rw [hD.1.2 _ (bsrc_inB_left hi), hsx]
  have gy : ∀ i, InB (bshape D.x.shape E.x.shape) i → E.x.get (bsrc E.x.shape i) = E'.x.get (bsrc E'.x.shape i) := fun i hi => by
    rw [hE.1.2 _ (bsrc_inB_right hc hi), hsy]
  have gj : ∀ i, InB (bshape D.x.shape E.x.shape) i → ∀ r < D.n, (D.jac r).get (bsrc (D.jac r).shape i) = (D'.jac r).get (bsrc (D'.jac r).shape i) :=
    fun i hi r hr => by
      rw [wD.jac r hr, (hD.2.2.1 r hr).2 _ (by rw [wD.jac r hr]; exact bsrc_inB_left hi), r1 r hr, hsx]
  have gh : ∀ i, InB (bshape D.x.shape E.x.shape) i → ∀ r < D.n, (E.jac r).get (bsrc (E.jac r).shape i) = (E'.jac r).get (bsrc (E'.jac r).shape i) :=
    fun i hi r hr => by
      rw [wE.jac r (hn ▸ hr), (hE.2.2.1 r (hn ▸ hr)).2 _ (by rw [wE.jac r (hn ▸ hr)]; exact bsrc_inB_right hc hi), r2 r hr, hsy]
  refine ⟨⟨hsh, fun i hi => ?_⟩, hD.2.1, fun r hr => ⟨hsh, fun i hi => ?_⟩, ⟨hsh, fun i hi => ?_⟩⟩
  · simp only [chain2, bcast_get]
    rw [gx i hi, gy i hi]
  · simp only [chain2, bcast_get]
    rw [gx i hi, gy i hi, gj i hi r hr, gh i hi r hr]
  · simp only [chain2, bcast_get]
    have s1 : ∑ r ∈ Finset.range D.n, (D.jac r).get (bsrc (D.jac r).shape i) * (D.jac r).get (bsrc (D.jac r).shape i) =
        ∑ r ∈ Finset.range D'.n, (D'.jac r).get (bsrc (D'.jac r).shape i) * (D'.jac r).get (bsrc (D'.jac r).shape i) := by
      rw [← hD.2.1]; exact Finset.sum_congr rfl fun r hr => by rw [gj i hi r (Finset.mem_range.mp hr)]
    have s2 : ∑ r ∈ Finset.range D.n, (D.jac r).get (bsrc (D.jac r).shape i) * (E.jac r).get (bsrc (E.jac r).shape i) =
        ∑ r ∈ Finset.range D'.n, (D'.jac r).get (bsrc (D'.jac r).shape i) * (E'.jac r).get (bsrc (E'.jac r).shape i) := by
      rw [← hD.2.1]
      exact Finset.sum_congr rfl fun r hr => by rw [gj i hi r (Finset.mem_range.mp hr), gh i hi r (Finset.mem_range.mp hr)]
    have s3 : ∑ r ∈ Finset.range D.n, (E.jac r).get (bsrc (E.jac r).shape i) * (E.jac r).get (bsrc (E.jac r).shape i) =
        ∑ r ∈ Finset.range D'.n, (E'.jac r).get (bsrc (E'.jac r).shape i) * (E'.jac r).get (bsrc (E'.jac r).shape i) := by
      rw [← hD.2.1]
      exact Finset.sum_congr rfl fun r hr => by rw [gh i hi r (Finset.mem_range.mp hr)]
    have q1 : D.lap.get (bsrc D.lap.shape i) = D'.lap.get (bsrc D'.lap.shape i) := by
      rw [wD.lap, hD.2.2.2.2 _ (by rw [wD.lap]; exact bsrc_inB_left hi), l1, hsx]
    have q2 : E.lap.get (bsrc E.lap.shape i) = E'.lap.get (bsrc E'.lap.shape i) := by
      rw [wE.lap, hE.2.2.2.2 _ (by rw [wE.lap]; exact bsrc_inB_right hc hi), l2, hsy]
    rw [gx i hi, gy i hi, s1, s2, s3, q1, q2]

theorem Val.ExpandsTo.congr {v : Val K} {E F : DLap K} (h : v.ExpandsTo E) (g : E.Same F) : v.ExpandsTo F := by
  cases v with
  | plain p => exact h
  | dense d => exact ⟨h.1, h.2.trans g⟩
  | sparse s => exact SLap.ExpandsTo.congr h g

theorem lift_wf {n : ℕ} {v : Val K} {D : DLap K} (hw : v.WF) (h : v.lift n = some D) : D.WF := by
  cases v with
  | plain p => rw [lift_plain h]; exact ⟨fun _ _ => rfl, rfl⟩
  | dense d =>
    unfold Val.lift at h
    simp only at h
    split at h
    · rw [← Option.some.inj h]; exact hw
    · cases h
  | sparse s => exact (expand_facts hw (lift_sparse h).2).2.2.2.2.1

/-- Multiplying by the reciprocal is dividing. -/
theorem mul_recip_same (D E : DLap K) (wE : E.WF) (hn : D.n = E.n) :
    (chain2 mulF D (chain1 (fun x => x⁻¹) (fun x => -(x⁻¹ * x⁻¹)) (fun x => 2 * (x⁻¹ * x⁻¹ * x⁻¹)) E)).Same (chain2 divF D E) := by
  refine ⟨⟨rfl, fun i _ => ?_⟩, rfl, fun r hr => ⟨rfl, fun i _ => ?_⟩, ⟨rfl, fun i _ => ?_⟩⟩
  · simp only [chain2, chain1, bcast_get, mulF, divF, div_eq_mul_inv]
  · have : r < E.n := hn ▸ hr
    simp only [chain2, chain1, bcast_get, mulF, divF, wE.jac r this]
    simp only [div_eq_mul_inv]
    ring
  · simp only [chain2, chain1, bcast_get, mulF, divF, wE.lap, hn]
    have s1 : ∑ r ∈ Finset.range E.n, (D.jac r).get (bsrc (D.jac r).shape i) * (-((E.x.get (bsrc E.x.shape i))⁻¹ * (E.x.get (bsrc E.x.shape i))⁻¹) * (E.jac r).get (bsrc E.x.shape i)) =
        -((E.x.get (bsrc E.x.shape i))⁻¹ * (E.x.get (bsrc E.x.shape i))⁻¹) *
        ∑ r ∈ Finset.range E.n, (D.jac r).get (bsrc (D.jac r).shape i) * (E.jac r).get (bsrc (E.jac r).shape i) := by
      rw [Finset.mul_sum]
      refine Finset.sum_congr rfl fun r hr => ?_
      rw [wE.jac r (Finset.mem_range.mp hr)]; ring
    have s2 : ∑ r ∈ Finset.range E.n, (E.jac r).get (bsrc (E.jac r).shape i) * (E.jac r).get (bsrc (E.jac r).shape i) =
        ∑ r ∈ Finset.range E.n, (E.jac r).get (bsrc E.x.shape i) * (E.jac r).get (bsrc E.x.shape i) :=
      Finset.sum_congr rfl fun r hr => by rw [wE.jac r (Finset.mem_range.mp hr)]
    rw [s1, s2]
    simp only [div_eq_mul_inv]
    ring

theorem divAux {n : ℕ} {l v : Val K} {b w : SLap K} {D E : DLap K} (hwl : l.WF) (hwb : b.WF)
    (hl : l.lift n = some D) (hr : (Val.sparse b).lift n = some E) (hc : Compat D.x.shape E.x.shape)
    (hw : sparseReciprocal b = some w) (h : handleMul l (.sparse w) = some v) : v.ExpandsTo (chain2 divF D E) := by
  obtain ⟨nb, hE⟩ := lift_sparse hr
  obtain ⟨ww, E', hE', hs⟩ := sparseReciprocal_expands hwb hE hw
  have wE := lift_wf (v := .sparse b) hwb hr
  have wE' := (expand_facts ww hE').2.2.2.2.1
  have hn' : E'.n = n := by rw [hs.2.1]; exact show E.n = n from lift_n hr
  have hlift : (Val.sparse w).lift n = some E' := by
    unfold Val.lift
    have : w.jac.inShape.prod = n := by rw [← hn', (expand_some hE').1]
    simp [this, hE']
  have hc' : Compat D.x.shape E'.x.shape := by rw [hs.1.1]; exact hc
  have hnn : D.n = E'.n := by rw [hn', lift_n hl]
  refine (handleMul_expands hwl (r := .sparse w) ww hl hlift hc' h).congr ?_
  refine (chain2_congr mulF (.refl D) hs hnn (lift_wf hwl hl) wE' hc').trans ?_
  exact mul_recip_same D E wE (by rw [lift_n hl, lift_n hr])

theorem handleDiv_expands {n : ℕ} {l r v : Val K} {D E : DLap K} (hwl : l.WF) (hwr : r.WF)
    (hl : l.lift n = some D) (hr : r.lift n = some E) (hc : Compat D.x.shape E.x.shape)
    (h : handleDiv l r = some v) : v.ExpandsTo (chain2 divF D E) := by
  unfold handleDiv at h
  simp only [Option.bind_eq_bind, Option.pure_def] at h
  split at h
  · exact dense2_expands hl hr h
  · exact dense2_expands hl hr h
  · rename_i a p
    obtain ⟨na, hD⟩ := lift_sparse hl
    obtain rfl := lift_plain hr
    simp only [Option.bind_eq_some_iff, Option.some.injEq] at h
    obtain ⟨⟨s, q⟩, hs, j, hj, rfl⟩ := h
    rw [← lift_n hl]
    have hq := (toCommon_some hwl hs).1
    refine scaled_expands (F := divF) hwl hD hs (by rw [hq]; rfl) hj (fun i _ u => ?_) (fun i _ u => ?_) fun _ _ => rfl
    · rw [hq]; exact div_eq_mul_inv _ _
    · rw [hq]; exact one_div _
  · rename_i b _
    simp only [Option.bind_eq_some_iff] at h
    obtain ⟨w, hw, h⟩ := h
    exact divAux hwl hwr hl hr hc hw h
  · exact dense2_expands hl hr h

/-! ### Components -/

theorem handleComponent_expands {L : Type} [Field L] {f : K → L} (hadd : ∀ u v, f (u + v) = f u + f v) {s : SLap K} {v : SLap L}
    {D : DLap K} (hw : s.WF) (hD : s.expand = some D) (h : handleComponent f s = some v) :
    v.ExpandsTo (linear (·.map f) D) := by
  have h0 : f 0 = 0 := by have := hadd 0 0; simpa using this
  unfold handleComponent at h
  simp only at h
  split at h
  · rename_i hv
    obtain rfl := Option.some.inj h
    obtain ⟨rfl, hr⟩ := expand_some hD
    apply expandsTo_intro
    · exact ⟨(valid_iff _).mp hv, hw.x, hw.lap⟩
    · exact hr
    · rfl
    · exact .refl _
    · intro r _
      refine ⟨rfl, fun i _ => ?_⟩
      simp only [linear, map_get, row_get]
      have hsum : ∀ (n : ℕ) (g : ℕ → K), f (∑ s ∈ Finset.range n, g s) = ∑ s ∈ Finset.range n, f (g s) := by
        intro n g
        induction n with
        | zero => simpa using h0
        | succ n ih => rw [Finset.sum_range_succ, Finset.sum_range_succ, hadd, ih]
      rw [hsum]
      refine Finset.sum_congr rfl fun k _ => ?_
      unfold SJac.sel
      simp only
      cases s.jac.roles[k]? with
      | none => simp [h0]
      | some o => simp only; split <;> simp [h0]
    · exact .refl _
  · cases h

/-- What the sparse rule computes everywhere: the derivative at 0 is 1. -/
theorem handleAbsReal_rule {s v : SLap ℝ} {D : DLap ℝ} (hw : s.WF) (hD : s.expand = some D) (h : handleAbsReal s = some v) :
    v.ExpandsTo (chain1 (fun x => |x|) (fun x => if 0 ≤ x then 1 else -1) (fun _ => 0) D) := by
  unfold handleAbsReal at h
  simp only [Option.bind_eq_bind, Option.pure_def, Option.bind_eq_some_iff, Option.some.injEq] at h
  obtain ⟨j, hj, rfl⟩ := h
  obtain ⟨rfl, hr⟩ := expand_some hD
  have hf : (s.x.map fun v => if 0 ≤ v then (1 : ℝ) else -1).shape = s.jac.out := hw.x
  obtain ⟨j1, j2, j3, j4, j5, _, _⟩ := scaleSJ_some hw.jac (Or.inl hf) hj
  apply expandsTo_intro
  · exact ⟨j1, by rw [j2]; exact hw.x, by rw [j2]; exact binop_same_shape _ hf hw.lap⟩
  · intro o ho; exact hr o (j5 ▸ ho)
  · simp [chain1, j3]
  · exact ⟨rfl, fun i _ => rfl⟩
  · intro r hr'
    refine ⟨by simp [row_shape, chain1, j2, hw.x], fun i hi => ?_⟩
    rw [row_shape, j2] at hi
    rw [scaleSJ_row hw.jac (Or.inl hf) hj hi hr', hf, bsrc_self hi, map_get]; rfl
  · refine ⟨by rw [binop_same_shape _ hf hw.lap]; exact hw.x.symm, fun i hi => ?_⟩
    rw [binop_same_shape _ hf hw.lap] at hi
    rw [binop_same_get _ hf hw.lap hi, map_get]
    simp [chain1]

theorem handleAbsReal_expands {s v : SLap ℝ} {D : DLap ℝ} (hw : s.WF) (hD : s.expand = some D)
    (hne : ∀ i, InB D.x.shape i → D.x.get i ≠ 0) (h : handleAbsReal s = some v) :
    v.ExpandsTo (chain1 (fun x => |x|) (fun x => if x = 0 then 0 else if 0 < x then 1 else -1) (fun _ => 0) D) := by
  obtain ⟨hv, E, hE, hs1, hs2, hs3, hs4⟩ := handleAbsReal_rule hw hD h
  have key : ∀ i, InB D.x.shape i → (if 0 ≤ D.x.get i then (1 : ℝ) else -1) = if D.x.get i = 0 then 0 else if 0 < D.x.get i then 1 else -1 := by
    intro i hi
    have := hne i hi
    rcases lt_or_gt_of_ne this with h | h
    · rw [if_neg (not_le.mpr h), if_neg this, if_neg (not_lt.mpr h.le)]
    · rw [if_pos h.le, if_neg this, if_pos h]
  refine ⟨hv, E, hE, hs1, hs2, fun r hr => ⟨(hs3 r hr).1, fun i hi => ?_⟩, hs4.1, fun i hi => ?_⟩
  · rw [(hs3 r hr).2 i hi]
    have hi' : InB D.x.shape i := by rw [(hs3 r hr).1] at hi; exact hi
    simp only [chain1]
    rw [key i hi']
  · rw [hs4.2 i hi]
    have hi' : InB D.x.shape i := by rw [hs4.1] at hi; exact hi
    simp only [chain1]
    rw [key i hi']

theorem row_re_mul (j : SJac ℂ) (k : SJac ℝ) (hr : k.roles = j.roles) (hi : k.inShape = j.inShape) (ha : k.ownAx = j.ownAx)
    {i : List ℕ} {z : ℂ} {n : ℝ}
    (hb : ∀ s, s < j.roles.length → ∀ c, c < j.coords →
      k.blocks.get (s :: c :: i) = (z.re * (j.blocks.get (s :: c :: i)).re + z.im * (j.blocks.get (s :: c :: i)).im) / n)
    {r : ℕ} (hrr : r < j.inShape.prod) :
    (k.row r).get i = (z.re * ((j.row r).get i).re + z.im * ((j.row r).get i).im) / n := by
  rw [row_get, row_get, hr, hi, ha, Complex.re_sum, Complex.im_sum, Finset.mul_sum, Finset.mul_sum, ← Finset.sum_add_distrib, Finset.sum_div]
  refine Finset.sum_congr rfl fun s hs => ?_
  rw [hb s (Finset.mem_range.mp hs) _ (rowCoord_lt hrr)]
  unfold SJac.sel
  rw [hr]
  cases j.roles[s]? with
  | none => simp
  | some o => simp only; split <;> simp

theorem handleAbsComplex_expands {s : SLap ℂ} {v : SLap ℝ} {D : DLap ℂ} (hw : s.WF) (hD : s.expand = some D)
    (h : handleAbsComplex s = some v) : v.ExpandsTo (absComplex D) := by
  unfold handleAbsComplex at h
  simp only [Option.bind_eq_bind, Option.pure_def, Option.bind_eq_some_iff, Option.some.injEq] at h
  obtain ⟨j, hj, TH, hTH, TT, hTT, rfl⟩ := h
  obtain ⟨je, j1⟩ := mkSJac_some hj
  obtain ⟨rfl, hr⟩ := expand_some hD
  set out := s.jac.out with hout
  have hbs := hw.jac.shape
  set S := s.jac.roles.length
  set C := s.jac.coords
  have hfs : ∀ A : Arr ℝ, (laxReshape A (1 :: 1 :: s.x.shape)).shape = 1 :: 1 :: out := fun A => by
    show 1 :: 1 :: s.x.shape = _; rw [hw.x]
  have hfg : ∀ A : Arr ℝ, A.shape = out → ∀ i, InB out i → (laxReshape A (1 :: 1 :: s.x.shape)).get (0 :: 0 :: i) = A.get i := by
    intro A hA i hi
    simp only [laxReshape]
    rw [hw.x, ← hout, ravel_one_one, hA, unravel_ravel hi]
  have mulS : ∀ (A : Arr ℝ) (f : ℂ → ℝ), (binop (· * ·) (laxReshape A (1 :: 1 :: s.x.shape)) (s.jac.blocks.map f)).shape = S :: C :: out := by
    intro A f
    show bshape (laxReshape A _).shape s.jac.blocks.shape = _
    rw [hfs, hbs, bshape_ones']
  have mulG : ∀ (A : Arr ℝ) (f : ℂ → ℝ), A.shape = out → ∀ t c i, t < S → c < C → InB out i →
      (binop (· * ·) (laxReshape A (1 :: 1 :: s.x.shape)) (s.jac.blocks.map f)).get (t :: c :: i) = A.get i * f (s.jac.blocks.get (t :: c :: i)) := by
    intro A f hA t c i ht hc hi
    show (laxReshape A _).get (bsrc (laxReshape A _).shape _) * f (s.jac.blocks.get (bsrc s.jac.blocks.shape _)) = _
    rw [hfs, hbs, bsrc_ones hi, bsrc_pair ht hc hi, hfg A hA i hi]
  have sumS := binop_same_shape (· + ·) (mulS (s.x.map Complex.re) Complex.re) (mulS (s.x.map Complex.im) Complex.im)
  have hys : (s.x.map fun z => ‖z‖).shape = out := hw.x
  have hxr : (s.x.map Complex.re).shape = out := hw.x
  have hxi : (s.x.map Complex.im).shape = out := hw.x
  have hlr : (s.lap.map Complex.re).shape = out := hw.lap
  have hli : (s.lap.map Complex.im).shape = out := hw.lap
  obtain ⟨N, hN⟩ : ∃ N, N = binop (· + ·) (binop (· * ·) (laxReshape (s.x.map Complex.re) (1 :: 1 :: s.x.shape)) (s.jac.blocks.map Complex.re))
      (binop (· * ·) (laxReshape (s.x.map Complex.im) (1 :: 1 :: s.x.shape)) (s.jac.blocks.map Complex.im)) := ⟨_, rfl⟩
  have jb : j.blocks = binop (· / ·) N (laxReshape (s.x.map fun z => ‖z‖) (1 :: 1 :: s.x.shape)) := by rw [je, hN]; rfl
  have NS : N.shape = S :: C :: out := by rw [hN]; exact sumS
  have jbs : j.blocks.shape = S :: C :: out := by
    rw [jb]
    show bshape N.shape (laxReshape _ (1 :: 1 :: s.x.shape)).shape = _
    rw [hfs, NS, bshape_ones]
  have jget : ∀ t c i, t < S → c < C → InB out i → j.blocks.get (t :: c :: i) =
      ((s.x.get i).re * (s.jac.blocks.get (t :: c :: i)).re + (s.x.get i).im * (s.jac.blocks.get (t :: c :: i)).im) / ‖s.x.get i‖ := by
    intro t c i ht hc hi
    have hin : InB (S :: C :: out) (t :: c :: i) := inB_cons.mpr ⟨ht, inB_cons.mpr ⟨hc, hi⟩⟩
    rw [jb]
    show N.get (bsrc N.shape (t :: c :: i)) /
      (laxReshape (s.x.map fun z => ‖z‖) (1 :: 1 :: s.x.shape)).get (bsrc (laxReshape (s.x.map fun z => ‖z‖) (1 :: 1 :: s.x.shape)).shape _) = _
    rw [hfs, bsrc_ones hi, hfg _ hys i hi, NS, bsrc_self hin, hN, binop_same_get _ (mulS _ _) (mulS _ _) hin,
      mulG _ _ hxr t c i ht hc hi, mulG _ _ hxi t c i ht hc hi]
    rfl
  have jout : j.out = out := by show j.blocks.shape.drop 2 = _; rw [jbs]; rfl
  have jr : j.roles = s.jac.roles := by rw [je]
  have ji : j.inShape = s.jac.inShape := by rw [je]
  have jx : j.ownAx = s.jac.ownAx := by rw [je]
  have hrow : ∀ i, InB out i → ∀ r, r < s.jac.inShape.prod → (j.row r).get i =
      ((s.x.get i).re * ((s.jac.row r).get i).re + (s.x.get i).im * ((s.jac.row r).get i).im) / ‖s.x.get i‖ := by
    intro i hi r hr
    exact row_re_mul s.jac j jr ji jx (fun t ht c hc => jget t c i ht hc hi) hr
  obtain ⟨TH1, TH2⟩ := sparseTrace_some hw.jac (cj := starRingEnd ℂ) (fun _ _ => map_add _ _ _) (map_zero _) hr hTH
  obtain ⟨TT1, TT2⟩ := sparseTrace_id j1 (by rw [jr]; exact hr) hTT
  have hTHre : ∀ i, InB out i → (TH.get i).re = ∑ r ∈ Finset.range s.jac.inShape.prod, ‖(s.jac.row r).get i‖ ^ 2 := by
    intro i hi
    have := congrArg Complex.re (TH2 i hi)
    rw [Complex.add_re] at this
    have this : (∑ r ∈ Finset.range s.jac.inShape.prod, (s.jac.row r).get i * (starRingEnd ℂ) ((s.jac.row r).get i)).re = (TH.get i).re := by
      rw [this]
      split
      · split
        · rw [Complex.re_sum, add_eq_left]
          refine Finset.sum_eq_zero fun c _ => ?_
          simp [Complex.mul_re]; ring
        · simp
      · simp
    rw [Complex.re_sum] at this
    rw [← this]
    refine Finset.sum_congr rfl fun r _ => ?_
    rw [Complex.mul_conj, Complex.ofReal_re, Complex.normSq_eq_norm_sq]
  have hTHs : (TH.map Complex.re).shape = out := TH1
  have hTTs : TT.shape = out := TT1.trans jout
  have s1 := binop_same_shape (· * ·) hxr hlr
  have s2 := binop_same_shape (· * ·) hxi hli
  have s3 := binop_same_shape (· + ·) s1 s2
  have s4 := binop_same_shape (· / ·) s3 hys
  have s5 := binop_same_shape (· - ·) hTHs hTTs
  have s6 := binop_same_shape (· / ·) s5 hys
  apply expandsTo_intro
  · exact ⟨j1, by rw [jout]; exact hw.x, by rw [jout]; exact binop_same_shape _ s4 s6⟩
  · intro o ho; exact hr o (jr ▸ ho)
  · exact congrArg List.prod ji
  · exact ⟨rfl, fun i _ => rfl⟩
  · intro r hr'
    refine ⟨by simp [row_shape, absComplex, jout, hw.x, ← hout], fun i hi => ?_⟩
    rw [row_shape] at hi
    exact hrow i (jout ▸ hi) r hr'
  · refine ⟨by rw [binop_same_shape _ s4 s6]; exact hw.x.symm, fun i hi => ?_⟩
    rw [binop_same_shape _ s4 s6] at hi
    rw [binop_same_get _ s4 s6 hi, binop_same_get _ s3 hys hi, binop_same_get _ s1 s2 hi, binop_same_get _ hxr hlr hi,
      binop_same_get _ hxi hli hi, binop_same_get _ s5 hys hi, binop_same_get _ hTHs hTTs hi, map_get Complex.re TH i,
      hTHre i hi, TT2 i (by rw [jout]; exact hi), ji]
    have e : ∑ r ∈ Finset.range s.jac.inShape.prod, (j.row r).get i * (j.row r).get i =
        ∑ r ∈ Finset.range s.jac.inShape.prod, ((absComplex ⟨s.x, s.jac.inShape.prod, s.jac.row, s.lap⟩).jac r).get i ^ 2 :=
      Finset.sum_congr rfl fun r hr => by rw [hrow i hi r (Finset.mem_range.mp hr), sq]; rfl
    rw [e]
    rfl

end Jaqmc.Sparse
