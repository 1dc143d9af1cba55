import Verif.Lemmas.SparseDotRule
/-! `dot_general` (C45): the handler. -/
namespace Jaqmc.Sparse
open Spec
variable {K : Type} [Field K] {d : DotDims}

theorem laxDot_zero_right {A : Arr K} {sh : List ℕ} (i : List ℕ) : (laxDot A (fullA sh 0) d).get i = 0 := by
  rw [laxDot_get]
  exact (sumIdx_congr (g := fun _ => 0) fun k _ => by simp [fullA]).trans (sumIdx_zero _)

theorem laxDot_zero_left {A : Arr K} {sh : List ℕ} (i : List ℕ) : (laxDot (fullA sh 0) A d).get i = 0 := by
  rw [laxDot_get]
  exact (sumIdx_congr (g := fun _ => 0) fun k _ => by simp [fullA]).trans (sumIdx_zero _)

/-- One tracked operand on the left. -/
theorem bilinear_const_right {D : DLap K} (hD : D.WF) (q : Arr K) : (bilinear (laxDot · · d) D (const D.n q)).Same
    ⟨laxDot D.x q d, D.n, fun k => laxDot (D.jac k) q d, laxDot D.lap q d⟩ := by
  refine ⟨⟨rfl, fun i _ => rfl⟩, rfl, fun r hr => ⟨?_, fun i _ => ?_⟩, ⟨?_, fun i _ => ?_⟩⟩
  · simp only [bilinear, plus, const]
  · simp only [bilinear, plus, const, laxDot_zero_right, add_zero]
  · simp only [bilinear, const, laxDot_shape, hD.lap]
  · simp [bilinear, const, laxDot_zero_right]

theorem bilinear_const_left {E : DLap K} (hE : E.WF) (p : Arr K) : (bilinear (laxDot · · d) (const E.n p) E).Same
    ⟨laxDot p E.x d, E.n, fun k => laxDot p (E.jac k) d, laxDot p E.lap d⟩ := by
  refine ⟨⟨rfl, fun i _ => rfl⟩, rfl, fun r hr => ⟨?_, fun i _ => ?_⟩, ⟨?_, fun i _ => ?_⟩⟩
  · simp only [bilinear, plus, const, laxDot_shape, hE.jac r hr]; rfl
  · simp only [bilinear, plus, const, laxDot_zero_left, zero_add]
  · simp only [bilinear, const, laxDot_shape, hE.lap]
  · simp [bilinear, const, laxDot_zero_left]

theorem same_arr {A B : Arr K} (hs : A.shape = B.shape) (hg : A.get = B.get) : A = B := by
  cases A; cases B; simp_all

theorem stackJac_at {D : DLap K} (hD : D.WF) {k : ℕ} (hk : k < D.n) : (stackJac D).at0 k = D.jac k :=
  same_arr (hD.jac k hk).symm rfl

theorem denseDot_expands {n : ℕ} {l r v : Val K} {D E : DLap K} (hwl : l.WF) (hwr : r.WF)
    (hl : l.lift n = some D) (hr : r.lift n = some E) (ok : d.OK D.x.shape E.x.shape)
    (h : denseDot d l r = some v) : v.ExpandsTo (bilinear (laxDot · · d) D E) := by
  unfold denseDot at h
  simp only [Option.bind_eq_bind, Option.pure_def, Option.bind_eq_some_iff] at h
  obtain ⟨m, hm, D', hD', E', hE', h⟩ := h
  have : m = n := by
    unfold basisOf at hm
    rcases lift_basis hl with h1 | h1 <;> rcases lift_basis hr with h2 | h2 <;> simp_all [List.findSome?]
  subst this
  rw [hl] at hD'; rw [hr] at hE'
  obtain rfl := Option.some.inj hD'
  obtain rfl := Option.some.inj hE'
  have wD := lift_wf hwl hl
  have wE := lift_wf hwr hr
  have nD := lift_n hl
  have nE := lift_n hr
  split at h
  · -- plain on the left
    rename_i _ _ p
    obtain rfl := lift_plain hl
    obtain rfl := Option.some.inj h
    have hb := bilinear_const_left (d := d) wE p
    rw [nE] at hb
    have hj : ∀ k, k < m → ((vmap0 (laxDot p · d) (stackJac E)).at0 k) = laxDot p (E.jac k) d := by
      intro k hk
      apply same_arr
      · show dotShape p.shape E.x.shape d = _
        rw [laxDot_shape, wE.jac k (by omega)]
      · funext i
        show (laxDot p ((stackJac E).at0 k) d).get i = _
        rw [stackJac_at wE (by omega)]
    refine ⟨⟨fun k hk => ?_, ?_⟩, ?_⟩
    · refine (congrArg Arr.shape (hj k hk)).trans ?_
      replace hk : k < m := hk
      rw [laxDot_shape, wE.jac k (by omega)]; rfl
    · simp only [laxDot_shape, wE.lap]
    · refine DLap.Same.trans ?_ hb.symm
      exact ⟨.refl _, rfl, fun k hk => by refine (congrArg₂ Arr.Same (hj k hk) rfl).mpr (.refl _), .refl _⟩
  · rename_i _ _ q _
    obtain rfl := lift_plain hr
    obtain rfl := Option.some.inj h
    have hb := bilinear_const_right (d := d) wD q
    rw [nD] at hb
    have hj : ∀ k, k < m → ((vmap0 (laxDot · q d) (stackJac D)).at0 k) = laxDot (D.jac k) q d := by
      intro k hk
      apply same_arr
      · show dotShape D.x.shape q.shape d = _
        rw [laxDot_shape, wD.jac k (by omega)]
      · funext i
        show (laxDot ((stackJac D).at0 k) q d).get i = _
        rw [stackJac_at wD (by omega)]
    refine ⟨⟨fun k hk => ?_, ?_⟩, ?_⟩
    · refine (congrArg Arr.shape (hj k hk)).trans ?_
      replace hk : k < m := hk
      rw [laxDot_shape, wD.jac k (by omega)]; rfl
    · simp only [laxDot_shape, wD.lap]
    · refine DLap.Same.trans ?_ hb.symm
      exact ⟨.refl _, rfl, fun k hk => by refine (congrArg₂ Arr.Same (hj k hk) rfl).mpr (.refl _), .refl _⟩
  · obtain rfl := Option.some.inj h
    have sL : (vmap0 (laxDot · E.x d) (stackJac D)).shape = m :: dotShape D.x.shape E.x.shape d := by rw [← nD]; rfl
    have sR : (vmap0 (laxDot D.x · d) (stackJac E)).shape = m :: dotShape D.x.shape E.x.shape d := by rw [← nE]; rfl
    have sJ := binop_same_shape (fun u v : K => u + v) sL sR
    have sM : (dotLead (stackJac D) (stackJac E) d).shape = dotShape D.x.shape E.x.shape d :=
      dotLead_shape (C := m) (by rw [← nD]; rfl) (by rw [← nE]; rfl) d
    have s1 : (laxDot D.lap E.x d).shape = dotShape D.x.shape E.x.shape d := by rw [laxDot_shape, wD.lap]
    have s2 : (laxDot D.x E.lap d).shape = dotShape D.x.shape E.x.shape d := by rw [laxDot_shape, wE.lap]
    have s3 := binop_same_shape (fun u v : K => u + v) s1 s2
    have sM2 : ((dotLead (stackJac D) (stackJac E) d).map (2 * ·)).shape = dotShape D.x.shape E.x.shape d := sM
    have s4 := binop_same_shape (fun u v : K => u + v) s3 sM2
    have hsh : ∀ k, k < m → ((binop (fun u v : K => u + v) (vmap0 (laxDot · E.x d) (stackJac D)) (vmap0 (laxDot D.x · d) (stackJac E))).at0 k).shape =
        dotShape D.x.shape E.x.shape d := by
      intro k _
      show List.tail _ = _
      rw [sJ]; rfl
    refine ⟨⟨fun k hk => hsh k hk, s4⟩, ⟨rfl, fun i _ => rfl⟩, nD.symm, fun k hk => ⟨?_, fun i hi => ?_⟩, ⟨s4, fun i hi => ?_⟩⟩
    · replace hk : k < m := hk
      rw [hsh k hk]
      simp only [bilinear, plus, laxDot_shape, wD.jac k (by omega)]
    · replace hk : k < m := hk
      rw [hsh k hk] at hi
      show (binop (fun u v : K => u + v) _ _).get (k :: i) = _
      rw [binop_same_get _ sL sR (inB_cons.mpr ⟨hk, hi⟩), vmap0_get, vmap0_get, stackJac_at wD (by omega), stackJac_at wE (by omega)]
      rfl
    · rw [s4] at hi
      rw [binop_same_get _ s3 sM2 hi, binop_same_get _ s1 s2 hi]
      show _ + 2 * (dotLead (stackJac D) (stackJac E) d).get i = _ + 2 * ∑ r ∈ Finset.range D.n, (laxDot (D.jac r) (E.jac r) d).get i
      congr 2
      rw [dotLead_get (C := m) (ls := D.x.shape) (rs := E.x.shape) (by rw [← nD]; rfl) (by rw [← nE]; rfl) ok.clen, nD]
      refine Finset.sum_congr rfl fun r hr => ?_
      have hr' := Finset.mem_range.mp hr
      rw [laxDot_get, wD.jac r (by omega), wE.jac r (by omega)]
      rfl

/-- The Jacobian of one contracted operand. -/
theorem oneSide_row {s : SJac K} (hv : s.Valid) {ms owners : List OwnerRole} {slots : List ℕ} (hlen : ms.length = s.roles.length)
    (hsl : slots.length = ms.length) (hslot : ∀ (m : ℕ) (o : OwnerRole), ms[m]? = some o → ∃ t, slots[m]? = some t ∧ owners[t]? = some o)
    {dot : Arr K → Arr K} {sh cs : List ℕ} {w : List ℕ → List ℕ → K} {src : List ℕ → List ℕ → List ℕ}
    (hdot : ∀ A : Arr K, A.shape = s.out → ∀ i, InB sh i → (dot A).get i = sumIdx cs fun k => w i k * A.get (src i k))
    (hat : ∀ i k, InB sh i → InB cs k → ∀ t : ℕ, (ms[t]?).map (fun o => o.at i) = (s.roles[t]?).map fun o => o.at (src i k))
    {j : SJac K} {Z : List ℕ}
    (hj : j = ⟨accumulate (fun k => vmap0 dot (s.blocks.at0 k)) 0 slots (fullA Z 0), owners, s.inShape, s.ownAx⟩)
    {i : List ℕ} (hi : InB sh i) {r : ℕ} (hr : r < s.inShape.prod) : (j.row r).get i = (dot (s.row r)).get i := by
  rw [← dot_row hv hlen hdot hat hi r]
  rw [row_merge (j := j) (a := ⟨s.blocks, ms, s.inShape, s.ownAx⟩) (b := ⟨s.blocks, [], s.inShape, s.ownAx⟩) (ls := slots) (rs := [])
    (by rw [hj]; exact ⟨rfl, rfl⟩) (by rw [hj]; exact ⟨rfl, rfl⟩) hsl rfl (by rw [hj]; exact hslot) (by intro m o h; simp at h)
    (i := i) (A := fun m c => (vmap0 dot (s.blocks.at0 m)).get (c :: i)) (B := fun _ _ => 0) ?_ (by rw [hj]; exact hr)]
  · simp
  · intro t _ c _
    rw [hj]
    show (accumulate _ _ _ _).get _ = _
    rw [accumulate_get]
    simp [fullA]

theorem sparsePlainDot_expands_l {s v : SLap K} {p : Arr K} {D : DLap K} (hw : s.WF) (hD : s.expand = some D)
    (ok : d.OK D.x.shape p.shape) (hne : ∀ c ∈ d.lc, D.x.shape.getD c 0 ≠ 0) (h : sparsePlainDot d .lhs s p = some (some v)) :
    v.ExpandsTo (bilinear (laxDot · · d) D (const D.n p)) := by
  have wD := (expand_facts hw hD).2.2.2.2.1
  refine SLap.ExpandsTo.congr ?_ (bilinear_const_right wD p).symm
  obtain ⟨rfl, hr⟩ := expand_some hD
  unfold sparsePlainDot at h
  simp only [Option.bind_eq_bind, Option.pure_def] at h
  split at h
  · simp at h
  rename_i owners ls rs hl
  simp only [Option.bind_eq_some_iff, Option.some.injEq] at h hl
  obtain ⟨ms, hm, hmg⟩ := hl
  obtain ⟨j, hj, rfl⟩ := h
  obtain ⟨je, jv⟩ := mkSJac_some hj
  obtain ⟨m1, m2, m3, m4, m5⟩ := dotMerge_some hmg
  have jo : j.out = dotShape s.x.shape p.shape d := by
    rw [je]; show List.drop 2 (accumulate _ _ _ _).shape = _
    rw [accumulate_shape]; rfl
  have hso : s.jac.out = s.x.shape := hw.x.symm
  obtain ⟨ml, _⟩ := mapM_some hm
  apply expandsTo_intro
  · exact ⟨jv, by rw [jo]; rfl, by rw [jo, laxDot_shape, hw.lap, hw.x]⟩
  · intro o ho
    have ho' : o ∈ owners := by rw [je] at ho; exact ho
    rcases m5 o ho' with h | h
    · exact rolesL_reshapable hw.jac hr hso hne hm o h
    · cases h
  · rw [je]
  · exact .refl _
  · intro r hr'
    refine ⟨by rw [row_shape, jo, laxDot_shape, row_shape, hso], fun i hi => ?_⟩
    rw [row_shape, jo] at hi
    exact oneSide_row hw.jac ml m1 m3 (dot := fun A => laxDot A p d) (fun A hA i _ => dot_left (by rw [hA, hso]) rfl i)
      (fun i k hi hk t => rolesL_at hw.jac hso ok hm hi hk t) je hi hr'
  · exact .refl _

theorem sparsePlainDot_expands_r {s v : SLap K} {p : Arr K} {E : DLap K} (hw : s.WF) (hE : s.expand = some E)
    (ok : d.OK p.shape E.x.shape) (hne : ∀ c ∈ d.lc, p.shape.getD c 0 ≠ 0) (h : sparsePlainDot d .rhs s p = some (some v)) :
    v.ExpandsTo (bilinear (laxDot · · d) (const E.n p) E) := by
  have wE := (expand_facts hw hE).2.2.2.2.1
  refine SLap.ExpandsTo.congr ?_ (bilinear_const_left wE p).symm
  obtain ⟨rfl, hr⟩ := expand_some hE
  unfold sparsePlainDot at h
  simp only [Option.bind_eq_bind, Option.pure_def] at h
  split at h
  · simp at h
  rename_i owners ls rs hl
  simp only [Option.bind_eq_some_iff, Option.some.injEq] at h hl
  obtain ⟨ms, hm, hmg⟩ := hl
  obtain ⟨j, hj, rfl⟩ := h
  obtain ⟨je, jv⟩ := mkSJac_some hj
  obtain ⟨m1, m2, m3, m4, m5⟩ := dotMerge_some hmg
  have jo : j.out = dotShape p.shape s.x.shape d := by
    rw [je]; show List.drop 2 (accumulate _ _ _ _).shape = _
    rw [accumulate_shape]; rfl
  have hso : s.jac.out = s.x.shape := hw.x.symm
  obtain ⟨ml, _⟩ := mapM_some hm
  apply expandsTo_intro
  · exact ⟨jv, by rw [jo]; rfl, by rw [jo, laxDot_shape, hw.lap, hw.x]⟩
  · intro o ho
    have ho' : o ∈ owners := by rw [je] at ho; exact ho
    rcases m5 o ho' with h | h
    · cases h
    · exact rolesR_reshapable hw.jac hr hso ok hne hm o h
  · rw [je]
  · exact .refl _
  · intro r hr'
    refine ⟨by rw [row_shape, jo, laxDot_shape, row_shape, hso], fun i hi => ?_⟩
    rw [row_shape, jo] at hi
    exact oneSide_row hw.jac ml m2 m4 (dot := fun A => laxDot p A d) (fun A hA i _ => dot_right rfl (by rw [hA, hso]) i)
      (fun i k hi hk t => rolesR_at hw.jac hso ok hm hi hk t) je hi hr'
  · exact .refl _

theorem sparseSparseDot_expands {a b v : SLap K} {D E : DLap K} (hwa : a.WF) (hwb : b.WF) (hD : a.expand = some D) (hE : b.expand = some E)
    (ok : d.OK D.x.shape E.x.shape) (hne : ∀ c ∈ d.lc, D.x.shape.getD c 0 ≠ 0) (h : sparseSparseDot d a b = some (some v)) :
    v.ExpandsTo (bilinear (laxDot · · d) D E) := by
  obtain ⟨rfl, ra⟩ := expand_some hD
  obtain ⟨rfl, rb⟩ := expand_some hE
  unfold sparseSparseDot at h
  simp only [Option.bind_eq_bind, Option.pure_def] at h
  split at h
  · simp at h
  rename_i hc
  simp only [not_not] at hc
  obtain ⟨c1, c2⟩ := compat_iff.mp hc
  split at h
  · simp at h
  rename_i owners ls rs hl
  simp only [Option.bind_eq_some_iff, Option.some.injEq] at h hl
  obtain ⟨ml, hml, mr, hmr, hmg⟩ := hl
  obtain ⟨T, hT, j, hj, rfl⟩ := h
  obtain ⟨je, jv⟩ := mkSJac_some hj
  obtain ⟨m1, m2, m3, m4, m5⟩ := dotMerge_some hmg
  have hao : a.jac.out = a.x.shape := hwa.x.symm
  have hbo : b.jac.out = b.x.shape := hwb.x.symm
  have hcoord : a.jac.coords = b.jac.coords := by unfold SJac.coords; rw [c1, c2]
  obtain ⟨ll, _⟩ := mapM_some hml
  obtain ⟨lr, _⟩ := mapM_some hmr
  have jo : j.out = dotShape a.x.shape b.x.shape d := by
    rw [je]; show List.drop 2 (accumulate _ _ _ _).shape = _
    rw [accumulate_shape, accumulate_shape]; rfl
  obtain ⟨T1, T2⟩ := mixedTrace_some (d := d) (fun s t => by
    refine dotLead_shape (C := a.jac.coords) ?_ ?_ d
    · show a.jac.blocks.shape.tail = _; rw [hwa.jac.shape, hao]; rfl
    · show b.jac.blocks.shape.tail = _; rw [hwb.jac.shape, hbo, hcoord]; rfl) hT
  rw [laxDot_shape] at T1 T2
  have s1 : (laxDot a.lap b.x d).shape = dotShape a.x.shape b.x.shape d := by rw [laxDot_shape, hwa.lap, hwa.x]
  have s2 : (laxDot a.x b.lap d).shape = dotShape a.x.shape b.x.shape d := by rw [laxDot_shape, hwb.lap, hwb.x]
  have s3 := binop_same_shape (fun u v : K => u + v) s1 s2
  have s4 : (T.map (2 * ·)).shape = dotShape a.x.shape b.x.shape d := T1
  have s5 := binop_same_shape (fun u v : K => u + v) s3 s4
  apply expandsTo_intro
  · exact ⟨jv, by rw [jo]; rfl, by rw [jo]; exact s5⟩
  · intro o ho
    have ho' : o ∈ owners := by rw [je] at ho; exact ho
    rcases m5 o ho' with h | h
    · exact rolesL_reshapable hwa.jac ra hao hne hml o h
    · exact rolesR_reshapable hwb.jac rb hbo ok hne hmr o h
  · rw [je]; rfl
  · exact .refl _
  · intro r hr'
    replace hr' : r < a.jac.inShape.prod := hr'
    refine ⟨by rw [row_shape, jo]; simp only [bilinear, plus, laxDot_shape, row_shape, hao], fun i hi => ?_⟩
    rw [row_shape, jo] at hi
    show _ = (laxDot (a.jac.row r) b.x d).get i + (laxDot a.x (b.jac.row r) d).get i
    rw [← dot_row (dot := fun A => laxDot A b.x d) hwa.jac ll (fun A hA i _ => dot_left (by rw [hA, hao]) rfl i)
        (fun i k hi hk t => rolesL_at hwa.jac hao ok hml hi hk t) hi r,
      ← dot_row (dot := fun A => laxDot a.x A d) hwb.jac lr (fun A hA i _ => dot_right rfl (by rw [hA, hbo]) i)
        (fun i k hi hk t => rolesR_at hwb.jac hbo ok hmr hi hk t) hi r]
    refine row_merge (j := j) (a := ⟨a.jac.blocks, ml, a.jac.inShape, a.jac.ownAx⟩) (b := ⟨b.jac.blocks, mr, b.jac.inShape, b.jac.ownAx⟩)
      (ls := ls) (rs := rs) (by rw [je]; exact ⟨rfl, rfl⟩) (by rw [je]; exact ⟨c1, c2⟩) m1 m2 (by rw [je]; exact m3) (by rw [je]; exact m4)
      (i := i) (A := fun m c => (vmap0 (fun A => laxDot A b.x d) (a.jac.blocks.at0 m)).get (c :: i))
      (B := fun m c => (vmap0 (fun A => laxDot a.x A d) (b.jac.blocks.at0 m)).get (c :: i)) ?_ (by rw [je]; exact hr')
    intro t _ c _
    rw [je]
    show (accumulate _ _ _ _).get _ = _
    rw [accumulate_get, accumulate_get]
    simp [fullA]
  · refine ⟨s5, fun i hi => ?_⟩
    rw [s5] at hi
    rw [binop_same_get _ s3 s4 hi, binop_same_get _ s1 s2 hi]
    show _ + 2 * T.get i = _ + 2 * ∑ r ∈ Finset.range a.jac.inShape.prod, (laxDot (a.jac.row r) (b.jac.row r) d).get i
    rw [mixed_sum hwa.jac hwb.jac ra hao hbo ok hc hml hmr hi, T2 i hi, m1, m2]
    congr 2
    refine Finset.sum_congr rfl fun s hs => Finset.sum_congr rfl fun t ht => ?_
    have hs' := Finset.mem_range.mp hs
    have ht' := Finset.mem_range.mp ht
    obtain ⟨u, u1, u2⟩ := m3 s _ (List.getElem?_eq_getElem hs')
    obtain ⟨w, w1, w2⟩ := m4 t _ (List.getElem?_eq_getElem ht')
    rw [List.getElem?_eq_getElem hs', List.getElem?_eq_getElem ht', List.getD_eq_getElem?_getD, u1, List.getD_eq_getElem?_getD, w1]
    simp only [Option.getD_some, u2, w2]

theorem handleDot_expands {n : ℕ} {l r v : Val K} {D E : DLap K} (hwl : l.WF) (hwr : r.WF)
    (hl : l.lift n = some D) (hr : r.lift n = some E) (ok : d.OK D.x.shape E.x.shape) (hne : ∀ c ∈ d.lc, D.x.shape.getD c 0 ≠ 0)
    (h : handleDot d l r = some v) : v.ExpandsTo (bilinear (laxDot · · d) D E) := by
  unfold handleDot at h
  simp only [Option.bind_eq_bind, Option.pure_def] at h
  split at h
  · obtain ⟨_, hD⟩ := lift_sparse hl
    obtain ⟨_, hE⟩ := lift_sparse hr
    simp only [Option.bind_eq_some_iff] at h
    obtain ⟨w, hw, h⟩ := h
    split at h
    · obtain rfl := Option.some.inj h
      exact sparseSparseDot_expands hwl hwr hD hE ok hne hw
    · exact denseDot_expands hwl hwr hl hr ok h
  · obtain ⟨_, hD⟩ := lift_sparse hl
    obtain rfl := lift_plain hr
    simp only [Option.bind_eq_some_iff] at h
    obtain ⟨w, hw, h⟩ := h
    split at h
    · obtain rfl := Option.some.inj h
      have hn : D.n = n := lift_n hl
      subst hn
      exact sparsePlainDot_expands_l hwl hD ok hne hw
    · exact denseDot_expands hwl hwr hl hr ok h
  · obtain ⟨_, hE⟩ := lift_sparse hr
    obtain rfl := lift_plain hl
    simp only [Option.bind_eq_some_iff] at h
    obtain ⟨w, hw, h⟩ := h
    split at h
    · obtain rfl := Option.some.inj h
      have hn : E.n = n := lift_n hr
      subst hn
      exact sparsePlainDot_expands_r hwr hE ok hne hw
    · exact denseDot_expands hwl hwr hl hr ok h
  · exact denseDot_expands hwl hwr hl hr ok h

end Jaqmc.Sparse
