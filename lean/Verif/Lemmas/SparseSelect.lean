import Verif.Lemmas.SparsePick
/-! `select_n` (C45). -/
namespace Jaqmc.Sparse
open Spec
variable {K : Type} [Field K]

theorem bshape_nil_left (s : List ℕ) : bshape [] s = s := by simp [bshape, bshapeRev]

theorem bshape_sel {m sh : List ℕ} (h : m = sh ∨ m = []) : bshape m sh = sh := by
  rcases h with rfl | rfl
  · exact bshape_self _
  · exact bshape_nil_left _

theorem selectCase_some {sel c v : SLap K} {picks : Arr Bool} {sh : List ℕ} (ws : sel.WF) (wc : c.WF) (os : sel.jac.out = sh) (oc : c.jac.out = sh)
    (hr : c.jac.roles.length = sel.jac.roles.length) (hc : c.jac.coords = sel.jac.coords) (hp : picks.shape = sh ∨ picks.shape = [])
    (h : selectCase sel c picks = some v) :
    v.WF ∧ v.jac.out = sh ∧ v.jac.roles = sel.jac.roles ∧ v.jac.inShape = sel.jac.inShape ∧ v.jac.ownAx = sel.jac.ownAx ∧
    ∀ i, InB sh i → v.x.get i = (if picks.get (bsrc picks.shape i) then c else sel).x.get i ∧
      v.lap.get i = (if picks.get (bsrc picks.shape i) then c else sel).lap.get i ∧
      ∀ t < sel.jac.roles.length, ∀ k < sel.jac.coords,
        v.jac.blocks.get (t :: k :: i) = (if picks.get (bsrc picks.shape i) then c else sel).jac.blocks.get (t :: k :: i) := by
  unfold selectCase at h
  simp only [Option.bind_eq_bind, Option.pure_def, Option.bind_eq_some_iff, Option.some.injEq] at h
  obtain ⟨j, hj, rfl⟩ := h
  obtain ⟨je, jv, _⟩ := withBlocks_some hj
  have sx : sel.x.shape = sh := ws.x.trans os
  have cx : c.x.shape = sh := wc.x.trans oc
  have sl : sel.lap.shape = sh := ws.lap.trans os
  have cl : c.lap.shape = sh := wc.lap.trans oc
  have sb : sel.jac.blocks.shape = sel.jac.roles.length :: sel.jac.coords :: sh := by rw [ws.jac.shape, os]
  have cb : c.jac.blocks.shape = sel.jac.roles.length :: sel.jac.coords :: sh := by rw [wc.jac.shape, oc, hr, hc]
  have hw : ∀ A B : Arr K, A.shape = sh → B.shape = sh → (whereA picks A B).shape = sh ∧
      ∀ i, InB sh i → (whereA picks A B).get i = if picks.get (bsrc picks.shape i) then A.get i else B.get i := by
    intro A B hA hB
    unfold whereA
    simp only [hA, hB, bshape_self, bshape_sel hp, bcast_get]
    exact ⟨trivial, fun i hi => by rw [bsrc_self hi]⟩
  have jo : j.out = sh := by
    rw [je]; show List.drop 2 _ = _
    simp only [whereA, laxReshape, sb, cb, sx, bshape_self, bshape_ones']
    rfl
  refine ⟨⟨jv, ?_, ?_⟩, jo, by rw [je], by rw [je], by rw [je], fun i hi => ⟨?_, ?_, ?_⟩⟩
  · rw [jo]; exact (hw _ _ cx sx).1
  · rw [jo]; exact (hw _ _ cl sl).1
  · simp only; rw [(hw _ _ cx sx).2 i hi]; split <;> rfl
  · simp only; rw [(hw _ _ cl sl).2 i hi]; split <;> rfl
  · intro t ht k hk
    rw [je]
    simp only [whereA, laxReshape, sb, cb, sx, bshape_self, bshape_ones', bcast_get, bsrc_pair ht hk hi, bsrc_ones hi, ravel_one_one, bcast_shape,
      unravel_ravel hi]
    split <;> rfl

theorem selectFold_some {which : Arr ℕ} {sh : List ℕ} (hwh : which.shape = sh ∨ which.shape = []) (cs : List (SLap K)) :
    ∀ {k : ℕ} {sel v : SLap K}, sel.WF → sel.jac.out = sh →
    (∀ c ∈ cs, c.WF ∧ c.jac.out = sh ∧ c.jac.roles.length = sel.jac.roles.length ∧ c.jac.coords = sel.jac.coords) →
    selectFold which k sel cs = some v →
    v.WF ∧ v.jac.out = sh ∧ v.jac.roles = sel.jac.roles ∧ v.jac.inShape = sel.jac.inShape ∧ v.jac.ownAx = sel.jac.ownAx ∧
    ∀ i, InB sh i → ∀ c, c = (if k ≤ which.get (bsrc which.shape i) then cs[which.get (bsrc which.shape i) - k]? else none).getD sel →
      v.x.get i = c.x.get i ∧ v.lap.get i = c.lap.get i ∧
      ∀ t < sel.jac.roles.length, ∀ q < sel.jac.coords, v.jac.blocks.get (t :: q :: i) = c.jac.blocks.get (t :: q :: i) := by
  induction cs with
  | nil =>
    intro k sel v ws os _ h
    simp only [selectFold, Option.some.injEq] at h
    subst h
    refine ⟨ws, os, rfl, rfl, rfl, fun i _ c hc => ?_⟩
    have : c = sel := by rw [hc]; split <;> simp
    subst this
    exact ⟨rfl, rfl, fun _ _ _ _ => rfl⟩
  | cons c0 cs ih =>
    intro k sel v ws os hcs h
    simp only [selectFold, Option.bind_eq_bind, Option.bind_eq_some_iff] at h
    obtain ⟨sel', hs, h⟩ := h
    obtain ⟨w0, o0, r0, q0⟩ := hcs c0 List.mem_cons_self
    obtain ⟨s1, s2, s3, s4, s5, s6⟩ := selectCase_some ws w0 os o0 r0 q0 hwh hs
    have hco : sel'.jac.coords = sel.jac.coords := by unfold SJac.coords; rw [s4, s5]
    obtain ⟨v1, v2, v3, v4, v5, v6⟩ := ih s1 s2 (fun c hc => by
      rw [s3, hco]; exact hcs c (List.mem_cons_of_mem _ hc)) h
    refine ⟨v1, v2, v3.trans s3, v4.trans s4, v5.trans s5, fun i hi c hc => ?_⟩
    obtain ⟨a1, a2, a3⟩ := s6 i hi
    obtain ⟨b1, b2, b3⟩ := v6 i hi _ rfl
    rw [s3, hco] at b3
    have hw : (which.map (· == k)).get (bsrc (which.map (· == k)).shape i) = (which.get (bsrc which.shape i) == k) := rfl
    rw [hw] at a1 a2 a3
    generalize which.get (bsrc which.shape i) = w at *
    rcases Nat.lt_trichotomy w k with h1 | h1 | h1
    · rw [if_neg (by omega)] at hc
      rw [if_neg (by omega)] at b1 b2 b3
      simp only [Option.getD_none] at hc b1 b2 b3
      have : (w == k) = false := by simp; omega
      rw [this] at a1 a2 a3
      subst hc
      exact ⟨b1.trans a1, b2.trans a2, fun t ht q hq => (b3 t ht q hq).trans (a3 t ht q hq)⟩
    · subst h1
      rw [if_pos (le_refl _), Nat.sub_self] at hc
      rw [if_neg (by omega)] at b1 b2 b3
      simp only [Option.getD_none, List.getElem?_cons_zero, Option.getD_some] at hc b1 b2 b3
      rw [beq_self_eq_true] at a1 a2 a3
      subst hc
      exact ⟨b1.trans a1, b2.trans a2, fun t ht q hq => (b3 t ht q hq).trans (a3 t ht q hq)⟩
    · rw [if_pos (by omega), show w - k = (w - (k + 1)) + 1 by omega, List.getElem?_cons_succ] at hc
      rw [if_pos (by omega)] at b1 b2 b3
      have : (w == k) = false := by simp; omega
      rw [this] at a1 a2 a3
      cases hx : cs[w - (k + 1)]? with
      | none =>
        rw [hx] at hc b1 b2 b3
        simp only [Option.getD_none] at hc b1 b2 b3
        subst hc
        exact ⟨b1.trans a1, b2.trans a2, fun t ht q hq => (b3 t ht q hq).trans (a3 t ht q hq)⟩
      | some c' =>
        rw [hx] at hc b1 b2 b3
        simp only [Option.getD_some] at hc b1 b2 b3
        subst hc
        exact ⟨b1, b2, b3⟩

theorem broadcastSJ_self {j : SJac K} {sh : List ℕ} (h : j.out = sh) : broadcastSJ j sh = some j := by
  unfold broadcastSJ; rw [if_pos h]

theorem foldl_bshape_same {sh : List ℕ} {l : List (List ℕ)} (h : ∀ s ∈ l, s = sh) : ∀ s0, s0 = [] ∧ l ≠ [] ∨ s0 = sh → l.foldl bshape s0 = sh := by
  induction l with
  | nil => intro s0 h0; rcases h0 with h0 | h0
           · exact absurd rfl h0.2
           · exact h0
  | cons a l ih =>
    intro s0 h0
    rw [List.foldl_cons]
    apply ih (fun s hs => h s (List.mem_cons_of_mem _ hs))
    right
    rw [h a List.mem_cons_self]
    rcases h0 with h0 | h0
    · rw [h0.1]; exact bshape_nil_left _
    · rw [h0]; exact bshape_self _

theorem zeroLike_some {j z : SJac K} (hv : j.Valid) {sh : List ℕ} (ho : j.out = sh) (h : zeroLike j sh = some z) :
    z = ⟨fullA j.blocks.shape 0, j.roles, j.inShape, j.ownAx⟩ ∧ z.Valid ∧ z.out = sh := by
  unfold zeroLike at h
  simp only [Option.bind_eq_bind, Option.bind_eq_some_iff] at h
  obtain ⟨z', hz, h⟩ := h
  obtain ⟨rfl, h2, _⟩ := withBlocks_some hz
  have ho' : (⟨fullA j.blocks.shape 0, j.roles, j.inShape, j.ownAx⟩ : SJac K).out = sh := by rw [← ho]; rfl
  rw [if_pos ho'] at h
  obtain rfl := Option.some.inj h
  exact ⟨rfl, h2, ho'⟩

/-- One prepared case. -/
theorem selectPrep_some {t : SJac K} (ht : t.Valid) {n : ℕ} {sh : List ℕ} {zeros : SJac K} (hto : t.out = sh) (hz : zeroLike t sh = some zeros)
    {v : Val K} {c : SLap K} {D : DLap K} (hwv : v.WF) (hvs : v.arr.shape = sh)
    (hroles : ∀ s, v = .sparse s → s.jac.roles = t.roles ∧ s.jac.inShape = t.inShape ∧ s.jac.ownAx = t.ownAx) (hp : selectPrep zeros sh v = some c) (hD : v.lift n = some D) :
    c.WF ∧ c.jac.out = sh ∧ c.jac.roles = t.roles ∧ c.jac.inShape = t.inShape ∧ c.jac.ownAx = t.ownAx ∧
    D.x.shape = sh ∧ (∀ r < n, (D.jac r).shape = sh) ∧ D.lap.shape = sh ∧
    ∀ i, InB sh i → c.x.get i = D.x.get i ∧ c.lap.get i = D.lap.get i ∧ (n = t.inShape.prod → ∀ r < n, (c.jac.row r).get i = (D.jac r).get i) := by
  obtain ⟨z1, z2, z3⟩ := zeroLike_some ht hto hz
  cases v with
  | dense d => cases hp
  | plain p =>
    simp only [selectPrep, Option.some.injEq] at hp
    subst hp
    obtain rfl := lift_plain hD
    have hps : p.shape = sh := hvs
    refine ⟨⟨z2, z3.symm, z3.symm⟩, z3, by rw [z1], by rw [z1], by rw [z1], hps, fun _ _ => hps, hps, fun i hi => ⟨?_, rfl, fun _ r hr => ?_⟩⟩
    · simp only [bcast_get, hps, bsrc_self hi, const]
    · rw [row_get]
      simp only [z1, full_get, const, mul_zero, Finset.sum_const_zero]
  | sparse s =>
    have hps : s.x.shape = sh := hvs
    have hso : s.jac.out = sh := hwv.x.symm.trans hps
    obtain ⟨hn, hE⟩ := lift_sparse hD
    obtain ⟨rfl, _⟩ := expand_some hE
    obtain ⟨h1, h2, h3⟩ := hroles s rfl
    simp only [selectPrep, broadcastSL, broadcastSJ_self hso, Option.map_some, Option.some.injEq] at hp
    subst hp
    have hls : s.lap.shape = sh := hwv.lap.trans hso
    refine ⟨⟨hwv.jac, hso.symm, hso.symm⟩, hso, h1, h2, h3, hps, fun _ _ => by rw [row_shape, hso], hls, fun i hi => ⟨?_, ?_, fun _ r hr => rfl⟩⟩
    · simp only [bcast_get, hps, bsrc_self hi]
    · simp only [bcast_get, hls, bsrc_self hi]

theorem lift_same {n m : ℕ} {v : Val K} {D : DLap K} (h : v.lift n = some D) (hb : v.basis = some m) : m = n := by
  rcases lift_basis h with h' | h'
  · rw [hb] at h'; cases h'
  · rw [hb] at h'; exact Option.some.inj h'

theorem denseLinearN_expands {p : List (Arr K) → Arr K} {n : ℕ} {vs : List (Val K)} {Ds : List (DLap K)} {v : Val K}
    (hl : vs.mapM (Val.lift n) = some Ds) (hwf : (linearN p n Ds).WF) (h : denseLinearN p vs = some v) : v.ExpandsTo (linearN p n Ds) := by
  unfold denseLinearN at h
  simp only [Option.bind_eq_bind, Option.pure_def, Option.bind_eq_some_iff, Option.some.injEq] at h
  obtain ⟨m, hm, Ds', hl', rfl⟩ := h
  have : m = n := by
    unfold basisOf at hm
    obtain ⟨v, hv, hb⟩ := List.exists_of_findSome?_eq_some hm
    obtain ⟨k, hk, rfl⟩ := List.getElem_of_mem hv
    obtain ⟨D, _, hD⟩ := (mapM_some hl).2 k vs[k] (List.getElem?_eq_getElem hk)
    exact lift_same hD hb
  subst this
  rw [hl] at hl'
  obtain rfl := Option.some.inj hl'
  exact ⟨hwf, .refl _⟩

theorem getElem_select {α : Type} (c : α) (cs : List α) {m : ℕ} (h : m < (c :: cs).length) :
    (c :: cs)[m] = (if 1 ≤ m then cs[m - 1]? else none).getD c := by
  cases m with
  | zero => simp
  | succ m =>
    rw [if_pos (by omega), Nat.add_sub_cancel]
    have : m < cs.length := by simpa using h
    rw [List.getElem?_eq_getElem this]
    simp

theorem handleSelectN_expands {which : Arr ℕ} {n : ℕ} {vs : List (Val K)} {Ds : List (DLap K)} {sh : List ℕ} {v : Val K}
    (hw : ∀ u ∈ vs, u.WF) (hsh : ∀ u ∈ vs, u.arr.shape = sh) (hwh : which.shape = sh ∨ which.shape = [])
    (hl : vs.mapM (Val.lift n) = some Ds) (hne : vs ≠ [])
    (h : handleSelectN which vs = some v) :
    v.ExpandsTo (linearN (selectN (which.map fun k => min k (vs.length - 1)) sh) n Ds) := by
  have hfold : (vs.map fun v => v.arr.shape).foldl bshape [] = sh :=
    foldl_bshape_same (fun s hs => by
      obtain ⟨u, hu, rfl⟩ := List.mem_map.mp hs
      exact hsh u hu) [] (Or.inl ⟨rfl, by simpa using hne⟩)
  unfold handleSelectN at h
  simp only [hfold] at h
  have hdense : ∀ v, denseLinearN (selectN (which.map fun k => min k (vs.length - 1)) sh) vs = some v →
      v.ExpandsTo (linearN (selectN (which.map fun k => min k (vs.length - 1)) sh) n Ds) := fun v h =>
    denseLinearN_expands hl ⟨fun _ _ => rfl, rfl⟩ h
  split at h
  · exact hdense v h
  · split at h
    · cases h
    · rename_i t rest hsp
      split at h
      · rename_i hall
        simp only [Option.bind_eq_bind, Option.pure_def, Option.bind_eq_some_iff] at h
        obtain ⟨zeros, hz, cs', hcs, h⟩ := h
        have hsps : ∀ s, Val.sparse s ∈ vs → s.jac.roles = t.jac.roles ∧ s.jac.inShape = t.jac.inShape ∧ s.jac.ownAx = t.jac.ownAx := by
          intro s hs
          have : s ∈ sparsesOf vs := by
            unfold sparsesOf
            exact List.mem_filterMap.mpr ⟨_, hs, rfl⟩
          rw [hsp] at this
          rcases List.mem_cons.mp this with rfl | this
          · exact ⟨rfl, rfl, rfl⟩
          · have := List.all_eq_true.mp hall s this
            simp only [compat, Bool.and_eq_true, beq_iff_eq] at this
            exact ⟨this.1.2, this.2.1, this.2.2⟩
        have htm : Val.sparse t ∈ vs := by
          have : t ∈ sparsesOf vs := by rw [hsp]; simp
          unfold sparsesOf at this
          obtain ⟨u, hu, he⟩ := List.mem_filterMap.mp this
          cases u with
          | plain p => cases he
          | dense d => cases he
          | sparse s => simp only [Option.some.injEq] at he; rw [← he]; exact hu
        have htw : t.WF := hw _ htm
        have hto : t.jac.out = sh := htw.x.symm.trans (hsh _ htm)
        have hnt : n = t.jac.inShape.prod := by
          obtain ⟨k, hk, he⟩ := List.getElem_of_mem htm
          obtain ⟨D, _, hD⟩ := (mapM_some hl).2 k vs[k] (List.getElem?_eq_getElem hk)
          rw [he] at hD
          exact (lift_sparse hD).1.symm
        obtain ⟨tr, hte⟩ : (∀ o ∈ t.jac.roles, o.reshapable = true) ∧ True := by
          obtain ⟨k, hk, he⟩ := List.getElem_of_mem htm
          obtain ⟨D, _, hD⟩ := (mapM_some hl).2 k vs[k] (List.getElem?_eq_getElem hk)
          rw [he] at hD
          exact ⟨(expand_some (lift_sparse hD).2).2, trivial⟩
        -- facts about prepared case `k`
        have hcase : ∀ (k : ℕ) u, vs[k]? = some u → ∃ c D, cs'[k]? = some c ∧ Ds[k]? = some D ∧ selectPrep zeros sh u = some c ∧ u.lift n = some D := by
          intro k u hk
          obtain ⟨c, h1, h2⟩ := (mapM_some hcs).2 k u hk
          obtain ⟨D, h3, h4⟩ := (mapM_some hl).2 k u hk
          exact ⟨c, D, h1, h3, h2, h4⟩
        have hfacts : ∀ (k : ℕ) c, cs'[k]? = some c → ∃ D, Ds[k]? = some D ∧ c.WF ∧ c.jac.out = sh ∧ c.jac.roles = t.jac.roles ∧ c.jac.inShape = t.jac.inShape ∧
            c.jac.ownAx = t.jac.ownAx ∧ D.x.shape = sh ∧ (∀ r < n, (D.jac r).shape = sh) ∧ D.lap.shape = sh ∧
            ∀ i, InB sh i → c.x.get i = D.x.get i ∧ c.lap.get i = D.lap.get i ∧ (∀ r < n, (c.jac.row r).get i = (D.jac r).get i) := by
          intro k c hk
          have hkl : k < vs.length := by
            have := (mapM_some hcs).1
            have := (List.getElem?_eq_some_iff.mp hk).1
            omega
          obtain ⟨c', D, h1, h2, h3, h4⟩ := hcase k vs[k] (List.getElem?_eq_getElem hkl)
          rw [hk] at h1
          obtain rfl := Option.some.inj h1
          have hmem : vs[k] ∈ vs := List.getElem_mem hkl
          obtain ⟨p1, p2, p3, p4, p5, p6, p7, p8, p9⟩ := selectPrep_some htw.jac hto hz (hw _ hmem) (hsh _ hmem)
            (fun s hs => hsps s (hs ▸ hmem)) h3 h4
          exact ⟨D, h2, p1, p2, p3, p4, p5, p6, p7, p8, fun i hi => ⟨(p9 i hi).1, (p9 i hi).2.1, (p9 i hi).2.2 hnt⟩⟩
        have hlen : cs'.length = vs.length := (mapM_some hcs).1
        split at h
        · cases h
        · rename_i c cs
          simp only [Option.bind_eq_some_iff, Option.some.injEq] at h
          obtain ⟨w, hf, rfl⟩ := h
          obtain ⟨D0, _, f1, f2, f3, f4, f5, _⟩ := hfacts 0 c rfl
          have hcoords : c.jac.coords = t.jac.coords := by unfold SJac.coords; rw [f4, f5]
          obtain ⟨w1, w2, w3, w4, w5, w6⟩ := selectFold_some (which := which.map fun k => min k (vs.length - 1)) hwh cs f1 f2
            (fun c' hc' => by
              obtain ⟨k, hk, he⟩ := List.getElem_of_mem hc'
              obtain ⟨D', _, g1, g2, g3, g4, g5, _⟩ := hfacts (k + 1) c' (by rw [List.getElem?_cons_succ, List.getElem?_eq_getElem hk, he])
              refine ⟨g1, g2, by rw [g3, f3], ?_⟩
              unfold SJac.coords; rw [g4, g5, f4, f5]) hf
          -- the picked case
          have hpick : ∀ i, InB sh i → ∃ c' D', (c :: cs)[min (which.get (bsrc which.shape i)) (vs.length - 1)]? = some c' ∧
              Ds[min (which.get (bsrc which.shape i)) (vs.length - 1)]? = some D' ∧
              w.x.get i = c'.x.get i ∧ w.lap.get i = c'.lap.get i ∧
              ∀ t < c.jac.roles.length, ∀ q < c.jac.coords, w.jac.blocks.get (t :: q :: i) = c'.jac.blocks.get (t :: q :: i) := by
            intro i hi
            have hlt : min (which.get (bsrc which.shape i)) (vs.length - 1) < (c :: cs).length := by
              have : 0 < vs.length := List.length_pos_iff.mpr hne
              omega
            refine ⟨_, _, List.getElem?_eq_getElem hlt, (hfacts _ _ (List.getElem?_eq_getElem hlt)).choose_spec.1, ?_⟩
            apply w6 i hi
            simp only [map_get, map_shape]
            exact getElem_select c cs hlt
          have hsel : ∀ i, InB sh i → ∀ (As : List (Arr K)) A, As[min (which.get (bsrc which.shape i)) (vs.length - 1)]? = some A → A.shape = sh →
              (selectN (which.map fun k => min k (vs.length - 1)) sh As).get i = A.get i := by
            intro i hi As A hA hs
            simp only [selectN, bcast_get, map_get, map_shape, hA, Option.map_some, Option.getD_some, hs, bsrc_self hi]
          refine expandsTo_intro w1 (fun o ho => tr o (by rw [← f3, ← w3]; exact ho)) ?_ ?_ ?_ ?_
          · show _ = n
            rw [hnt, w4, f4]
          · refine ⟨by rw [w1.x, w2]; rfl, fun i hi => ?_⟩
            rw [w1.x, w2] at hi
            obtain ⟨c', D', e1, e2, e3, _⟩ := hpick i hi
            obtain ⟨D'', g0, _, _, _, _, _, g1, _, _, g2⟩ := hfacts _ c' e1
            rw [e2] at g0
            obtain rfl := Option.some.inj g0
            rw [e3, (g2 i hi).1]
            exact (hsel i hi _ _ (by rw [List.getElem?_map, e2]; rfl) g1).symm
          · intro r hr
            have hr' : r < n := hr
            refine ⟨by rw [row_shape, w2]; rfl, fun i hi => ?_⟩
            rw [row_shape, w2] at hi
            obtain ⟨c', D', e1, e2, _, _, e3⟩ := hpick i hi
            obtain ⟨D'', g0, k1, k2, k3, k4, k5, _, g1, _, g2⟩ := hfacts _ c' e1
            rw [e2] at g0
            obtain rfl := Option.some.inj g0
            refine Eq.trans ?_ (hsel i hi _ _ (by rw [List.getElem?_map, e2]; rfl) (g1 r hr')).symm
            rw [← (g2 i hi).2.2 r hr']
            have := row_rel (j := c'.jac) (j' := w.jac) (i := i) (i' := i) (φ := 1) (by rw [w3, f3, k3]) (by rw [w4, f4, k4]) (by rw [w5, f5, k5])
              (fun s => by rw [w3, f3, k3]) (fun s hs q hq => by
                rw [one_mul]
                exact e3 s (by rw [f3, ← k3]; exact hs) q (by
                  have : c'.jac.coords = c.jac.coords := by unfold SJac.coords; rw [k4, k5, f4, f5]
                  rw [← this]; exact hq)) (r := r) (by rw [k4, ← hnt]; exact hr')
            rw [this, one_mul]
          · refine ⟨by rw [w1.lap, w2]; rfl, fun i hi => ?_⟩
            rw [w1.lap, w2] at hi
            obtain ⟨c', D', e1, e2, _, e3, _⟩ := hpick i hi
            obtain ⟨D'', g0, _, _, _, _, _, _, _, g1, g2⟩ := hfacts _ c' e1
            rw [e2] at g0
            obtain rfl := Option.some.inj g0
            rw [e3, (g2 i hi).2.1]
            exact (hsel i hi _ _ (by rw [List.getElem?_map, e2]; rfl) g1).symm
      · exact hdense v h

end Jaqmc.Sparse
