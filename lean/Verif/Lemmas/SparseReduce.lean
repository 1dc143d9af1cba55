import Verif.Lemmas.SparseShape
/-! Reshape and reductions (C45). -/
namespace Jaqmc.Sparse
open Spec
variable {K : Type} [Field K]

/-! ### Reshape -/

theorem prod_pos_of_inB {sh i : List ℕ} (h : InB sh i) : 0 < sh.prod := by
  induction sh generalizing i with
  | nil => simp
  | cons n s ih =>
    cases i with
    | nil => have := h.1; simp at this
    | cons k i =>
      obtain ⟨h1, h2⟩ := inB_cons.mp h
      rw [List.prod_cons]
      exact Nat.mul_pos (by omega) (ih h2)

theorem inB_coord {sh i : List ℕ} (h : InB sh i) {a : ℕ} (ha : a < sh.length) :
    i.getD a 0 = ravel sh i / (sh.drop (a + 1)).prod % sh.getD a 0 := by
  induction sh generalizing i a with
  | nil => simp at ha
  | cons n s ih =>
    cases i with
    | nil => have := h.1; simp at this
    | cons k i =>
      obtain ⟨h1, h2⟩ := inB_cons.mp h
      have hp := prod_pos_of_inB h2
      cases a with
      | zero =>
        simp only [ravel, List.getD_cons_zero, List.drop_succ_cons, List.drop_zero]
        rw [Nat.add_comm, Nat.mul_comm, Nat.add_mul_div_left _ _ hp, Nat.div_eq_of_lt (ravel_lt' h2), Nat.zero_add, Nat.mod_eq_of_lt h1]
      | succ a =>
        have ha' : a < s.length := by simpa using ha
        simp only [ravel, List.getD_cons_succ, List.drop_succ_cons]
        rw [ih h2 ha']
        have hs : s.prod = (s.take a).prod * s.getD a 0 * (s.drop (a + 1)).prod := by
          conv_lhs => rw [← List.take_append_drop a s, List.prod_append, List.drop_eq_getElem_cons ha', List.prod_cons]
          rw [List.getD_eq_getElem _ _ ha']; ring
        have hq : 0 < (s.drop (a + 1)).prod := by
          rcases Nat.eq_zero_or_pos (s.drop (a + 1)).prod with h0 | h0
          · rw [hs, h0] at hp; simp at hp
          · exact h0
        rw [hs, show k * ((s.take a).prod * s.getD a 0 * (s.drop (a + 1)).prod) + ravel s i =
          ravel s i + (s.drop (a + 1)).prod * (k * (s.take a).prod * s.getD a 0) by ring, Nat.add_mul_div_left _ _ hq,
          Nat.add_mul_mod_self_right]

theorem handleReshape_expands {new : List ℕ} {s : SLap K} {v : Val K} {D : DLap K} (hw : s.WF) (hD : s.expand = some D)
    (hsz : new.prod = D.x.shape.prod) (h : handleReshape new s = some v) :
    v.ExpandsTo (linear (laxReshape · new) D) := by
  have hr := (expand_some hD).2
  have hxs : D.x.shape = s.jac.out := by rw [(expand_some hD).1]; exact hw.x
  rw [hxs] at hsz
  unfold handleReshape at h
  split at h
  · unfold denseLinear at h
    rw [hD] at h
    simp only [Option.bind_eq_bind, Option.bind_some, Option.pure_def, Option.some.injEq] at h
    subst h
    exact ⟨⟨fun _ _ => rfl, rfl⟩, .refl _⟩
  · rename_i roles hm
    simp only [Option.bind_eq_bind, Option.pure_def, Option.bind_eq_some_iff, Option.some.injEq] at h
    obtain ⟨j, hj, rfl⟩ := h
    refine reindex_expands (p := (laxReshape · new)) (q := (laxReshape · new)) (sh := new)
      (σ := fun i => unravel s.jac.out (ravel new i)) hw hD rfl ?_ hj ?_ ?_ ?_ ?_
    · intro A hA; exact ⟨rfl, fun i _ => by simp [laxReshape, hA]⟩
    · simp only [laxReshape]; rw [hw.jac.shape]; rfl
    · intro o ho
      obtain ⟨o', ho', hf⟩ := mapM_mem hm ho
      unfold reshapeRole at hf
      split at hf
      · rw [← Option.some.inj hf]; exact hr o' ho'
      · split at hf
        · rw [← Option.some.inj hf]; exact mkRole_some_reshapable _ _
        · cases hf
    · intro i hi k
      apply roles_mapM_at hm
      intro o ho p hf
      unfold reshapeRole at hf
      split at hf
      · rename_i ha
        rw [← Option.some.inj hf]; simp [OwnerRole.at, ha]
      · rename_i a ha
        split at hf
        · rename_i b hb
          rw [← Option.some.inj hf]
          have hmem : b ∈ (List.range new.length).filter fun b =>
              (new.take b).prod == (s.jac.out.take a).prod && new.getD b 0 == o.values.length && (new.drop (b + 1)).prod == (s.jac.out.drop (a + 1)).prod := by
            rw [hb]; simp
          simp only [List.mem_filter, List.mem_range, Bool.and_eq_true, beq_iff_eq] at hmem
          obtain ⟨hbl, ⟨_, hb2⟩, hb3⟩ := hmem
          obtain ⟨h1, h2⟩ := hw.jac.dims o ho a ha
          rw [mkRole_at_some _ _ _ fun h => absurd h (axis_len_ne ha)]
          have hlt : ravel new i < s.jac.out.prod := by rw [← hsz]; exact ravel_lt' hi
          have hin := inB_unravel hlt
          have e1 := inB_coord hi hbl
          have e2 := inB_coord hin h1
          rw [ravel_unravel hlt] at e2
          rw [hb2, hb3, h2] at e1
          simp only [OwnerRole.at, ha]
          rw [e1, e2]
        · cases hf
    · intro i hi t ht c hc
      simp only [laxReshape, hw.jac.shape, List.take_succ_cons, List.take_zero, List.cons_append, List.nil_append]
      congr 1
      have hlt : ravel new i < s.jac.out.prod := by rw [← hsz]; exact ravel_lt' hi
      have hin := inB_unravel hlt
      have hall : InB (s.jac.roles.length :: s.jac.coords :: s.jac.out) (t :: c :: unravel s.jac.out (ravel new i)) :=
        inB_cons.mpr ⟨ht, inB_cons.mpr ⟨hc, hin⟩⟩
      have : ravel (s.jac.roles.length :: s.jac.coords :: new) (t :: c :: i) =
          ravel (s.jac.roles.length :: s.jac.coords :: s.jac.out) (t :: c :: unravel s.jac.out (ravel new i)) := by
        simp only [ravel, List.prod_cons, hsz, ravel_unravel hlt]
      rw [this, unravel_ravel hall]

/-! ### Sums over index tuples -/

theorem sumIdx_congr {M : Type} [AddCommMonoid M] {sh : List ℕ} {f g : List ℕ → M} (h : ∀ j, InB sh j → f j = g j) : sumIdx sh f = sumIdx sh g := by
  induction sh generalizing f g with
  | nil => exact h [] (inB_nil.mpr rfl)
  | cons n s ih =>
    simp only [sumIdx]
    refine Finset.sum_congr rfl fun k hk => ih fun j hj => ?_
    exact h _ (inB_cons.mpr ⟨Finset.mem_range.mp hk, hj⟩)

theorem sumIdx_zero {M : Type} [AddCommMonoid M] (sh : List ℕ) : sumIdx sh (fun _ => (0 : M)) = 0 := by
  induction sh with
  | nil => rfl
  | cons n s ih => simp [sumIdx, ih]

theorem sumIdx_sum {M : Type} [AddCommMonoid M] (sh : List ℕ) (n : ℕ) (f : ℕ → List ℕ → M) :
    sumIdx sh (fun j => ∑ s ∈ Finset.range n, f s j) = ∑ s ∈ Finset.range n, sumIdx sh (f s) := by
  induction sh generalizing f with
  | nil => rfl
  | cons m sh ih =>
    simp only [sumIdx]
    rw [Finset.sum_comm]
    exact Finset.sum_congr rfl fun k _ => ih _

theorem sumIdx_mul_left (sh : List ℕ) (c : K) (f : List ℕ → K) : sumIdx sh (fun j => c * f j) = c * sumIdx sh f := by
  induction sh generalizing f with
  | nil => rfl
  | cons m sh ih =>
    simp only [sumIdx, Finset.mul_sum]
    exact Finset.sum_congr rfl fun k _ => ih _

theorem sumIdx_div (sh : List ℕ) (c : K) (f : List ℕ → K) : sumIdx sh (fun j => f j / c) = sumIdx sh f / c := by
  simp only [div_eq_mul_inv, mul_comm _ c⁻¹]
  exact sumIdx_mul_left sh c⁻¹ f

/-- A primitive whose result entries are weighted sums of entries of the operand. -/
theorem kernel_expands {s : SLap K} {D : DLap K} (hw : s.WF) (hD : s.expand = some D) {q : Arr K → Arr K} {sh : List ℕ} {px pl : Arr K}
    {W : List ℕ → List ℕ → K} {j : SJac K} {blocks : Arr K} {roles : List OwnerRole}
    (hpx : px.shape = sh) (hpl : pl.shape = sh)
    (hq : ∀ A : Arr K, A.shape = s.jac.out → (q A).shape = sh ∧ ∀ i, InB sh i → (q A).get i = sumIdx s.jac.out fun k => W i k * A.get k)
    (hj : s.jac.withBlocks blocks roles = some j) (hbs : blocks.shape.drop 2 = sh)
    (hres : ∀ o ∈ roles, o.reshapable = true)
    (hat : ∀ i k, InB sh i → InB s.jac.out k → W i k ≠ 0 →
      ∀ t : ℕ, (roles[t]?).map (fun o => o.at i) = (s.jac.roles[t]?).map fun o => o.at k)
    (hb : ∀ i, InB sh i → ∀ t, t < s.jac.roles.length → ∀ c, c < s.jac.coords →
      blocks.get (t :: c :: i) = sumIdx s.jac.out fun k => W i k * s.jac.blocks.get (t :: c :: k)) :
    SLap.ExpandsTo ⟨px, j, pl⟩ ⟨px, D.n, fun r => q (D.jac r), pl⟩ := by
  obtain ⟨rfl, hr⟩ := expand_some hD
  obtain ⟨je, j1, j2⟩ := withBlocks_some hj
  have jout : j.out = sh := by rw [je]; exact hbs
  apply expandsTo_intro
  · exact ⟨j1, by rw [jout]; exact hpx, by rw [jout]; exact hpl⟩
  · rw [je]; exact hres
  · rw [je]
  · exact .refl _
  · intro r hr'
    refine ⟨by rw [row_shape, jout]; exact (hq _ (row_shape _ _)).1.symm, fun i hi => ?_⟩
    rw [row_shape, jout] at hi
    rw [(hq _ (row_shape _ _)).2 i hi, row_get]
    have hlen : j.roles.length = s.jac.roles.length := by rw [je]; exact j2
    have e : ∀ k, W i k * (s.jac.row r).get k = ∑ t ∈ Finset.range s.jac.roles.length,
        W i k * (s.jac.sel t k (rowOwner s.jac.inShape s.jac.ownAx r) * s.jac.blocks.get (t :: rowCoord s.jac.inShape s.jac.ownAx r :: k)) := by
      intro k; rw [row_get, Finset.mul_sum]
    simp only [e]
    rw [sumIdx_sum, hlen]
    refine Finset.sum_congr rfl fun t ht => ?_
    have hin : j.inShape = s.jac.inShape := by rw [je]
    have hax : j.ownAx = s.jac.ownAx := by rw [je]
    have hbl : j.blocks = blocks := by rw [je]
    rw [hin, hax, hbl, hb i hi t (Finset.mem_range.mp ht) _ (rowCoord_lt hr'), ← sumIdx_mul_left]
    apply sumIdx_congr
    intro k hk
    by_cases h0 : W i k = 0
    · simp [h0]
    · rw [sel_eq_of_at (j := s.jac) (j' := j) (s := t) (i := i) (i' := k) (by rw [je]; exact hat i k hi hk h0 t)]
      ring
  · exact .refl _

/-! ### Reductions -/

theorem keptAxes_split (dims : List ℕ) {n a : ℕ} (ha : a < n) (hd : a ∉ dims) :
    ∃ rest, keptAxes n dims = keptAxes a dims ++ a :: rest := by
  unfold keptAxes
  obtain ⟨m, rfl⟩ : ∃ m, n = a + (m + 1) := ⟨n - a - 1, by omega⟩
  rw [List.range_add, List.filter_append, List.range_succ_eq_map, List.map_cons, List.filter_cons_of_pos (by simpa using hd)]
  exact ⟨_, rfl⟩

theorem dropAxes_getD (dims j : List ℕ) {a : ℕ} (ha : a < j.length) (hd : a ∉ dims) :
    (dropAxes dims j).getD (keptAxes a dims).length 0 = j.getD a 0 := by
  unfold dropAxes
  obtain ⟨rest, h⟩ := keptAxes_split dims ha hd
  rw [h, List.map_append, List.getD_append_right _ _ _ _ (by simp)]
  simp

theorem reduce_at {j : SJac K} (hv : j.Valid) {o p : OwnerRole} (ho : o ∈ j.roles) {axes k : List ℕ} (hn : axes.Nodup) (hk : InB j.out k)
    (h : o.reduce axes = some p) : p.at (dropAxes axes k) = o.at k := by
  unfold OwnerRole.reduce at h
  split at h
  · rename_i ha
    rw [← Option.some.inj h]; simp [OwnerRole.at, ha]
  · rename_i a ha
    obtain ⟨h1, h2⟩ := hv.dims o ho a ha
    have hka := hk.2 a h1
    split at h
    · split at h
      · rename_i hall
        rw [← Option.some.inj h, mkRole_at_none]
        simp only [OwnerRole.at, ha]
        have hmem : o.values.getD (k.getD a 0) 0 ∈ o.values := by
          rw [List.getD_eq_getElem _ _ (by rw [h2]; exact hka)]; exact List.getElem_mem _
        have := List.all_eq_true.mp hall _ hmem
        simp only [beq_iff_eq] at this
        rw [← this]; rfl
      · cases h
    · rename_i hd
      rw [← Option.some.inj h, mkRole_at_some _ _ _ fun h => absurd h (axis_len_ne ha), ← keptAxes_length axes hn,
        dropAxes_getD axes k (by rw [hk.1]; exact h1) hd]
      simp only [OwnerRole.at, ha]

theorem reduce_reshapable {j : SJac K} (hv : j.Valid) {o p : OwnerRole} (ho : o ∈ j.roles) (hr : o.reshapable = true) {axes : List ℕ}
    (hne : ∀ a ∈ axes, j.out.getD a 0 ≠ 0) (h : o.reduce axes = some p) : p.reshapable = true := by
  unfold OwnerRole.reduce at h
  split at h
  · rw [← Option.some.inj h]; exact hr
  · rename_i a ha
    split at h
    · rename_i hd
      split at h
      · rw [← Option.some.inj h]
        apply mkRole_reshapable
        right
        have := hne a hd
        rw [← (hv.dims o ho a ha).2] at this
        cases hvs : o.values with
        | nil => rw [hvs] at this; simp at this
        | cons v vs => simp
      · cases h
    · rw [← Option.some.inj h]; exact mkRole_some_reshapable _ _

/-- Summing blocks over output axes. -/
theorem reduceBlocks {S C : ℕ} {sh : List ℕ} {B : Arr K} (hB : B.shape = S :: C :: sh) (axes : List ℕ) :
    (laxReduceSum B (axes.map (· + 2))).shape = S :: C :: dropAxes axes sh ∧ ∀ t c i, t < S → c < C →
      (laxReduceSum B (axes.map (· + 2))).get (t :: c :: i) = sumIdx sh fun k => (if dropAxes axes k = i then 1 else 0) * B.get (t :: c :: k) := by
  constructor
  · simp only [laxReduceSum, hB, dropAxes_pair]
  · intro t c i ht hc
    simp only [laxReduceSum, hB, sumIdx, dropAxes_pair, List.cons.injEq]
    rw [Finset.sum_eq_single_of_mem t (Finset.mem_range.mpr ht), Finset.sum_eq_single_of_mem c (Finset.mem_range.mpr hc)]
    · apply sumIdx_congr; intro k _
      by_cases h : dropAxes axes k = i <;> simp [h]
    · intro b _ hb
      exact (sumIdx_congr (g := fun _ => 0) fun k _ => by simp [hb]).trans (sumIdx_zero sh)
    · intro b _ hb
      apply Finset.sum_eq_zero
      intro c' _
      exact (sumIdx_congr (g := fun _ => 0) fun k _ => by simp [hb]).trans (sumIdx_zero sh)

theorem handleReduceSum_expands {axes : List ℕ} {s : SLap K} {v : Val K} {D : DLap K} (hw : s.WF) (hD : s.expand = some D)
    (hn : axes.Nodup) (hne : ∀ a ∈ axes, D.x.shape.getD a 0 ≠ 0) (h : handleReduceSum axes s = some v) :
    v.ExpandsTo (linear (laxReduceSum · axes) D) := by
  have hr := (expand_some hD).2
  have hxs : D.x.shape = s.jac.out := by rw [(expand_some hD).1]; exact hw.x
  rw [hxs] at hne
  have wD := (expand_facts hw hD).2.2.2.2.1
  unfold handleReduceSum at h
  split at h
  · rename_i roles hm
    simp only [Option.bind_eq_bind, Option.pure_def, Option.bind_eq_some_iff, Option.some.injEq] at h
    obtain ⟨j, hj, rfl⟩ := h
    obtain ⟨b1, b2⟩ := reduceBlocks (axes := axes) hw.jac.shape
    have hDx : linear (laxReduceSum · axes) D = ⟨laxReduceSum s.x axes, D.n, fun r => laxReduceSum (D.jac r) axes, laxReduceSum s.lap axes⟩ := by
      obtain ⟨rfl, _⟩ := expand_some hD; rfl
    rw [hDx]
    refine kernel_expands (q := (laxReduceSum · axes)) (sh := dropAxes axes s.jac.out)
      (W := fun i k => if dropAxes axes k = i then 1 else 0) hw hD ?_ ?_ ?_ hj ?_ ?_ ?_ ?_
    · simp [laxReduceSum, hw.x]
    · simp [laxReduceSum, hw.lap]
    · intro A hA
      refine ⟨by simp [laxReduceSum, hA], fun i _ => ?_⟩
      simp only [laxReduceSum, hA]
      apply sumIdx_congr; intro k _
      by_cases h : dropAxes axes k = i <;> simp [h]
    · rw [b1]; rfl
    · intro o ho
      obtain ⟨o', ho', hf⟩ := mapM_mem hm ho
      exact reduce_reshapable hw.jac ho' (hr o' ho') hne hf
    · intro i k _ hk hW t
      have hik : dropAxes axes k = i := by by_contra hc; simp [hc] at hW
      apply roles_mapM_at hm
      intro o ho p hf
      rw [← hik]
      exact reduce_at hw.jac ho hn hk hf
    · intro i hi t ht c hc
      exact b2 t c i ht hc
  · unfold denseLinear at h
    rw [hD] at h
    simp only [Option.bind_eq_bind, Option.bind_some, Option.pure_def, Option.some.injEq] at h
    subst h
    refine ⟨⟨fun r hr => ?_, ?_⟩, .refl _⟩
    · simp only [affine, laxReduceSum]; rw [wD.jac r hr]
    · simp only [affine, laxReduceSum]; rw [wD.lap]

end Jaqmc.Sparse
