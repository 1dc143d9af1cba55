import Verif.Lemmas.SparseConcat
/-! `gather` (C45). -/
namespace Jaqmc.Sparse
open Spec

/-! ### Owner labels of a concrete gather -/

theorem mem_allIdx {sh i : List ℕ} : i ∈ allIdx sh ↔ InB sh i := by
  induction sh generalizing i with
  | nil => simp [allIdx, inB_nil]
  | cons n sh ih =>
    unfold allIdx
    simp only [List.mem_flatMap, List.mem_range, List.mem_map]
    constructor
    · rintro ⟨k, hk, j, hj, rfl⟩
      exact inB_cons.mpr ⟨hk, ih.mp hj⟩
    · intro h
      cases i with
      | nil => have := h.1; simp at this
      | cons k j =>
        obtain ⟨h1, h2⟩ := inB_cons.mp h
        exact ⟨k, h1, j, ih.mpr h2, rfl⟩

theorem factorizeLabels_at {sh : List ℕ} {labels : List ℕ → Option ℕ} {p : OwnerRole} (h : factorizeLabels sh labels = some p) {i : List ℕ}
    (hi : InB sh i) {v : ℕ} (hv : labels i = some v) : p.at i = v := by
  unfold factorizeLabels at h
  split at h
  · cases h
  split at h
  · rename_i he
    have : v ∈ (allIdx sh).filterMap labels := List.mem_filterMap.mpr ⟨i, mem_allIdx.mpr hi, hv⟩
    rw [he] at this; cases this
  · rename_i u us hu
    split at h
    · rename_i hall
      rw [← Option.some.inj h, mkRole_at_none]
      have := List.all_eq_true.mp hall i (mem_allIdx.mpr hi)
      rw [hv] at this
      simp only [Bool.or_eq_true, beq_iff_eq, Option.some.injEq, reduceCtorEq, false_or] at this
      exact this.symm
    · obtain ⟨a, ha, hf⟩ := List.exists_of_findSome?_eq_some h
      simp only at hf
      split at hf
      · rename_i hall
        have h1 := List.all_eq_true.mp hall i (mem_allIdx.mpr hi)
        rw [hv] at h1
        simp only [Bool.or_eq_true, beq_iff_eq, Option.some.injEq, reduceCtorEq, false_or] at h1
        rw [← Option.some.inj hf, mkRole_at_some _ _ _ fun hl => ?_]
        · exact h1.symm
        · have := hi.2 a (List.mem_range.mp ha)
          rw [List.length_map, List.length_range] at hl
          omega
      · cases hf

theorem factorizeLabels_reshapable {sh : List ℕ} {labels : List ℕ → Option ℕ} {p : OwnerRole} (h : factorizeLabels sh labels = some p) :
    p.reshapable = true := by
  unfold factorizeLabels at h
  split at h
  · cases h
  split at h
  · rw [← Option.some.inj h]; exact mkRole_reshapable (Or.inr (by simp))
  · split at h
    · rw [← Option.some.inj h]; exact mkRole_reshapable (Or.inr (by simp))
    · obtain ⟨a, ha, hf⟩ := List.exists_of_findSome?_eq_some h
      simp only at hf
      split at hf
      · rw [← Option.some.inj hf]; exact mkRole_some_reshapable _ _
      · cases hf

/-! ### Which operand entries a gather reads -/

theorem getD_idxOf {l : List ℕ} {a : ℕ} (h : a ∈ l) : l.getD (l.idxOf a) 0 = a := by
  rw [List.getD_eq_getElem _ _ (List.idxOf_lt_length_of_mem h)]
  exact List.getElem_idxOf _

theorem idxOf_getD {l : List ℕ} (hn : l.Nodup) {k : ℕ} (h : k < l.length) : l.idxOf (l.getD k 0) = k := by
  rw [List.getD_eq_getElem _ _ h]
  exact hn.idxOf_getElem k h

theorem kept_nodup (n : ℕ) (dims : List ℕ) : (keptAxes n dims).Nodup := List.nodup_range.filter _

theorem mem_kept {n : ℕ} {dims : List ℕ} {a : ℕ} : a ∈ keptAxes n dims ↔ a < n ∧ a ∉ dims := by simp [keptAxes]

/-- The number of kept axes before the `p`-th kept axis. -/
theorem kept_before {n : ℕ} {dims : List ℕ} {p : ℕ} (hp : p < (keptAxes n dims).length) :
    (keptAxes ((keptAxes n dims).getD p 0) dims).length = p := by
  have hm : (keptAxes n dims).getD p 0 ∈ keptAxes n dims := by rw [List.getD_eq_getElem _ _ hp]; exact List.getElem_mem _
  obtain ⟨h1, h2⟩ := mem_kept.mp hm
  obtain ⟨rest, hr⟩ := keptAxes_split dims h1 h2
  have e := idxOf_getD (kept_nodup n dims) hp
  generalize (keptAxes n dims).getD p 0 = b at *
  rw [hr] at e
  rw [← e, List.idxOf_append_of_notMem (by rw [mem_kept]; omega)]
  simp

theorem kept_count {n : ℕ} {dims : List ℕ} (hn : dims.Nodup) (h : ∀ d ∈ dims, d < n) : (keptAxes n dims).length = n - dims.length := by
  rw [keptAxes_length dims hn]
  congr 1
  rw [List.countP_eq_length]
  intro a ha
  simpa using h a ha

variable {opShape : List ℕ} {starts : Arr ℤ} {g : GatherDims} {sizes : List ℕ} {mode : GatherMode}

/-- The offset part stays inside the window. -/
theorem off_lt (ok : g.OK opShape starts.shape sizes) {i : List ℕ} (hi : InB (gatherShape opShape.length starts.shape g sizes) i) {a : ℕ}
    (ha : a ∈ keptAxes opShape.length (g.collapsed ++ g.opBatch)) :
    i.getD (g.offset.getD ((keptAxes opShape.length (g.collapsed ++ g.opBatch)).idxOf a) 0) 0 < sizes.getD a 0 := by
  have hk := List.idxOf_lt_length_of_mem ha
  rw [← ok.count] at hk
  have hmem : g.offset.getD ((keptAxes opShape.length (g.collapsed ++ g.opBatch)).idxOf a) 0 ∈ g.offset := by
    rw [List.getD_eq_getElem _ _ hk]; exact List.getElem_mem _
  have hlt := ok.rank _ hmem
  have hrank : (gatherShape opShape.length starts.shape g sizes).length = g.offset.length + (starts.shape.length - 1) := by simp [gatherShape]
  have := hi.2 _ (lt_of_lt_of_eq hlt hrank.symm)
  unfold gatherShape at this
  simp only at this
  rw [getD_map_range, if_pos hlt, if_pos hmem, idxOf_getD ok.nodup hk, getD_idxOf ha] at this
  exact this

theorem gather_inB (ok : g.OK opShape starts.shape sizes) {i k : List ℕ} (hi : InB (gatherShape opShape.length starts.shape g sizes) i)
    (hk : gatherSrc opShape starts g sizes mode (gatherShape opShape.length starts.shape g sizes).length i = some k) : InB opShape k := by
  have hrank : (gatherShape opShape.length starts.shape g sizes).length = g.offset.length + (starts.shape.length - 1) := by simp [gatherShape]
  rw [hrank] at hk
  have hbat : ∀ a ∈ g.opBatch, ((keptAxes (g.offset.length + (starts.shape.length - 1)) g.offset).map fun a => i.getD a 0).getD
      (g.ixBatch.getD (g.opBatch.idxOf a) 0) 0 < opShape.getD a 0 := by
    intro a ha
    obtain ⟨b1, b2⟩ := ok.batch a ha
    generalize g.ixBatch.getD (g.opBatch.idxOf a) 0 = p at *
    have hp : p < (keptAxes (g.offset.length + (starts.shape.length - 1)) g.offset).length := by
      rw [kept_count ok.nodup ok.rank]; omega
    have hm : (keptAxes (g.offset.length + (starts.shape.length - 1)) g.offset).getD p 0 ∈ keptAxes (g.offset.length + (starts.shape.length - 1)) g.offset := by
      rw [List.getD_eq_getElem _ _ hp]; exact List.getElem_mem _
    obtain ⟨m1, m2⟩ := mem_kept.mp hm
    have := hi.2 _ (by rw [hrank]; exact m1)
    unfold gatherShape at this
    simp only at this
    rw [getD_map_range, if_pos m1, if_neg m2, kept_before hp, b2] at this
    refine lt_of_eq_of_lt ?_ this
    rw [List.getD_eq_getElem _ _ (by simpa using hp), List.getElem_map, List.getD_eq_getElem _ _ hp]
  have hoff : ∀ a < opShape.length, a ∉ g.opBatch →
      (if a ∈ keptAxes opShape.length (g.collapsed ++ g.opBatch) then
        i.getD (g.offset.getD ((keptAxes opShape.length (g.collapsed ++ g.opBatch)).idxOf a) 0) 0 else 0) < sizes.getD a 0 := by
    intro a ha hb
    split
    · rename_i hm; exact off_lt ok hi hm
    · rename_i hm
      have : a ∈ g.collapsed := by
        rw [mem_kept, not_and, List.mem_append, not_not] at hm
        exact (hm ha).resolve_right hb
      rw [ok.collapsed a this]; exact Nat.one_pos
  unfold gatherSrc at hk
  simp only at hk
  split at hk
  · obtain rfl := Option.some.inj hk
    refine ⟨by simp, fun a ha => ?_⟩
    rw [getD_map_range, if_pos ha]
    split
    · rename_i hb; exact hbat a hb
    · rename_i hb
      have h1 := hoff a ha hb
      have h2 := ok.sizes a ha
      generalize (if a ∈ keptAxes opShape.length (g.collapsed ++ g.opBatch) then
        i.getD (g.offset.getD ((keptAxes opShape.length (g.collapsed ++ g.opBatch)).idxOf a) 0) 0 else 0) = f at *
      generalize (if a ∈ g.startMap then starts.get _ else (0 : ℤ)) = st
      omega
  · split at hk
    · rename_i hst
      obtain rfl := Option.some.inj hk
      refine ⟨by simp, fun a ha => ?_⟩
      rw [getD_map_range, if_pos ha]
      split
      · rename_i hb; exact hbat a hb
      · rename_i hb
        have h1 := hoff a ha hb
        have h2 := ok.sizes a ha
        have h3 : (0 : ℤ) ≤ (if a ∈ g.startMap then starts.get ((keptAxes (g.offset.length + (starts.shape.length - 1)) g.offset).map (fun a => i.getD a 0) ++ [g.startMap.idxOf a]) else 0) ∧
            (if a ∈ g.startMap then starts.get ((keptAxes (g.offset.length + (starts.shape.length - 1)) g.offset).map (fun a => i.getD a 0) ++ [g.startMap.idxOf a]) else 0) ≤
            (opShape.getD a 0 : ℤ) - (sizes.getD a 0 : ℤ) := by
          by_cases hs : a ∈ g.startMap
          · exact hst a hs
          · rw [if_neg hs]; omega
        generalize (if a ∈ keptAxes opShape.length (g.collapsed ++ g.opBatch) then
          i.getD (g.offset.getD ((keptAxes opShape.length (g.collapsed ++ g.opBatch)).idxOf a) 0) 0 else 0) = f at *
        generalize (if a ∈ g.startMap then starts.get _ else (0 : ℤ)) = st at *
        omega
    · cases hk

/-- The source of an entry along an axis that is not indexed. -/
theorem gatherSrc_unindexed (ok : g.OK opShape starts.shape sizes) {rank : ℕ} {i k : List ℕ} (hk : gatherSrc opShape starts g sizes mode rank i = some k) {a : ℕ}
    (ha : a < opShape.length) (h1 : a ∉ g.startMap) (h2 : a ∉ g.opBatch) :
    k.getD a 0 = if a ∈ keptAxes opShape.length (g.collapsed ++ g.opBatch) then
      i.getD (g.offset.getD ((keptAxes opShape.length (g.collapsed ++ g.opBatch)).idxOf a) 0) 0 else 0 := by
  have h3 := ok.sizes a ha
  unfold gatherSrc at hk
  simp only at hk
  split at hk
  · obtain rfl := Option.some.inj hk
    rw [getD_map_range, if_pos ha, if_neg h2, if_neg h1]
    have : (max 0 (min (0 : ℤ) ((opShape.getD a 0 : ℤ) - (sizes.getD a 0 : ℤ)))).toNat = 0 := by omega
    rw [this, Nat.zero_add]
  · split at hk
    · obtain rfl := Option.some.inj hk
      rw [getD_map_range, if_pos ha, if_neg h2, if_neg h1]
      simp
    · cases hk

/-! ### The gather of blocks -/

theorem kept_skip_two (n : ℕ) (dims : List ℕ) : keptAxes (n + 2) (0 :: 1 :: dims.map (· + 2)) = (keptAxes n dims).map (· + 2) := by
  unfold keptAxes
  rw [range_add_two, List.filter_cons_of_neg (by simp), List.filter_cons_of_neg (by simp), List.filter_map]
  congr 1
  apply List.filter_congr
  intro a _
  by_cases h : a ∈ dims
  · simp [h]
  · have : ∀ x ∈ dims, ¬ x = a := fun x hx e => h (e ▸ hx)
    simp only [h, not_false_eq_true, decide_true]
    simpa [h] using this

theorem mem_add_two {l : List ℕ} {a : ℕ} : a + 2 ∈ l.map (· + 2) ↔ a ∈ l := by simp

theorem not_mem_add_two {l : List ℕ} : 0 ∉ l.map (· + 2) ∧ 1 ∉ l.map (· + 2) := by
  constructor <;> simp

theorem idxOf_skip_two (l : List ℕ) (a : ℕ) : (0 :: 1 :: l.map (· + 2)).idxOf (a + 2) = l.idxOf a + 2 := by
  rw [List.idxOf_cons_ne _ (by omega), List.idxOf_cons_ne _ (by omega), idxOf_map_add_two]

theorem getD_map_add_two (l : List ℕ) {k : ℕ} (h : k < l.length) : (l.map (· + 2)).getD k 0 = l.getD k 0 + 2 := by
  rw [List.getD_eq_getElem _ _ (by simpa using h), List.getElem_map, List.getD_eq_getElem _ _ h]

theorem gatherShape_blocks (ok : g.OK opShape starts.shape sizes) (R C : ℕ) :
    gatherShape (opShape.length + 2) starts.shape g.blocks (R :: C :: sizes) = R :: C :: gatherShape opShape.length starts.shape g sizes := by
  unfold gatherShape
  have e : g.blocks.collapsed ++ g.blocks.opBatch = (g.collapsed ++ g.opBatch).map (· + 2) := by simp [GatherDims.blocks]
  simp only [e, keptAxes_add_two]
  have el : g.blocks.offset.length + (starts.shape.length - 1) = (g.offset.length + (starts.shape.length - 1)) + 2 := by
    simp [GatherDims.blocks]; omega
  rw [el, range_add_two]
  simp only [List.map_cons, List.map_map, GatherDims.blocks]
  refine List.cons_eq_cons.mpr ⟨by simp, List.cons_eq_cons.mpr ⟨by simp [List.idxOf_cons], ?_⟩⟩
  apply List.map_congr_left
  intro a _
  simp only [Function.comp]
  by_cases ha : a ∈ g.offset
  · have hk := List.idxOf_lt_length_of_mem ha
    rw [if_pos ha]
    refine (if_pos (by simp [ha])).trans ?_
    rw [idxOf_skip_two]
    simp only [List.getD_cons_succ]
    rw [getD_map_add_two _ (by rw [← ok.count]; exact hk)]
    rfl
  · rw [if_neg ha]
    refine (if_neg (by simp [ha])).trans ?_
    rw [kept_skip_two]
    simp

theorem gatherSrc_blocks (ok : g.OK opShape starts.shape sizes) {R C t c : ℕ} {rank : ℕ} {i : List ℕ} :
    gatherSrc (R :: C :: opShape) starts g.blocks (R :: C :: sizes) mode (rank + 2) (t :: c :: i) =
    (gatherSrc opShape starts g sizes mode rank i).map fun k => t :: c :: k := by
  unfold gatherSrc
  have e : g.blocks.collapsed ++ g.blocks.opBatch = (g.collapsed ++ g.opBatch).map (· + 2) := by simp [GatherDims.blocks]
  simp only [e, List.length_cons, keptAxes_add_two]
  simp only [GatherDims.blocks, kept_skip_two, List.map_map, Function.comp_def, List.getD_cons_succ]
  rw [range_add_two]
  simp only [List.map_cons, List.map_map, Function.comp_def, not_mem_add_two.1, not_mem_add_two.2, if_false, mem_add_two, idxOf_map_add_two,
    List.getD_cons_zero, List.getD_cons_succ, List.mem_cons, true_or, or_true, if_true]
  have i0 : (0 :: 1 :: (keptAxes opShape.length (g.collapsed ++ g.opBatch)).map (· + 2)).idxOf 0 = 0 := by simp
  have i1 : (0 :: 1 :: (keptAxes opShape.length (g.collapsed ++ g.opBatch)).map (· + 2)).idxOf 1 = 1 := by simp [List.idxOf_cons]
  have h0 : ∀ a : ℕ, (a + 2 = 0 ∨ a + 2 = 1 ∨ a ∈ keptAxes opShape.length (g.collapsed ++ g.opBatch)) ↔ a ∈ keptAxes opShape.length (g.collapsed ++ g.opBatch) := by
    intro a; constructor
    · rintro (h | h | h)
      · omega
      · omega
      · exact h
    · intro h; exact Or.inr (Or.inr h)
  have hoff : ∀ a, (if a ∈ keptAxes opShape.length (g.collapsed ++ g.opBatch) then
        (t :: c :: i).getD ((0 :: 1 :: g.offset.map (· + 2)).getD ((0 :: 1 :: (keptAxes opShape.length (g.collapsed ++ g.opBatch)).map (· + 2)).idxOf (a + 2)) 0) 0 else 0) =
      if a ∈ keptAxes opShape.length (g.collapsed ++ g.opBatch) then
        i.getD (g.offset.getD ((keptAxes opShape.length (g.collapsed ++ g.opBatch)).idxOf a) 0) 0 else 0 := by
    intro a
    split
    · rename_i ha
      have hk := List.idxOf_lt_length_of_mem ha
      rw [← ok.count] at hk
      rw [idxOf_skip_two]
      simp only [List.getD_cons_succ]
      rw [getD_map_add_two _ hk]; rfl
    · rfl
  simp only [h0, hoff, i0, i1, List.getD_cons_zero, List.getD_cons_succ, sub_self, min_self, max_self, Int.toNat_zero, Nat.zero_add]
  split
  · rfl
  · simp only [List.forall_mem_map, mem_add_two, idxOf_map_add_two, List.getD_cons_succ]
    split <;> rfl

variable {K : Type} [Field K]

theorem gatherRole_at {j : SJac K} (hv : j.Valid) {concrete : Bool} {o p : OwnerRole} (ho : o ∈ j.roles) (ok : g.OK j.out starts.shape sizes)
    (h : gatherRole j.out starts concrete g sizes mode o = some p) {i k : List ℕ} (hi : InB (gatherShape j.out.length starts.shape g sizes) i)
    (hk : gatherSrc j.out starts g sizes mode (gatherShape j.out.length starts.shape g sizes).length i = some k) : p.at i = o.at k := by
  have hin := gather_inB ok hi hk
  unfold gatherRole at h
  simp only at h
  split at h
  · split at h
    · rename_i ha
      obtain rfl := Option.some.inj h
      simp [OwnerRole.at, ha]
    · exact factorizeLabels_at h hi (by rw [hk]; rfl)
  · split at h
    · cases h
    split at h
    · rename_i hne ha
      rw [← Option.some.inj h, mkRole_at_none]
      simp only [OwnerRole.at, ha]
      cases o.values <;> rfl
    · rename_i hne a ha
      obtain ⟨d1, d2⟩ := hv.dims o ho a ha
      have hka := hin.2 a d1
      have hto : o.at k = o.values.getD (k.getD a 0) 0 := by simp only [OwnerRole.at, ha]
      split at h
      · rename_i hall
        rw [← Option.some.inj h, mkRole_at_none, hto]
        have hmem : o.values.getD (k.getD a 0) 0 ∈ o.values := by
          rw [List.getD_eq_getElem _ _ (by rw [d2]; exact hka)]; exact List.getElem_mem _
        have := List.all_eq_true.mp hall _ hmem
        simp only [beq_iff_eq] at this
        rw [this]
        cases o.values <;> rfl
      · split at h
        · cases h
        rename_i hs
        split at h
        · cases h
        rename_i hb
        have hsrc := gatherSrc_unindexed ok hk d1 hs hb
        split at h
        · rename_i hc
          rw [if_neg (by rw [mem_kept]; simp [hc])] at hsrc
          rw [← Option.some.inj h, mkRole_at_none, hto, hsrc]
          cases o.values <;> rfl
        · rename_i hc
          have hm : a ∈ keptAxes j.out.length (g.collapsed ++ g.opBatch) := by rw [mem_kept]; simp [d1, hc, hb]
          rw [if_pos hm] at hsrc
          have hlt := off_lt ok hi hm
          have hsz := ok.sizes a d1
          rw [← Option.some.inj h, mkRole_at_some _ _ _ fun hl => ?_, hto, hsrc]
          · simp only [List.getD_eq_getElem?_getD]
            rw [List.getElem?_take_of_lt (by simpa [List.getD_eq_getElem?_getD] using hlt)]
          · rw [List.length_take, d2] at hl
            have := axis_len_ne ha
            rw [d2] at this
            omega

theorem gatherRole_reshapable {j : SJac K} {concrete : Bool} {o p : OwnerRole} (hr : o.reshapable = true)
    (h : gatherRole opShape starts concrete g sizes mode o = some p) : p.reshapable = true := by
  unfold gatherRole at h
  simp only at h
  split at h
  · split at h
    · obtain rfl := Option.some.inj h; exact hr
    · exact factorizeLabels_reshapable h
  · split at h
    · cases h
    rename_i hne
    have ht : (mkRole none (o.values.take 1)).reshapable = true := mkRole_reshapable (Or.inr (by
      cases hvs : o.values with
      | nil => exact absurd hvs hne
      | cons v vs => simp))
    split at h
    · rw [← Option.some.inj h]; exact ht
    · split at h
      · rw [← Option.some.inj h]; exact ht
      split at h
      · cases h
      split at h
      · cases h
      split at h
      · rw [← Option.some.inj h]; exact ht
      · rw [← Option.some.inj h]; exact mkRole_some_reshapable _ _

theorem handleGather_expands {concrete : Bool} {fillv : K} {s : SLap K} {v : Val K} {D : DLap K} (hw : s.WF) (hD : s.expand = some D)
    (ok : g.OK D.x.shape starts.shape sizes) (h : handleGather starts concrete g sizes mode fillv s = some v) :
    v.ExpandsTo (affine (fun A => laxGather A starts g sizes mode fillv) (fun A => laxGather A starts g sizes mode 0) D) := by
  obtain ⟨rfl, hr⟩ := expand_some hD
  have hx := hw.x
  replace ok : g.OK s.jac.out starts.shape sizes := by rw [← hx]; exact ok
  unfold handleGather at h
  split at h
  · unfold denseLinear at h
    rw [hD] at h
    simp only [Option.bind_eq_bind, Option.bind_some, Option.pure_def, Option.some.injEq] at h
    subst h
    refine ⟨⟨fun r _ => ?_, ?_⟩, .refl _⟩
    · simp only [affine, laxGather, row_shape, hx]
    · simp only [affine, laxGather, hw.lap, hx]
  · rename_i roles hm
    rw [hx] at hm
    simp only [Option.bind_eq_bind, Option.pure_def, Option.bind_eq_some_iff, Option.some.injEq] at h
    obtain ⟨j, hj, rfl⟩ := h
    obtain ⟨je, jv, jl⟩ := withBlocks_some hj
    have hbs : s.jac.blocks.shape = s.jac.roles.length :: s.jac.coords :: s.jac.out := hw.jac.shape
    have htk : s.jac.blocks.shape.take 2 ++ sizes = s.jac.roles.length :: s.jac.coords :: sizes := by rw [hbs]; rfl
    have hsb : gatherShape s.jac.blocks.shape.length starts.shape g.blocks (s.jac.blocks.shape.take 2 ++ sizes) =
        s.jac.roles.length :: s.jac.coords :: gatherShape s.jac.out.length starts.shape g sizes := by
      rw [htk, hbs]; exact gatherShape_blocks ok _ _
    have jo : j.out = gatherShape s.jac.out.length starts.shape g sizes := by
      rw [je]; show List.drop 2 (gatherShape _ _ _ _) = _
      rw [hsb]; rfl
    have jb : ∀ t c i, j.blocks.get (t :: c :: i) = match gatherSrc s.jac.out starts g sizes mode (gatherShape s.jac.out.length starts.shape g sizes).length i with
        | some k => s.jac.blocks.get (t :: c :: k)
        | none => 0 := by
      intro t c i
      rw [je]
      simp only [laxGather]
      rw [hsb, htk, hbs, List.length_cons, List.length_cons, gatherSrc_blocks ok]
      cases gatherSrc s.jac.out starts g sizes mode (gatherShape s.jac.out.length starts.shape g sizes).length i <;> rfl
    apply expandsTo_intro
    · refine ⟨jv, ?_, ?_⟩
      · rw [jo]; simp only [laxGather, hx]
      · rw [jo]; simp only [laxGather, hw.lap]
    · intro o ho
      have ho' : o ∈ roles := by have : j.roles = roles := by rw [je]
                                 rw [← this]; exact ho
      obtain ⟨o', ho'', hf⟩ := mapM_mem hm ho'
      exact gatherRole_reshapable (j := s.jac) (hr o' ho'') hf
    · rw [je]; rfl
    · exact .refl _
    · intro r hr'
      refine ⟨by rw [row_shape, jo]; simp only [affine, laxGather, row_shape], fun i hi => ?_⟩
      rw [row_shape, jo] at hi
      simp only [affine, laxGather, row_shape]
      cases hk : gatherSrc s.jac.out starts g sizes mode (gatherShape s.jac.out.length starts.shape g sizes).length i with
      | none =>
        simp only
        rw [row_get]
        apply Finset.sum_eq_zero
        intro t _
        rw [jb, hk, mul_zero]
      | some k =>
        simp only
        have := row_rel (j := s.jac) (j' := j) (i := i) (i' := k) (φ := 1) (by rw [je]; exact jl) (by rw [je]) (by rw [je])
          (fun t => by
            rw [je]
            exact roles_mapM_at hm (fun o ho p hf => gatherRole_at hw.jac ho ok hf hi hk) t)
          (fun t _ c _ => by rw [jb, hk, one_mul]) hr'
        rw [this, one_mul]
    · exact .refl _

end Jaqmc.Sparse
