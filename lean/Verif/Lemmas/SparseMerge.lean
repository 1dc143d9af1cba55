import Verif.Lemmas.SparseOps
/-! Lifting and merging of slots (C45). -/
namespace Jaqmc.Sparse

variable {K : Type} [Field K]

/-! ### Output slots -/

theorem prefix_get {α : Type} {l m : List α} (h : l <+: m) {k : ℕ} {x : α} (hk : l[k]? = some x) : m[k]? = some x := by
  obtain ⟨t, rfl⟩ := h
  rw [List.getElem?_append_left]
  · exact hk
  · by_contra hc
    rw [List.getElem?_eq_none (by omega)] at hk
    cases hk

theorem outputSlot_spec (os : List OwnerRole) (o : OwnerRole) :
    os <+: (outputSlot os o).1 ∧ (outputSlot os o).1[(outputSlot os o).2]? = some o ∧
    ∀ p ∈ (outputSlot os o).1, p ∈ os ∨ p = o := by
  unfold outputSlot
  split
  · rename_i h
    refine ⟨List.prefix_refl _, ?_, fun p hp => Or.inl hp⟩
    have := List.idxOf_lt_length_of_mem h
    rw [List.getElem?_eq_getElem this, List.getElem_idxOf]
  · refine ⟨List.prefix_append _ _, by simp, fun p hp => ?_⟩
    simpa using hp

theorem outputSlots_spec (os ps : List OwnerRole) :
    os <+: (outputSlots os ps).1 ∧ (outputSlots os ps).2.length = ps.length ∧
    (∀ (m : ℕ) (p : OwnerRole), ps[m]? = some p → ∃ t, (outputSlots os ps).2[m]? = some t ∧ (outputSlots os ps).1[t]? = some p) ∧
    ∀ p ∈ (outputSlots os ps).1, p ∈ os ∨ p ∈ ps := by
  induction ps generalizing os with
  | nil => exact ⟨List.prefix_refl _, rfl, fun m p h => by simp at h, fun p hp => Or.inl hp⟩
  | cons q ps ih =>
    obtain ⟨h1, h2, h3⟩ := outputSlot_spec os q
    obtain ⟨i1, i2, i3, i4⟩ := ih (outputSlot os q).1
    refine ⟨h1.trans i1, by simp [outputSlots, i2], ?_, ?_⟩
    · intro m p hm
      cases m with
      | zero =>
        simp only [List.getElem?_cons_zero, Option.some.injEq] at hm
        subst hm
        refine ⟨_, rfl, ?_⟩
        simp only [outputSlots]
        exact prefix_get i1 h2
      | succ m =>
        simp only [List.getElem?_cons_succ] at hm
        obtain ⟨t, ht1, ht2⟩ := i3 m p hm
        exact ⟨t, by simpa [outputSlots] using ht1, ht2⟩
    · intro p hp
      rcases i4 p hp with h | h
      · rcases h3 p h with h' | h'
        · exact Or.inl h'
        · exact Or.inr (by simp [h'])
      · exact Or.inr (by simp [h])

/-! ### Accumulation -/

theorem accumulate_shape (src : ℕ → Arr K) (k : ℕ) (ts : List ℕ) (B : Arr K) : (accumulate src k ts B).shape = B.shape := by
  induction ts generalizing k B with
  | nil => rfl
  | cons t ts ih => simp [accumulate, ih, addAt]

theorem accumulate_get (src : ℕ → Arr K) (k : ℕ) (ts : List ℕ) (B : Arr K) (s : ℕ) (i : List ℕ) :
    (accumulate src k ts B).get (s :: i) =
      B.get (s :: i) + ∑ m ∈ Finset.range ts.length, if ts.getD m 0 = s then (src (k + m)).get i else 0 := by
  induction ts generalizing k B with
  | nil => simp [accumulate]
  | cons t ts ih =>
    simp only [accumulate, ih, List.length_cons]
    rw [Finset.sum_range_succ']
    simp only [addAt, List.headD_cons, List.tail_cons, List.getD_cons_zero, List.getD_cons_succ, Nat.add_zero]
    have : ∀ m, k + 1 + m = k + (m + 1) := fun m => by omega
    simp only [this]
    by_cases h : s = t
    · subst h; simp; ring
    · simp [h, Ne.symm h]

/-- Distributing slots: the sum over the output slots of selected accumulated blocks is the sum over the input slots. -/
theorem sum_slots {n : ℕ} (ts : List ℕ) (f : ℕ → K) (b : ℕ → K) (hts : ∀ m < ts.length, ts.getD m 0 < n) :
    ∑ s ∈ Finset.range n, f s * (∑ m ∈ Finset.range ts.length, if ts.getD m 0 = s then b m else 0) =
    ∑ m ∈ Finset.range ts.length, f (ts.getD m 0) * b m := by
  simp only [Finset.mul_sum]
  rw [Finset.sum_comm]
  refine Finset.sum_congr rfl fun m hm => ?_
  have hlt := hts m (Finset.mem_range.mp hm)
  rw [Finset.sum_eq_single_of_mem (ts.getD m 0) (Finset.mem_range.mpr hlt)]
  · simp
  · intro s _ hs
    rw [if_neg (Ne.symm hs), mul_zero]

/-- A Jacobian whose slots receive the slots of `a` and of `b` under the same owners has the sum of their rows. -/
theorem row_merge {j a b : SJac K} {ls rs : List ℕ} (ha : j.inShape = a.inShape ∧ j.ownAx = a.ownAx)
    (hb : j.inShape = b.inShape ∧ j.ownAx = b.ownAx)
    (hla : ls.length = a.roles.length) (hrb : rs.length = b.roles.length)
    (hl : ∀ (m : ℕ) (o : OwnerRole), a.roles[m]? = some o → ∃ t, ls[m]? = some t ∧ j.roles[t]? = some o)
    (hr : ∀ (m : ℕ) (o : OwnerRole), b.roles[m]? = some o → ∃ t, rs[m]? = some t ∧ j.roles[t]? = some o)
    {i : List ℕ} {A B : ℕ → ℕ → K}
    (hblk : ∀ s, s < j.roles.length → ∀ c, c < j.coords → j.blocks.get (s :: c :: i) =
      (∑ m ∈ Finset.range ls.length, if ls.getD m 0 = s then A m c else 0) +
      ∑ m ∈ Finset.range rs.length, if rs.getD m 0 = s then B m c else 0)
    {r : ℕ} (hrow : r < j.inShape.prod) :
    (j.row r).get i = (∑ m ∈ Finset.range a.roles.length, a.sel m i (rowOwner a.inShape a.ownAx r) * A m (rowCoord a.inShape a.ownAx r)) +
      ∑ m ∈ Finset.range b.roles.length, b.sel m i (rowOwner b.inShape b.ownAx r) * B m (rowCoord b.inShape b.ownAx r) := by
  rw [row_get, ← ha.1, ← ha.2, ← hb.1, ← hb.2]
  have hc : rowCoord j.inShape j.ownAx r < j.coords := rowCoord_lt hrow
  have e : ∀ s ∈ Finset.range j.roles.length, j.sel s i (rowOwner j.inShape j.ownAx r) * j.blocks.get (s :: rowCoord j.inShape j.ownAx r :: i) =
      j.sel s i (rowOwner j.inShape j.ownAx r) * (∑ m ∈ Finset.range ls.length, if ls.getD m 0 = s then A m (rowCoord j.inShape j.ownAx r) else 0) +
      j.sel s i (rowOwner j.inShape j.ownAx r) * (∑ m ∈ Finset.range rs.length, if rs.getD m 0 = s then B m (rowCoord j.inShape j.ownAx r) else 0) := by
    intro s hs
    rw [hblk s (Finset.mem_range.mp hs) _ hc, mul_add]
  rw [Finset.sum_congr rfl e, Finset.sum_add_distrib]
  have slot : ∀ (a : SJac K) (ls : List ℕ), ls.length = a.roles.length →
      (∀ (m : ℕ) (o : OwnerRole), a.roles[m]? = some o → ∃ t, ls[m]? = some t ∧ j.roles[t]? = some o) →
      (∀ m < ls.length, ls.getD m 0 < j.roles.length) ∧ ∀ m < ls.length, ∀ w, j.sel (ls.getD m 0) i w = a.sel m i w := by
    intro a ls hla hl
    have key : ∀ m < ls.length, ∃ o, a.roles[m]? = some o ∧ j.roles[ls.getD m 0]? = some o := by
      intro m hm
      have hm' : m < a.roles.length := hla ▸ hm
      obtain ⟨t, h1, h2⟩ := hl m _ (List.getElem?_eq_getElem hm')
      refine ⟨_, List.getElem?_eq_getElem hm', ?_⟩
      rw [List.getD_eq_getElem?_getD, h1]; exact h2
    constructor
    · intro m hm
      obtain ⟨o, _, h2⟩ := key m hm
      by_contra hcon
      rw [List.getElem?_eq_none (by omega)] at h2
      cases h2
    · intro m hm w
      obtain ⟨o, h1, h2⟩ := key m hm
      simp only [SJac.sel, h1, h2]
  obtain ⟨l1, l2⟩ := slot a ls hla hl
  obtain ⟨r1, r2⟩ := slot b rs hrb hr
  rw [sum_slots ls _ _ l1, sum_slots rs _ _ r1, hla, hrb]
  refine congrArg₂ (· + ·) ?_ ?_
  · refine Finset.sum_congr rfl fun m hm => ?_
    rw [l2 m (by rw [hla]; exact Finset.mem_range.mp hm)]
  · refine Finset.sum_congr rfl fun m hm => ?_
    rw [r2 m (by rw [hrb]; exact Finset.mem_range.mp hm)]

/-! ### Lift of two `Local1` Jacobians -/

theorem role_one {j : SJac K} (h : j.roles.length = 1) : ∃ o, j.roles = [o] := List.length_eq_one_iff.mp h
theorem role_two {j : SJac K} (h : j.roles.length = 2) : ∃ o p, j.roles = [o, p] := List.length_eq_two.mp h

theorem compat_iff {a b : SJac K} : compat a b = true ↔ a.inShape = b.inShape ∧ a.ownAx = b.ownAx := by simp [compat]

theorem row_one {j : SJac K} {o : OwnerRole} (h : j.roles = [o]) (r : ℕ) (i : List ℕ) : (j.row r).get i =
    (if o.at i = rowOwner j.inShape j.ownAx r then 1 else 0) * j.blocks.get (0 :: rowCoord j.inShape j.ownAx r :: i) := by
  rw [row_get, h]; simp [SJac.sel, h]

theorem row_two {j : SJac K} {o p : OwnerRole} (h : j.roles = [o, p]) (r : ℕ) (i : List ℕ) : (j.row r).get i =
    (if o.at i = rowOwner j.inShape j.ownAx r then 1 else 0) * j.blocks.get (0 :: rowCoord j.inShape j.ownAx r :: i) +
    (if p.at i = rowOwner j.inShape j.ownAx r then 1 else 0) * j.blocks.get (1 :: rowCoord j.inShape j.ownAx r :: i) := by
  rw [row_get, h]; simp [SJac.sel, h, Finset.sum_range_succ]

theorem liftLocal2_some {a b j : SJac K} (hv : a.Valid) (ha : a.roles.length = 1) (hb : b.roles.length = 1)
    {sign : K} (h : liftLocal2 a b sign = some j) :
    j.Valid ∧ j.out = a.out ∧ j.inShape = a.inShape ∧ j.ownAx = a.ownAx ∧
    (∀ o ∈ j.roles, o ∈ a.roles ∨ o ∈ b.roles) ∧
    ∀ r i, (j.row r).get i = (a.row r).get i + sign * (b.row r).get i := by
  unfold liftLocal2 at h
  split at h
  · rename_i hc
    obtain ⟨c1, c2⟩ := compat_iff.mp hc
    obtain ⟨o, ho⟩ := role_one ha
    obtain ⟨p, hp⟩ := role_one hb
    obtain ⟨rfl, hv'⟩ := mkSJac_some h
    refine ⟨hv', ?_, rfl, rfl, ?_, ?_⟩
    · unfold SJac.out stack0 Arr.at0
      simp only [List.head?_cons, Option.map_some, Option.getD_some]
      rw [hv.shape]; simp
    · intro q hq; simpa [ho, hp] using hq
    · intro r i
      rw [row_two (o := o) (p := p) (by simp [ho, hp]), row_one ho, row_one hp]
      simp only [stack0, Arr.at0, Arr.map, ← c1, ← c2]
      simp
  · cases h

/-! ### Merge of two `Local2` Jacobians -/

theorem mergeLocal2_some {a b : SJac K} {roles : List OwnerRole} {ls rs : List ℕ} (h : mergeLocal2 a b = some (roles, ls, rs)) :
    ls.length = a.roles.length ∧ rs.length = b.roles.length ∧
    (∀ (m : ℕ) (o : OwnerRole), a.roles[m]? = some o → ∃ t, ls[m]? = some t ∧ roles[t]? = some o) ∧
    (∀ (m : ℕ) (o : OwnerRole), b.roles[m]? = some o → ∃ t, rs[m]? = some t ∧ roles[t]? = some o) ∧
    ∀ o ∈ roles, o ∈ a.roles ∨ o ∈ b.roles := by
  unfold mergeLocal2 at h
  simp only at h
  split at h
  · cases h
  · simp only [Option.some.injEq, Prod.mk.injEq] at h
    obtain ⟨h1, h2, h3⟩ := h
    obtain ⟨_, p2, p3, p4⟩ := outputSlots_spec [] a.roles
    obtain ⟨q1, q2, q3, q4⟩ := outputSlots_spec (outputSlots [] a.roles).1 b.roles
    have hpre : (outputSlots (outputSlots [] a.roles).1 b.roles).1 <+: roles := by
      rw [← h1]
      split
      · exact List.prefix_append _ _
      · exact List.prefix_refl _
    have hmem : ∀ o ∈ roles, o ∈ (outputSlots (outputSlots [] a.roles).1 b.roles).1 := by
      intro o ho
      rw [← h1] at ho
      split at ho
      · simpa using ho
      · exact ho
    subst h2 h3
    refine ⟨p2, q2, ?_, ?_, ?_⟩
    · intro m o hm
      obtain ⟨t, t1, t2⟩ := p3 m o hm
      exact ⟨t, t1, prefix_get hpre (prefix_get q1 t2)⟩
    · intro m o hm
      obtain ⟨t, t1, t2⟩ := q3 m o hm
      exact ⟨t, t1, prefix_get hpre t2⟩
    · intro o ho
      rcases q4 o (hmem o ho) with h | h
      · rcases p4 o h with h' | h'
        · simp at h'
        · exact Or.inl h'
      · exact Or.inr h

theorem mergeBlocks_get (ls rs : List ℕ) (A B : Arr K) (s c : ℕ) (i : List ℕ) :
    (mergeBlocks ls rs A B).get (s :: c :: i) =
      (∑ m ∈ Finset.range ls.length, if ls.getD m 0 = s then A.get (m :: c :: i) else 0) +
      ∑ m ∈ Finset.range rs.length, if rs.getD m 0 = s then B.get (m :: c :: i) else 0 := by
  unfold mergeBlocks
  rw [accumulate_get, accumulate_get]
  simp [full_get, Arr.at0]

theorem mergeBlocks_shape (ls rs : List ℕ) (A B : Arr K) : (mergeBlocks ls rs A B).shape = A.shape := by
  simp [mergeBlocks, accumulate_shape, fullA]

end Jaqmc.Sparse
