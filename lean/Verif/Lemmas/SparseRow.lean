import Verif.Lemmas.SparseIdx
/-! Expansion of sparse Jacobians (C45): validity, rows, traces. -/
namespace Jaqmc.Sparse

variable {K : Type}

theorem valid_iff (j : SJac K) : j.valid = true ↔ j.Valid := by
  unfold SJac.valid
  simp only [Bool.and_eq_true, decide_eq_true_eq, beq_iff_eq, Bool.or_eq_true, List.all_eq_true]
  constructor
  · rintro ⟨⟨⟨⟨h1, h2⟩, h3⟩, h4⟩, h5⟩
    refine ⟨h1, ?_, h3, h4, ?_⟩
    · rw [SJac.out]
      conv_lhs => rw [← List.take_append_drop 2 j.blocks.shape]
      rw [h2]; rfl
    · intro o ho a ha
      have := h5 o ho
      rw [ha] at this
      simpa using this
  · rintro ⟨h1, h2, h3, h4, h5⟩
    refine ⟨⟨⟨⟨h1, by rw [h2]; rfl⟩, h3⟩, h4⟩, ?_⟩
    intro o ho
    cases ha : o.axis with
    | none => rfl
    | some a => simpa using h5 o ho a ha

theorem mkSJac_some {blocks : Arr K} {roles : List OwnerRole} {sh : List ℕ} {ax : ℕ} {j : SJac K}
    (h : mkSJac blocks roles sh ax = some j) : j = ⟨blocks, roles, sh, ax⟩ ∧ j.Valid := by
  unfold mkSJac at h
  simp only at h
  split at h
  · rename_i hv
    have := (Option.some.inj h).symm
    subst this
    exact ⟨rfl, (valid_iff _).mp hv⟩
  · cases h

theorem withBlocks_some {j j' : SJac K} {blocks : Arr K} {roles : List OwnerRole} (h : j.withBlocks blocks roles = some j') :
    j' = ⟨blocks, roles, j.inShape, j.ownAx⟩ ∧ j'.Valid ∧ roles.length = j.roles.length := by
  unfold SJac.withBlocks at h
  split at h
  · rename_i hl
    exact ⟨(mkSJac_some h).1, (mkSJac_some h).2, hl⟩
  · cases h

theorem mkRole_at_none (vs : List ℕ) (i : List ℕ) : (mkRole none vs).at i = vs.headD 0 := by
  simp [mkRole, OwnerRole.at]

theorem mkRole_at_some (a : ℕ) (vs : List ℕ) (i : List ℕ) (h : vs.length = 1 → i.getD a 0 = 0) :
    (mkRole (some a) vs).at i = vs.getD (i.getD a 0) 0 := by
  unfold mkRole OwnerRole.at
  by_cases h1 : vs.length = 1
  · simp only [if_pos h1, h h1]
    cases vs <;> simp
  · simp only [if_neg h1]

/-- The owner id at an in-bounds entry is in range. -/
theorem at_lt {j : SJac K} (hv : j.Valid) {o : OwnerRole} (ho : o ∈ j.roles) (hr : o.reshapable = true) {i : List ℕ}
    (hi : InB j.out i) : o.at i < j.owners := by
  apply hv.ids o ho
  unfold OwnerRole.at
  cases ha : o.axis with
  | none =>
    simp only [OwnerRole.reshapable, ha, Option.isSome_none, Bool.false_or, Bool.not_eq_true', List.isEmpty_eq_false_iff] at hr
    cases hvs : o.values with
    | nil => exact absurd hvs hr
    | cons v vs => simp
  | some a =>
    obtain ⟨h1, h2⟩ := hv.dims o ho a ha
    have h3 := hi.2 a h1
    rw [← h2] at h3
    simp only
    rw [List.getD_eq_getElem?_getD, List.getElem?_eq_getElem h3]
    exact List.getElem_mem h3

section
variable [Field K]

/-- The selector of slot `s` at entry `i` and owner `o`. -/
def SJac.sel (j : SJac K) (s : ℕ) (i : List ℕ) (o : ℕ) : K :=
  match j.roles[s]? with
  | none => 0
  | some r => if r.at i = o then 1 else 0

theorem row_get (j : SJac K) (r : ℕ) (i : List ℕ) : (j.row r).get i =
    ∑ s ∈ Finset.range j.roles.length, j.sel s i (rowOwner j.inShape j.ownAx r) * j.blocks.get (s :: rowCoord j.inShape j.ownAx r :: i) := rfl

theorem row_shape (j : SJac K) (r : ℕ) : (j.row r).shape = j.out := rfl

theorem toDense_some {j : SJac K} {J : ℕ → Arr K} (h : j.toDense = some J) : J = j.row ∧ ∀ o ∈ j.roles, o.reshapable = true := by
  unfold SJac.toDense at h
  split at h
  · rename_i hr
    exact ⟨(Option.some.inj h).symm, by simpa using hr⟩
  · cases h

theorem toDense_eq {j : SJac K} (h : ∀ o ∈ j.roles, o.reshapable = true) : j.toDense = some j.row := by
  unfold SJac.toDense
  rw [if_pos (by simpa using h)]

theorem rowCoord_lt {sh : List ℕ} {k r : ℕ} (hr : r < sh.prod) : rowCoord sh k r < (sh.eraseIdx k).prod := by
  unfold rowCoord
  have := inB_unravel hr
  apply ravel_lt'
  generalize unravel sh r = i at this
  clear hr
  induction sh generalizing k i with
  | nil => rw [inB_nil.mp this]; simpa using inB_nil.mpr rfl
  | cons n s ih =>
    cases i with
    | nil => simp [InB] at this
    | cons a i =>
      obtain ⟨h1, h2⟩ := inB_cons.mp this
      cases k with
      | zero => simpa using h2
      | succ k => simpa using inB_cons.mpr ⟨h1, ih (k := k) i h2⟩

/-- Products of two expanded Jacobians at one entry, summed over all rows: pairs of slots with the same owner. -/
theorem sum_row_mul {a b : SJac K} (hsh : a.inShape = b.inShape) (hax : a.ownAx = b.ownAx) (hk : a.ownAx < a.inShape.length)
    (f : K → K) (hf : ∀ u v, f (u + v) = f u + f v) (h0 : f 0 = 0)
    {i : List ℕ} (ha : ∀ o ∈ a.roles, o.at i < a.owners) :
    ∑ r ∈ Finset.range a.inShape.prod, (a.row r).get i * f ((b.row r).get i) =
    ∑ s ∈ Finset.range a.roles.length, ∑ t ∈ Finset.range b.roles.length,
      (match a.roles[s]?, b.roles[t]? with
       | some o, some p => if o.at i = p.at i then ∑ c ∈ Finset.range a.coords, a.blocks.get (s :: c :: i) * f (b.blocks.get (t :: c :: i)) else 0
       | _, _ => 0) := by
  have key : ∀ o c, (∑ s ∈ Finset.range a.roles.length, a.sel s i o * a.blocks.get (s :: c :: i)) *
      f (∑ t ∈ Finset.range b.roles.length, b.sel t i o * b.blocks.get (t :: c :: i)) =
      ∑ s ∈ Finset.range a.roles.length, ∑ t ∈ Finset.range b.roles.length,
        (a.sel s i o * b.sel t i o) * (a.blocks.get (s :: c :: i) * f (b.blocks.get (t :: c :: i))) := by
    intro o c
    have hsum : ∀ (n : ℕ) (g : ℕ → K), f (∑ t ∈ Finset.range n, g t) = ∑ t ∈ Finset.range n, f (g t) := by
      intro n g
      induction n with
      | zero => simpa using h0
      | succ n ih => rw [Finset.sum_range_succ, hf, ih, Finset.sum_range_succ]
    rw [hsum, Finset.sum_mul]
    refine Finset.sum_congr rfl fun s _ => ?_
    rw [Finset.mul_sum]
    refine Finset.sum_congr rfl fun t _ => ?_
    have e : f (b.sel t i o * b.blocks.get (t :: c :: i)) = b.sel t i o * f (b.blocks.get (t :: c :: i)) := by
      unfold SJac.sel
      cases b.roles[t]? with
      | none => simp [h0]
      | some p => by_cases h : p.at i = o <;> simp [h, h0]
    rw [e]; ring
  have e1 : ∀ r, (a.row r).get i * f ((b.row r).get i) =
      (fun o c => ∑ s ∈ Finset.range a.roles.length, ∑ t ∈ Finset.range b.roles.length,
        (a.sel s i o * b.sel t i o) * (a.blocks.get (s :: c :: i) * f (b.blocks.get (t :: c :: i))))
      (rowOwner a.inShape a.ownAx r) (rowCoord a.inShape a.ownAx r) := by
    intro r
    rw [row_get, row_get, ← hsh, ← hax]
    exact key _ _
  refine (Finset.sum_congr rfl fun r _ => e1 r).trans ((sum_rows hk (fun o c => ∑ s ∈ Finset.range a.roles.length,
    ∑ t ∈ Finset.range b.roles.length, (a.sel s i o * b.sel t i o) * (a.blocks.get (s :: c :: i) * f (b.blocks.get (t :: c :: i))))).trans ?_)
  -- exchange the sums
  have e2 : ∀ o ∈ Finset.range (a.inShape.getD a.ownAx 0), ∑ c ∈ Finset.range (a.inShape.eraseIdx a.ownAx).prod,
      ∑ s ∈ Finset.range a.roles.length, ∑ t ∈ Finset.range b.roles.length,
        (a.sel s i o * b.sel t i o) * (a.blocks.get (s :: c :: i) * f (b.blocks.get (t :: c :: i))) =
      ∑ s ∈ Finset.range a.roles.length, ∑ t ∈ Finset.range b.roles.length,
        (a.sel s i o * b.sel t i o) * ∑ c ∈ Finset.range a.coords, (a.blocks.get (s :: c :: i) * f (b.blocks.get (t :: c :: i))) := by
    intro o _
    rw [Finset.sum_comm]
    refine Finset.sum_congr rfl fun s _ => ?_
    rw [Finset.sum_comm]
    refine Finset.sum_congr rfl fun t _ => ?_
    rw [Finset.mul_sum]; rfl
  rw [Finset.sum_congr rfl e2, Finset.sum_comm]
  refine Finset.sum_congr rfl fun s hs => ?_
  rw [Finset.sum_comm]
  refine Finset.sum_congr rfl fun t ht => ?_
  rw [← Finset.sum_mul]
  have hs' := Finset.mem_range.mp hs
  have ht' := Finset.mem_range.mp ht
  simp only [SJac.sel, List.getElem?_eq_getElem hs', List.getElem?_eq_getElem ht']
  have hlt : (a.roles[s]).at i < a.inShape.getD a.ownAx 0 := ha _ (List.getElem_mem hs')
  by_cases h : (a.roles[s]).at i = (b.roles[t]).at i
  · rw [if_pos h, Finset.sum_eq_single_of_mem ((a.roles[s]).at i) (Finset.mem_range.mpr hlt)]
    · simp [h]
    · intro o _ ho
      simp [Ne.symm ho]
  · rw [if_neg h, Finset.sum_eq_zero, zero_mul]
    intro o _
    by_cases h1 : (a.roles[s]).at i = o
    · simp [← h1, Ne.symm h]
    · simp [h1]

end
end Jaqmc.Sparse
