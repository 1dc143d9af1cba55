import Verif.Lemmas.SparseReduce
/-! The seed (C45). -/
namespace Jaqmc.Sparse
open Spec
variable {K : Type} [Field K]

theorem inB_eraseIdx {sh i : List ℕ} (h : InB sh i) (k : ℕ) : InB (sh.eraseIdx k) (i.eraseIdx k) := by
  induction sh generalizing i k with
  | nil => rw [inB_nil.mp h]; simpa using inB_nil.mpr rfl
  | cons n s ih =>
    cases i with
    | nil => exact absurd h.1 (by simp)
    | cons a i =>
      obtain ⟨h1, h2⟩ := inB_cons.mp h
      cases k with
      | zero => simpa using h2
      | succ k =>
        simp only [List.eraseIdx_cons_succ]
        exact inB_cons.mpr ⟨h1, ih h2 k⟩

theorem ravel_inj {sh i j : List ℕ} (hi : InB sh i) (hj : InB sh j) (h : ravel sh i = ravel sh j) : i = j := by
  rw [← unravel_ravel hi, h, unravel_ravel hj]

theorem eq_of_eraseIdx {i j : List ℕ} {k : ℕ} (hl : i.length = j.length) (hk : k < i.length) (h1 : i.getD k 0 = j.getD k 0)
    (h2 : i.eraseIdx k = j.eraseIdx k) : i = j := by
  have e1 := List.insertIdx_eraseIdx_getElem hk
  have e2 := List.insertIdx_eraseIdx_getElem (hl ▸ hk : k < j.length)
  rw [← e1, ← e2, h2]
  congr 1
  rw [List.getD_eq_getElem _ _ hk, List.getD_eq_getElem _ _ (hl ▸ hk)] at h1
  exact h1

theorem seed_row_iff {sh i : List ℕ} {ax r : ℕ} (hax : ax < sh.length) (hi : InB sh i) (hr : r < sh.prod) :
    (i.getD ax 0 = rowOwner sh ax r ∧ ravel (sh.eraseIdx ax) (i.eraseIdx ax) = rowCoord sh ax r) ↔ ravel sh i = r := by
  have hu := inB_unravel hr
  constructor
  · rintro ⟨h1, h2⟩
    have h3 := ravel_inj (inB_eraseIdx hi ax) (inB_eraseIdx hu ax) h2
    have : i = unravel sh r := eq_of_eraseIdx (by rw [hi.1, hu.1]) (by rw [hi.1]; exact hax) h1 h3
    rw [this, ravel_unravel hr]
  · rintro rfl
    simp only [rowOwner, rowCoord, unravel_ravel hi, and_self]

theorem seedInput_expands {x w : Arr K} {ax : ℕ} (hax : ax < x.shape.length) :
    ∃ v, seedInput x w ax = some v ∧ v.ExpandsTo (seed x (w.bcast x.shape)) := by
  set j : SJac K := ⟨⟨1 :: (x.shape.eraseIdx ax).prod :: x.shape, fun t => (w.bcast x.shape).get t.tail.tail *
      if ravel (x.shape.eraseIdx ax) (t.tail.tail.eraseIdx ax) = t.tail.headD 0 then 1 else 0⟩,
    [mkRole (some ax) (List.range (x.shape.getD ax 0))], x.shape, ax⟩ with hj
  have jv : j.Valid := by
    refine ⟨hax, rfl, Or.inl rfl, ?_, ?_⟩
    · intro o ho v hv
      rw [hj] at ho
      simp only [List.mem_singleton] at ho
      subst ho
      show v < x.shape.getD ax 0
      simpa [mkRole] using hv
    · intro o ho a ha
      rw [hj] at ho
      simp only [List.mem_singleton] at ho
      subst ho
      simp only [mkRole, List.length_range] at ha ⊢
      split at ha
      · cases ha
      · obtain rfl := Option.some.inj ha
        exact ⟨hax, rfl⟩
  have hm : seedInput x w ax = some ⟨x, j, fullA x.shape 0⟩ := by
    unfold seedInput seedJac mkSJac
    simp only [← hj]
    rw [if_pos ((valid_iff j).mpr jv)]; rfl
  refine ⟨_, hm, ?_⟩
  apply expandsTo_intro
  · exact ⟨jv, rfl, rfl⟩
  · intro o ho
    simp only [hj, List.mem_singleton] at ho
    subst ho
    exact mkRole_some_reshapable _ _
  · rfl
  · exact ⟨rfl, fun i _ => rfl⟩
  · intro r hr
    refine ⟨rfl, fun i hi => ?_⟩
    replace hi : InB x.shape i := hi
    replace hr : r < x.shape.prod := hr
    have hval : (mkRole (some ax) (List.range (x.shape.getD ax 0))).at i = i.getD ax 0 := by
      have hlt := hi.2 ax hax
      rw [mkRole_at_some _ _ _ (by rw [List.length_range]; omega)]
      rw [List.getD_eq_getElem _ _ (by simpa using hlt), List.getElem_range]
    rw [row_get]
    have e1 : ∑ t ∈ Finset.range j.roles.length, j.sel t i (rowOwner j.inShape j.ownAx r) * j.blocks.get (t :: rowCoord j.inShape j.ownAx r :: i) =
        j.sel 0 i (rowOwner j.inShape j.ownAx r) * j.blocks.get (0 :: rowCoord j.inShape j.ownAx r :: i) := Finset.sum_range_one _
    have e2 : j.sel 0 i (rowOwner j.inShape j.ownAx r) = if (mkRole (some ax) (List.range (x.shape.getD ax 0))).at i = rowOwner x.shape ax r then 1 else 0 := rfl
    have e3 : j.blocks.get (0 :: rowCoord j.inShape j.ownAx r :: i) =
        (w.bcast x.shape).get i * if ravel (x.shape.eraseIdx ax) (i.eraseIdx ax) = rowCoord x.shape ax r then 1 else 0 := rfl
    rw [e1, e2, e3, hval]
    show _ = if ravel x.shape i = r then (w.bcast x.shape).get i else 0
    have := seed_row_iff hax hi hr
    by_cases h : ravel x.shape i = r
    · rw [if_pos h, if_pos (this.mpr h).1, if_pos (this.mpr h).2]; ring
    · rw [if_neg h]
      by_cases h1 : i.getD ax 0 = rowOwner x.shape ax r
      · rw [if_neg fun h2 => h (this.mp ⟨h1, h2⟩)]; ring
      · rw [if_neg h1]; ring
  · exact ⟨rfl, fun i _ => rfl⟩

end Jaqmc.Sparse
