import Verif.Lemmas.SparseDiv
import Verif.Model.SparseShape
/-! Rules that move entries around (C45). -/
namespace Jaqmc.Sparse
open Spec
variable {K : Type} [Field K]

/-- Roles changed one by one. -/
theorem roles_map_at {roles : List OwnerRole} {f : OwnerRole → OwnerRole} {i i' : List ℕ}
    (h : ∀ o ∈ roles, (f o).at i = o.at i') (s : ℕ) :
    ((roles.map f)[s]?).map (fun o => o.at i) = (roles[s]?).map fun o => o.at i' := by
  rw [List.getElem?_map]
  cases ho : roles[s]? with
  | none => rfl
  | some o => simp [h o (List.mem_of_getElem? ho)]

theorem mapM_cons_some {α β : Type} {f : α → Option β} {a : α} {as : List α} {r : List β} (h : (a :: as).mapM f = some r) :
    ∃ b bs, f a = some b ∧ as.mapM f = some bs ∧ r = b :: bs := by
  rw [List.mapM_cons] at h
  simp only [Option.bind_eq_bind, Option.pure_def, Option.bind_eq_some_iff, Option.some.injEq] at h
  obtain ⟨b, hb, bs, hbs, rfl⟩ := h
  exact ⟨b, bs, hb, hbs, rfl⟩

theorem mapM_some {α β : Type} {f : α → Option β} {as : List α} {r : List β} (h : as.mapM f = some r) :
    r.length = as.length ∧ ∀ (s : ℕ) (a : α), as[s]? = some a → ∃ b, r[s]? = some b ∧ f a = some b := by
  induction as generalizing r with
  | nil =>
    simp only [List.mapM_nil, Option.pure_def, Option.some.injEq] at h
    subst h
    exact ⟨rfl, fun s a h => by simp at h⟩
  | cons a as ih =>
    obtain ⟨b, bs, hb, hbs, rfl⟩ := mapM_cons_some h
    obtain ⟨h1, h2⟩ := ih hbs
    refine ⟨by simp [h1], fun s x hx => ?_⟩
    cases s with
    | zero => simp only [List.getElem?_cons_zero, Option.some.injEq] at hx; subst hx; exact ⟨b, rfl, hb⟩
    | succ s => simpa using h2 s x (by simpa using hx)

theorem roles_mapM_at {roles roles' : List OwnerRole} {f : OwnerRole → Option OwnerRole} (hm : roles.mapM f = some roles')
    {i i' : List ℕ} (h : ∀ o ∈ roles, ∀ p, f o = some p → p.at i = o.at i') (s : ℕ) :
    (roles'[s]?).map (fun o => o.at i) = (roles[s]?).map fun o => o.at i' := by
  obtain ⟨h1, h2⟩ := mapM_some hm
  cases ho : roles[s]? with
  | none =>
    have : roles'.length ≤ s := by rw [h1]; exact List.getElem?_eq_none_iff.mp ho
    rw [List.getElem?_eq_none this]; rfl
  | some o =>
    obtain ⟨p, hp, hf⟩ := h2 s o ho
    rw [hp]
    simp [h o (List.mem_of_getElem? ho) p hf]

theorem mapM_mem {α β : Type} {f : α → Option β} {as : List α} {r : List β} (h : as.mapM f = some r) {b : β} (hb : b ∈ r) :
    ∃ a ∈ as, f a = some b := by
  obtain ⟨h1, h2⟩ := mapM_some h
  obtain ⟨k, hk, rfl⟩ := List.getElem_of_mem hb
  have hk' : k < as.length := by omega
  obtain ⟨b', hb', hf⟩ := h2 k as[k] (List.getElem?_eq_getElem hk')
  rw [List.getElem?_eq_getElem hk] at hb'
  exact ⟨as[k], List.getElem_mem hk', by rw [hf, ← hb']⟩

/-- A primitive whose result entries are entries of the operand. -/
theorem reindex_expands {s : SLap K} {D : DLap K} (hw : s.WF) (hD : s.expand = some D) {p q : Arr K → Arr K} {sh : List ℕ}
    {σ : List ℕ → List ℕ} {j : SJac K} {blocks : Arr K} {roles : List OwnerRole}
    (hp : (p s.x).shape = sh)
    (hq : ∀ A : Arr K, A.shape = s.jac.out → (q A).shape = sh ∧ ∀ i, InB sh i → (q A).get i = A.get (σ i))
    (hj : s.jac.withBlocks blocks roles = some j) (hbs : blocks.shape.drop 2 = sh)
    (hres : ∀ o ∈ roles, o.reshapable = true)
    (hat : ∀ i, InB sh i → ∀ k : ℕ, (roles[k]?).map (fun o => o.at i) = (s.jac.roles[k]?).map fun o => o.at (σ i))
    (hb : ∀ i, InB sh i → ∀ t, t < s.jac.roles.length → ∀ c, c < s.jac.coords → blocks.get (t :: c :: i) = s.jac.blocks.get (t :: c :: σ i)) :
    SLap.ExpandsTo ⟨p s.x, j, q s.lap⟩ (affine p q D) := by
  obtain ⟨rfl, hr⟩ := expand_some hD
  obtain ⟨je, j1, j2⟩ := withBlocks_some hj
  have jout : j.out = sh := by rw [je]; exact hbs
  apply expandsTo_intro
  · exact ⟨j1, by rw [jout]; exact hp, by rw [jout]; exact (hq _ hw.lap).1⟩
  · rw [je]; exact hres
  · rw [je]; rfl
  · exact .refl _
  · intro r hr'
    refine ⟨by rw [row_shape, jout]; exact (hq _ (row_shape _ _)).1.symm, fun i hi => ?_⟩
    rw [row_shape, jout] at hi
    have := row_rel (j := s.jac) (j' := j) (i := i) (i' := σ i) (φ := 1) (by rw [je]; exact j2) (by rw [je]) (by rw [je])
      (by rw [je]; exact hat i hi) (fun t ht c hc => by rw [je]; simp only; rw [hb i hi t ht c hc, one_mul]) hr'
    rw [this, one_mul]
    exact ((hq _ (row_shape _ _)).2 i hi).symm
  · exact .refl _

theorem linear_eq_affine (p : Arr K → Arr K) (D : DLap K) : linear p D = affine p p D := rfl

/-- The block prefix. -/
theorem blocks_len {j : SJac K} (hv : j.Valid) : j.blocks.shape.length = j.out.length + 2 := by rw [hv.shape]; simp

theorem blocks_getD {j : SJac K} (hv : j.Valid) (a : ℕ) : j.blocks.shape.getD (a + 2) 0 = j.out.getD a 0 := by rw [hv.shape]; rfl

theorem mkRole_some_reshapable (a : ℕ) (vs : List ℕ) : (mkRole (some a) vs).reshapable = true := by
  apply mkRole_reshapable
  by_cases h : vs.length = 1
  · right; rintro rfl; simp at h
  · left; exact ⟨rfl, h⟩

/-- The `at` of a role moved to another axis. -/
theorem mapAxis_at {j : SJac K} {o : OwnerRole} {f : ℕ → ℕ} {i i' : List ℕ}
    (h : ∀ a, o.axis = some a → i.getD (f a) 0 = i'.getD a 0) : (o.mapAxis f).at i = o.at i' := by
  unfold OwnerRole.mapAxis
  cases ha : o.axis with
  | none => simp [OwnerRole.at, ha]
  | some a =>
    simp only
    rw [mkRole_at_some _ _ _ fun h1 => absurd h1 (axis_len_ne ha), h a ha]
    simp [OwnerRole.at, ha]

/-! ### Transpose -/

theorem idxOf_map_add_two (perm : List ℕ) (a : ℕ) : (perm.map (· + 2)).idxOf (a + 2) = perm.idxOf a := by
  induction perm with
  | nil => rfl
  | cons b perm ih =>
    simp only [List.map_cons, List.idxOf_cons]
    by_cases h : b = a
    · subst h; simp
    · have : (b + 2 == a + 2) = false := by simpa using h
      have h2 : (b == a) = false := by simpa using h
      rw [this, h2, ih]

theorem handleTranspose_expands {perm : List ℕ} {s v : SLap K} {D : DLap K} (hw : s.WF) (hD : s.expand = some D)
    (hperm : perm.Perm (List.range D.x.shape.length)) (h : handleTranspose perm s = some v) :
    v.ExpandsTo (linear (laxTranspose · perm) D) := by
  unfold handleTranspose at h
  simp only [Option.bind_eq_bind, Option.pure_def, Option.bind_eq_some_iff, Option.some.injEq] at h
  obtain ⟨j, hj, rfl⟩ := h
  have hr := (expand_some hD).2
  have hxs : D.x.shape = s.jac.out := by rw [(expand_some hD).1]; exact hw.x
  rw [hxs] at hperm
  have hlen : perm.length = s.jac.out.length := by simpa using hperm.length_eq
  refine reindex_expands (p := (laxTranspose · perm)) (q := (laxTranspose · perm)) (sh := perm.map fun a => s.jac.out.getD a 0)
    (σ := fun i => (List.range perm.length).map fun a => i.getD (perm.idxOf a) 0) hw hD ?_ ?_ hj ?_ ?_ ?_ ?_
  · simp [laxTranspose, hw.x]
  · intro A hA; exact ⟨by simp [laxTranspose, hA], fun i _ => rfl⟩
  · simp only [laxTranspose, List.map_cons, List.drop_succ_cons, List.drop_zero, List.map_map]
    apply List.map_congr_left
    intro a _
    exact blocks_getD hw.jac a
  · intro o ho
    obtain ⟨o', ho', rfl⟩ := List.mem_map.mp ho
    exact mapAxis_reshapable (hr o' ho')
  · intro i hi k
    apply roles_map_at
    intro o ho
    apply mapAxis_at (j := s.jac)
    intro a ha
    have := (hw.jac.dims o ho a ha).1
    rw [getD_map_range, if_pos (by rw [hlen]; exact this)]
  · intro i hi t ht c hc
    simp only [laxTranspose, List.length_cons, List.length_map]
    rw [range_add_two]
    simp only [List.map_cons, List.idxOf_cons_self, List.getD_cons_zero, List.map_map]
    congr 2
    simp only [List.cons.injEq]
    refine ⟨by simp [List.idxOf_cons], ?_⟩
    apply List.map_congr_left
    intro a _
    simp only [Function.comp_def]
    rw [List.idxOf_cons_ne _ (by omega), List.idxOf_cons_ne _ (by omega), idxOf_map_add_two]
    rfl

/-! ### Squeeze -/

theorem keptAxes_add_two (n : ℕ) (dims : List ℕ) : keptAxes (n + 2) (dims.map (· + 2)) = 0 :: 1 :: (keptAxes n dims).map (· + 2) := by
  unfold keptAxes
  rw [range_add_two, List.filter_cons_of_pos (by simp), List.filter_cons_of_pos (by simp), List.filter_map]
  congr 3
  apply List.filter_congr
  intro a _
  have : (a + 2 ∈ dims.map (· + 2)) ↔ a ∈ dims := by simp
  simp only [Function.comp_def, this]

theorem keptAxes_length (dims : List ℕ) (hn : dims.Nodup) (a : ℕ) : (keptAxes a dims).length = a - dims.countP (· < a) := by
  have h1 : ((List.range a).filter fun x => x ∈ dims).length = dims.countP (· < a) := by
    rw [List.countP_eq_length_filter]
    apply List.Perm.length_eq
    rw [List.perm_ext_iff_of_nodup (List.nodup_range.filter _) (hn.filter _)]
    intro x
    simp [and_comm]
  have h2 := List.length_eq_length_filter_add (l := List.range a) (fun x => decide (x ∈ dims))
  rw [List.length_range, h1] at h2
  have h3 : (keptAxes a dims).length = ((List.range a).filter fun x => !decide (x ∈ dims)).length := by
    unfold keptAxes; congr 1; apply List.filter_congr; intro x _; simp
  omega

theorem dropAxes_pair (S C : ℕ) (sh dims : List ℕ) : dropAxes (dims.map (· + 2)) (S :: C :: sh) = S :: C :: dropAxes dims sh := by
  unfold dropAxes
  simp only [List.length_cons]
  rw [keptAxes_add_two]
  simp [List.map_map, Function.comp_def]

theorem handleSqueeze_expands {dims : List ℕ} {s v : SLap K} {D : DLap K} (hw : s.WF) (hD : s.expand = some D)
    (hn : dims.Nodup) (h1 : ∀ d ∈ dims, D.x.shape.getD d 0 = 1) (h : handleSqueeze dims s = some v) :
    v.ExpandsTo (linear (laxSqueeze · dims) D) := by
  unfold handleSqueeze at h
  simp only [Option.bind_eq_bind, Option.pure_def, Option.bind_eq_some_iff, Option.some.injEq] at h
  obtain ⟨j, hj, rfl⟩ := h
  have hr := (expand_some hD).2
  have hxs : D.x.shape = s.jac.out := by rw [(expand_some hD).1]; exact hw.x
  rw [hxs] at h1
  have hax : ∀ o ∈ s.jac.roles, ∀ a, o.axis = some a → a ∉ dims := by
    intro o ho a ha hd
    apply axis_len_ne ha
    rw [(hw.jac.dims o ho a ha).2, h1 a hd]
  refine reindex_expands (p := (laxSqueeze · dims)) (q := (laxSqueeze · dims)) (sh := dropAxes dims s.jac.out)
    (σ := fun i => (List.range s.jac.out.length).map fun a => if a ∈ dims then 0 else i.getD (keptAxes a dims).length 0)
    hw hD ?_ ?_ hj ?_ ?_ ?_ ?_
  · simp [laxSqueeze, hw.x]
  · intro A hA; exact ⟨by simp [laxSqueeze, hA], fun i _ => by simp [laxSqueeze, hA]⟩
  · simp only [laxSqueeze, hw.jac.shape, dropAxes_pair]; rfl
  · intro o ho
    obtain ⟨o', ho', rfl⟩ := List.mem_map.mp ho
    unfold squeezeRole
    cases ha : o'.axis with
    | none => exact hr o' ho'
    | some a => simp only [if_neg (hax o' ho' a ha)]; exact mkRole_some_reshapable _ _
  · intro i hi k
    apply roles_map_at
    intro o ho
    unfold squeezeRole
    cases ha : o.axis with
    | none => simp [OwnerRole.at, ha]
    | some a =>
      simp only [if_neg (hax o ho a ha)]
      rw [mkRole_at_some _ _ _ fun h1 => absurd h1 (axis_len_ne ha), ← keptAxes_length dims hn]
      simp only [OwnerRole.at, ha]
      rw [getD_map_range, if_pos (hw.jac.dims o ho a ha).1, if_neg (hax o ho a ha)]
  · intro i hi t ht c hc
    simp only [laxSqueeze]
    rw [blocks_len hw.jac, range_add_two]
    simp only [List.map_cons, List.map_map]
    congr 1
    simp only [List.cons.injEq]
    refine ⟨by simp [keptAxes], by simp [keptAxes], ?_⟩
    apply List.map_congr_left
    intro a _
    simp only [Function.comp_def, keptAxes_add_two, List.length_cons, List.length_map, List.getD_cons_succ]
    by_cases hd : a ∈ dims <;> simp [hd]

/-! ### Reversal -/

theorem handleRev_expands {dims : List ℕ} {s v : SLap K} {D : DLap K} (hw : s.WF) (hD : s.expand = some D)
    (h : handleRev dims s = some v) : v.ExpandsTo (linear (laxRev · dims) D) := by
  unfold handleRev at h
  simp only [Option.bind_eq_bind, Option.pure_def, Option.bind_eq_some_iff, Option.some.injEq] at h
  obtain ⟨j, hj, rfl⟩ := h
  have hr := (expand_some hD).2
  refine reindex_expands (p := (laxRev · dims)) (q := (laxRev · dims)) (sh := s.jac.out)
    (σ := fun i => (List.range s.jac.out.length).map fun a => if a ∈ dims then s.jac.out.getD a 0 - 1 - i.getD a 0 else i.getD a 0)
    hw hD ?_ ?_ hj ?_ ?_ ?_ ?_
  · exact hw.x
  · intro A hA; exact ⟨hA, fun i _ => by simp [laxRev, hA]⟩
  · rfl
  · intro o ho
    obtain ⟨o', ho', rfl⟩ := List.mem_map.mp ho
    unfold revRole
    cases ha : o'.axis with
    | none => exact hr o' ho'
    | some a =>
      simp only
      split
      · exact mkRole_some_reshapable _ _
      · exact hr o' ho'
  · intro i hi k
    apply roles_map_at
    intro o ho
    unfold revRole
    cases ha : o.axis with
    | none => simp [OwnerRole.at, ha]
    | some a =>
      obtain ⟨h1, h2⟩ := hw.jac.dims o ho a ha
      simp only
      have hia := hi.2 a h1
      split
      · rename_i hd
        rw [mkRole_at_some _ _ _ fun h1 => absurd (by simpa using h1) (axis_len_ne ha)]
        simp only [OwnerRole.at, ha]
        rw [getD_map_range, if_pos h1, if_pos hd, getD_reverse' _ _ (by rw [h2]; exact hia), h2]
      · rename_i hd
        simp only [OwnerRole.at, ha]
        rw [getD_map_range, if_pos h1, if_neg hd]
  · intro i hi t ht c hc
    simp only [laxRev]
    rw [blocks_len hw.jac, range_add_two]
    simp only [List.map_cons, List.map_map]
    congr 1
    simp only [List.cons.injEq]
    refine ⟨by simp, by simp, ?_⟩
    apply List.map_congr_left
    intro a _
    simp only [Function.comp_def, blocks_getD hw.jac, List.getD_cons_succ]
    by_cases hd : a ∈ dims <;> simp [hd]

/-! ### Slices -/

theorem sliceRole_at {j : SJac K} (hv : j.Valid) {o : OwnerRole} (ho : o ∈ j.roles) {start limit stride i σi : List ℕ}
    (hlim : ∀ a < j.out.length, limit.getD a 0 ≤ j.out.getD a 0)
    (hi : ∀ a < j.out.length, i.getD a 0 < sliceLen (start.getD a 0) (limit.getD a 0) (stride.getD a 1))
    (hσ : ∀ a < j.out.length, σi.getD a 0 = start.getD a 0 + i.getD a 0 * stride.getD a 1) :
    (sliceRole start limit stride o).at i = o.at σi := by
  unfold sliceRole
  cases ha : o.axis with
  | none => simp [OwnerRole.at, ha]
  | some a =>
    obtain ⟨h1, h2⟩ := hv.dims o ho a ha
    have hmin : min (limit.getD a 0) o.values.length = limit.getD a 0 := by rw [h2]; exact min_eq_left (hlim a h1)
    have hia := hi a h1
    simp only
    rw [mkRole_at_some]
    · simp only [OwnerRole.at, ha, pySlice, hmin]
      rw [getD_map_range, if_pos hia, hσ a h1]
    · intro hl
      simp only [pySlice, hmin, List.length_map, List.length_range] at hl
      omega

theorem sliceRole_reshapable {o : OwnerRole} (h : o.reshapable = true) (start limit stride : List ℕ) :
    (sliceRole start limit stride o).reshapable = true := by
  unfold sliceRole
  cases ha : o.axis with
  | none => exact h
  | some a => exact mkRole_some_reshapable _ _

theorem sliceBlocks {j : SJac K} (hv : j.Valid) (start limit stride : List ℕ) :
    (laxSlice j.blocks (0 :: 0 :: start) (j.blocks.shape.take 2 ++ limit) (1 :: 1 :: stride)).shape.drop 2 =
      ((List.range j.out.length).map fun a => sliceLen (start.getD a 0) (limit.getD a 0) (stride.getD a 1)) ∧
    ∀ t c i, (laxSlice j.blocks (0 :: 0 :: start) (j.blocks.shape.take 2 ++ limit) (1 :: 1 :: stride)).get (t :: c :: i) =
      j.blocks.get (t :: c :: (List.range j.out.length).map fun a => start.getD a 0 + i.getD a 0 * stride.getD a 1) := by
  simp only [laxSlice]
  rw [blocks_len hv, range_add_two, hv.shape]
  simp [List.map_map, Function.comp_def]

theorem handleSlice_expands {start limit stride : List ℕ} {s v : SLap K} {D : DLap K} (hw : s.WF) (hD : s.expand = some D)
    (hlim : ∀ a < D.x.shape.length, limit.getD a 0 ≤ D.x.shape.getD a 0) (h : handleSlice start limit stride s = some v) :
    v.ExpandsTo (linear (laxSlice · start limit stride) D) := by
  unfold handleSlice at h
  simp only [Option.bind_eq_bind, Option.pure_def, Option.bind_eq_some_iff, Option.some.injEq] at h
  obtain ⟨j, hj, rfl⟩ := h
  have hr := (expand_some hD).2
  have hxs : D.x.shape = s.jac.out := by rw [(expand_some hD).1]; exact hw.x
  rw [hxs] at hlim
  obtain ⟨b1, b2⟩ := sliceBlocks hw.jac start limit stride
  refine reindex_expands (p := (laxSlice · start limit stride)) (q := (laxSlice · start limit stride))
    (sh := (List.range s.jac.out.length).map fun a => sliceLen (start.getD a 0) (limit.getD a 0) (stride.getD a 1))
    (σ := fun i => (List.range s.jac.out.length).map fun a => start.getD a 0 + i.getD a 0 * stride.getD a 1)
    hw hD ?_ ?_ hj b1 ?_ ?_ ?_
  · simp [laxSlice, hw.x]
  · intro A hA; exact ⟨by simp [laxSlice, hA], fun i _ => by simp [laxSlice, hA]⟩
  · intro o ho
    obtain ⟨o', ho', rfl⟩ := List.mem_map.mp ho
    exact sliceRole_reshapable (hr o' ho') _ _ _
  · intro i hi k
    apply roles_map_at
    intro o ho
    apply sliceRole_at hw.jac ho hlim
    · intro a ha
      have := hi.2 a (by simpa using ha)
      rwa [getD_map_range, if_pos ha] at this
    · intro a ha
      rw [getD_map_range, if_pos ha]
  · intro i hi t ht c hc
    exact b2 t c i

theorem splitSJ_some {axis : ℕ} {j : SJac K} {sizes : List ℕ} {start : ℕ} {js : List (SJac K)} (h : splitSJ axis j start sizes = some js) :
    js.length = sizes.length ∧ ∀ k (hk : k < sizes.length), ∃ p, js[k]? = some p ∧
      sliceSJ ((List.replicate j.out.length 0).set axis (start + (sizes.take k).sum))
        (j.out.set axis (start + (sizes.take k).sum + sizes[k])) (List.replicate j.out.length 1) j = some p := by
  induction sizes generalizing start js with
  | nil => simp only [splitSJ, Option.some.injEq] at h; subst h; exact ⟨rfl, fun k hk => by simp at hk⟩
  | cons n ns ih =>
    simp only [splitSJ, Option.bind_eq_bind, Option.pure_def, Option.bind_eq_some_iff, Option.some.injEq] at h
    obtain ⟨p, hp, rest, hrest, rfl⟩ := h
    obtain ⟨h1, h2⟩ := ih hrest
    refine ⟨by simp [h1], fun k hk => ?_⟩
    cases k with
    | zero => exact ⟨p, rfl, by simpa using hp⟩
    | succ k =>
      obtain ⟨q, hq, hs⟩ := h2 k (by simpa using hk)
      refine ⟨q, by simpa using hq, ?_⟩
      simpa [Nat.add_assoc] using hs

theorem laxSplit_get (A : Arr K) (axis : ℕ) (sizes : List ℕ) (start : ℕ) : (laxSplit A axis start sizes).length = sizes.length ∧
    ∀ k (hk : k < sizes.length), (laxSplit A axis start sizes)[k]? = some ⟨A.shape.set axis sizes[k], fun i =>
      A.get (i.set axis (start + (sizes.take k).sum + i.getD axis 0))⟩ := by
  induction sizes generalizing start with
  | nil => exact ⟨rfl, fun k hk => by simp at hk⟩
  | cons n ns ih =>
    obtain ⟨h1, h2⟩ := ih (start + n)
    refine ⟨by simp [laxSplit, h1], fun k hk => ?_⟩
    cases k with
    | zero => simp [laxSplit]
    | succ k =>
      simp only [laxSplit, List.getElem?_cons_succ]
      rw [h2 k (by simpa using hk)]
      simp [Nat.add_assoc]

theorem getD_set (l : List ℕ) (a b v : ℕ) : (l.set a v).getD b 0 = if a = b ∧ b < l.length then v else l.getD b 0 := by
  by_cases h : b < l.length
  · rw [List.getD_eq_getElem _ _ (by simpa using h), List.getElem_set, List.getD_eq_getElem _ _ h]
    by_cases hab : a = b <;> simp [hab, h]
  · rw [List.getD_eq_default _ _ (by simpa using Nat.le_of_not_lt h), List.getD_eq_default _ _ (Nat.le_of_not_lt h), if_neg fun hc => h hc.2]

theorem handleSplit_expands {axis : ℕ} {sizes : List ℕ} {s : SLap K} {vs : List (SLap K)} {D : DLap K} (hw : s.WF) (hD : s.expand = some D)
    (hax : axis < D.x.shape.length) (hsum : sizes.sum = D.x.shape.getD axis 0) (h : handleSplit axis sizes s = some vs) :
    vs.length = sizes.length ∧ ∀ k < sizes.length, ∃ v, vs[k]? = some v ∧ v.ExpandsTo (linear (splitPart axis sizes k) D) := by
  unfold handleSplit at h
  simp only [Option.bind_eq_bind, Option.pure_def, Option.bind_eq_some_iff, Option.some.injEq] at h
  obtain ⟨js, hjs, rfl⟩ := h
  have hr := (expand_some hD).2
  have hxs : D.x.shape = s.jac.out := by rw [(expand_some hD).1]; exact hw.x
  rw [hxs] at hsum hax
  obtain ⟨j1, j2⟩ := splitSJ_some hjs
  have lx := laxSplit_get s.x axis sizes 0
  have ll := laxSplit_get s.lap axis sizes 0
  refine ⟨by simp [lx.1, ll.1, j1], fun k hk => ?_⟩
  obtain ⟨j, hjk, hj⟩ := j2 k hk
  simp only [Nat.zero_add] at hj
  have part : ∀ A : Arr K, splitPart axis sizes k A = ⟨A.shape.set axis sizes[k], fun i => A.get (i.set axis ((sizes.take k).sum + i.getD axis 0))⟩ := by
    intro A
    unfold splitPart
    rw [(laxSplit_get A axis sizes 0).2 k hk]
    simp
  refine ⟨⟨splitPart axis sizes k s.x, j, splitPart axis sizes k s.lap⟩, ?_, ?_⟩
  · have z1 := (List.getElem?_zip_eq_some (l₁ := js) (l₂ := laxSplit s.lap axis 0 sizes) (i := k) (z := (j, _))).mpr ⟨hjk, ll.2 k hk⟩
    have z2 := (List.getElem?_zip_eq_some (l₁ := laxSplit s.x axis 0 sizes) (i := k) (z := (_, _))).mpr ⟨lx.2 k hk, z1⟩
    rw [List.getElem?_map, z2, part, part]
    simp
  · have htake : (sizes.take k).sum + sizes[k] ≤ sizes.sum := by
      have h1 := List.sum_take_add_sum_drop sizes k
      rw [List.drop_eq_getElem_cons hk, List.sum_cons] at h1
      omega
    set start := (List.replicate s.jac.out.length 0).set axis (sizes.take k).sum with hst
    set limit := s.jac.out.set axis ((sizes.take k).sum + sizes[k]) with hli
    set stride := List.replicate s.jac.out.length 1 with hsr
    obtain ⟨b1, b2⟩ := sliceBlocks hw.jac start limit stride
    have gst : ∀ a < s.jac.out.length, start.getD a 0 = if axis = a then (sizes.take k).sum else 0 := by
      intro a ha
      rw [hst, getD_set]
      by_cases hc : axis = a <;> simp [hc, ha]
    have gli : ∀ a < s.jac.out.length, limit.getD a 0 = if axis = a then (sizes.take k).sum + sizes[k] else s.jac.out.getD a 0 := by
      intro a ha
      rw [hli, getD_set]
      by_cases hc : axis = a <;> simp [hc, ha]
    have gsr : ∀ a < s.jac.out.length, stride.getD a 1 = 1 := by
      intro a ha
      rw [hsr, List.getD_replicate _ ha]
    have hsl : ∀ a < s.jac.out.length, sliceLen (start.getD a 0) (limit.getD a 0) (stride.getD a 1) = (s.jac.out.set axis sizes[k]).getD a 0 := by
      intro a ha
      rw [gst a ha, gli a ha, gsr a ha, getD_set]
      unfold sliceLen
      by_cases hc : axis = a <;> simp [hc, ha]
    have hσ : ∀ i, InB (s.jac.out.set axis sizes[k]) i → ((List.range s.jac.out.length).map fun a => start.getD a 0 + i.getD a 0 * stride.getD a 1) =
        i.set axis ((sizes.take k).sum + i.getD axis 0) := by
      intro i hi
      have hil : i.length = s.jac.out.length := by simpa using hi.1
      apply list_ext_getD
      · simp [hil]
      · intro a ha
        simp only [List.length_map, List.length_range] at ha
        rw [getD_map_range, if_pos ha, gst a ha, gsr a ha, getD_set]
        by_cases hc : axis = a
        · subst hc; simp [hil, ha]
        · simp [hc]
    refine reindex_expands (p := splitPart axis sizes k) (q := splitPart axis sizes k) (sh := s.jac.out.set axis sizes[k])
      (σ := fun i => i.set axis ((sizes.take k).sum + i.getD axis 0)) hw hD ?_ ?_ hj ?_ ?_ ?_ ?_
    · rw [part, hw.x]
    · intro A hA; exact ⟨by rw [part, hA], fun i _ => by rw [part]⟩
    · rw [b1]
      apply list_ext_getD
      · simp
      · intro a ha
        simp only [List.length_map, List.length_range] at ha
        rw [getD_map_range, if_pos ha, hsl a ha]
    · intro o ho
      obtain ⟨o', ho', rfl⟩ := List.mem_map.mp ho
      exact sliceRole_reshapable (hr o' ho') _ _ _
    · intro i hi m
      apply roles_map_at
      intro o ho
      apply sliceRole_at hw.jac ho
      · intro a ha
        rw [gli a ha]
        split
        · rename_i hc; subst hc; omega
        · exact le_refl _
      · intro a ha
        rw [hsl a ha]
        exact hi.2 a (by simpa using ha)
      · intro a ha
        rw [← hσ i hi, getD_map_range, if_pos ha]
    · intro i hi t ht c hc
      rw [b2 t c i, hσ i hi]

/-! ### Broadcast in dimensions -/

theorem handleBroadcastInDim_expands {shape bdims : List ℕ} {s v : SLap K} {D : DLap K} (hw : s.WF) (hD : s.expand = some D)
    (hlen : bdims.length = D.x.shape.length) (h : handleBroadcastInDim shape bdims s = some v) :
    v.ExpandsTo (linear (laxBroadcastInDim · shape bdims) D) := by
  unfold handleBroadcastInDim at h
  simp only [Option.bind_eq_bind, Option.pure_def, Option.bind_eq_some_iff, Option.some.injEq] at h
  obtain ⟨j, hj, rfl⟩ := h
  have hr := (expand_some hD).2
  have hxs : D.x.shape = s.jac.out := by rw [(expand_some hD).1]; exact hw.x
  rw [hxs] at hlen
  refine reindex_expands (p := (laxBroadcastInDim · shape bdims)) (q := (laxBroadcastInDim · shape bdims)) (sh := shape)
    (σ := fun i => (List.range s.jac.out.length).map fun a => if s.jac.out.getD a 0 = 1 then 0 else i.getD (bdims.getD a 0) 0)
    hw hD rfl ?_ hj ?_ ?_ ?_ ?_
  · intro A hA; exact ⟨rfl, fun i _ => by simp [laxBroadcastInDim, hA]⟩
  · simp only [laxBroadcastInDim]
    rw [hw.jac.shape]; rfl
  · intro o ho
    obtain ⟨o', ho', rfl⟩ := List.mem_map.mp ho
    exact mapAxis_reshapable (hr o' ho')
  · intro i hi k
    apply roles_map_at
    intro o ho
    apply mapAxis_at (j := s.jac)
    intro a ha
    obtain ⟨h1, h2⟩ := hw.jac.dims o ho a ha
    rw [getD_map_range, if_pos h1, if_neg (by rw [← h2]; exact axis_len_ne ha)]
  · intro i hi t ht c hc
    simp only [laxBroadcastInDim]
    rw [blocks_len hw.jac, range_add_two]
    simp only [List.map_cons, List.map_map]
    have e0 : s.jac.blocks.shape.getD 0 0 = s.jac.roles.length := by rw [hw.jac.shape]; rfl
    have e1 : s.jac.blocks.shape.getD 1 0 = s.jac.coords := by rw [hw.jac.shape]; rfl
    rw [e0, e1]
    congr 1
    simp only [List.cons.injEq]
    refine ⟨?_, ?_, ?_⟩
    · split
      · omega
      · rfl
    · split
      · omega
      · rfl
    · apply List.map_congr_left
      intro a ha
      simp only [Function.comp_def, blocks_getD hw.jac, List.getD_cons_succ]
      have : (bdims.map (· + 2)).getD a 0 = bdims.getD a 0 + 2 := by
        rw [List.getD_eq_getElem _ _ (by simp [hlen]; simpa using ha), List.getD_eq_getElem _ _ (by rw [hlen]; simpa using ha), List.getElem_map]
      rw [this]
      rfl

end Jaqmc.Sparse
