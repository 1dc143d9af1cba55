import Verif.Lemmas.SparseRow
/-! The shared sparse operations (C45): broadcasting, scaling, traces. -/
namespace Jaqmc.Sparse

theorem Arr.Same.refl {K : Type} (A : Arr K) : A.Same A := ⟨rfl, fun _ _ => rfl⟩
theorem Arr.Same.symm {K : Type} {A B : Arr K} (h : A.Same B) : B.Same A := ⟨h.1.symm, fun i hi => (h.2 i (h.1 ▸ hi)).symm⟩
theorem Arr.Same.trans {K : Type} {A B C : Arr K} (h : A.Same B) (g : B.Same C) : A.Same C :=
  ⟨h.1.trans g.1, fun i hi => (h.2 i hi).trans (g.2 i (h.1 ▸ hi))⟩
theorem DLap.Same.refl {K : Type} (A : DLap K) : A.Same A := ⟨.refl _, rfl, fun _ _ => .refl _, .refl _⟩
theorem DLap.Same.trans {K : Type} {A B C : DLap K} (h : A.Same B) (g : B.Same C) : A.Same C :=
  ⟨h.1.trans g.1, h.2.1.trans g.2.1, fun r hr => (h.2.2.1 r hr).trans (g.2.2.1 r (h.2.1 ▸ hr)), h.2.2.2.trans g.2.2.2⟩
theorem DLap.Same.symm {K : Type} {A B : DLap K} (h : A.Same B) : B.Same A :=
  ⟨h.1.symm, h.2.1.symm, fun r hr => (h.2.2.1 r (h.2.1 ▸ hr)).symm, h.2.2.2.symm⟩

section
variable {K L M : Type}

theorem binop_same_shape (f : K → L → M) {A : Arr K} {B : Arr L} {sh : List ℕ} (hA : A.shape = sh) (hB : B.shape = sh) :
    (binop f A B).shape = sh := by simp [binop, hA, hB, bshape_self]

theorem binop_same_get (f : K → L → M) {A : Arr K} {B : Arr L} {sh i : List ℕ} (hA : A.shape = sh) (hB : B.shape = sh)
    (hi : InB sh i) : (binop f A B).get i = f (A.get i) (B.get i) := by
  simp [binop, hA, hB, bsrc_self hi]

theorem map_get (f : K → L) (A : Arr K) (i : List ℕ) : (A.map f).get i = f (A.get i) := rfl
theorem map_shape (f : K → L) (A : Arr K) : (A.map f).shape = A.shape := rfl
theorem bcast_get (A : Arr K) (sh i : List ℕ) : (A.bcast sh).get i = A.get (bsrc A.shape i) := rfl
theorem bcast_shape (A : Arr K) (sh : List ℕ) : (A.bcast sh).shape = sh := rfl
theorem full_get (sh i : List ℕ) (k : K) : (fullA sh k).get i = k := rfl

end

theorem range_add_two (n : ℕ) : List.range (n + 2) = 0 :: 1 :: (List.range n).map (· + 2) := by
  rw [List.range_succ_eq_map, List.range_succ_eq_map]; simp

theorem bsrc_pair {S C s c : ℕ} {sh i : List ℕ} (hs : s < S) (hc : c < C) (hi : InB sh i) :
    bsrc (S :: C :: sh) (s :: c :: i) = s :: c :: i :=
  bsrc_self (inB_cons.mpr ⟨hs, inB_cons.mpr ⟨hc, hi⟩⟩)

theorem bsrc_ones {s c : ℕ} {sh i : List ℕ} (hi : InB sh i) : bsrc (1 :: 1 :: sh) (s :: c :: i) = 0 :: 0 :: i := by
  have h := bsrc_self hi
  unfold bsrc at h ⊢
  simp only [List.length_cons]
  rw [range_add_two]
  simp only [List.map_cons, List.getD_cons_zero, List.map_map, Function.comp_def, if_true, List.getD_cons_succ]
  rw [show (fun x => if sh.getD x 0 = 1 then 0 else (s :: c :: i).getD (x + 2 + (i.length + 1 + 1 - (sh.length + 1 + 1))) 0) =
    fun x => if sh.getD x 0 = 1 then 0 else i.getD (x + (i.length - sh.length)) 0 from ?_, h]
  funext x
  have : x + 2 + (i.length + 1 + 1 - (sh.length + 1 + 1)) = x + (i.length - sh.length) + 2 := by omega
  rw [this]
  simp

theorem bshapeRev_append (x s t : List ℕ) : bshapeRev (x ++ s) (x ++ t) = x ++ bshapeRev s t := by
  induction x with
  | nil => rfl
  | cons a x ih => simp [bshapeRev, ih]

theorem bshape_ones (S C : ℕ) (sh : List ℕ) : bshape (S :: C :: sh) (1 :: 1 :: sh) = S :: C :: sh := by
  unfold bshape
  simp only [List.reverse_cons, List.append_assoc]
  rw [bshapeRev_append]
  simp [bshapeRev]
  exact ⟨fun h => h.symm, fun h => h.symm⟩

theorem bshape_ones' (S C : ℕ) (sh : List ℕ) : bshape (1 :: 1 :: sh) (S :: C :: sh) = S :: C :: sh := by
  unfold bshape
  simp only [List.reverse_cons, List.append_assoc]
  rw [bshapeRev_append]
  simp [bshapeRev]

variable {K : Type}

section
variable [Field K]

theorem expand_some {s : SLap K} {D : DLap K} (h : s.expand = some D) :
    D = ⟨s.x, s.jac.inShape.prod, s.jac.row, s.lap⟩ ∧ ∀ o ∈ s.jac.roles, o.reshapable = true := by
  unfold SLap.expand at h
  cases ht : s.jac.toDense with
  | none => rw [ht] at h; cases h
  | some J =>
    rw [ht] at h
    obtain ⟨rfl, h2⟩ := toDense_some ht
    exact ⟨(Option.some.inj h).symm, h2⟩

theorem expandsTo_intro {v : SLap K} {E : DLap K} (hw : v.WF) (hr : ∀ o ∈ v.jac.roles, o.reshapable = true)
    (hn : v.jac.inShape.prod = E.n) (hx : v.x.Same E.x) (hj : ∀ r < E.n, (v.jac.row r).Same (E.jac r)) (hl : v.lap.Same E.lap) :
    v.ExpandsTo E := by
  refine ⟨hw, ⟨v.x, v.jac.inShape.prod, v.jac.row, v.lap⟩, ?_, hx, hn, ?_, hl⟩
  · unfold SLap.expand
    rw [toDense_eq hr]; rfl
  · intro r hr; exact hj r (hn ▸ hr)

theorem SLap.ExpandsTo.congr {v : SLap K} {E F : DLap K} (h : v.ExpandsTo E) (g : E.Same F) : v.ExpandsTo F := by
  obtain ⟨hw, D, h1, h2⟩ := h
  exact ⟨hw, D, h1, h2.trans g⟩

end

/-! ### Broadcasting -/

theorem mkRole_reshapable {ax : Option ℕ} {vs : List ℕ} (h : (ax.isSome ∧ vs.length ≠ 1) ∨ vs ≠ []) : (mkRole ax vs).reshapable = true := by
  unfold OwnerRole.reshapable mkRole
  rcases h with ⟨h, h1⟩ | h
  · simp [h, h1]
  · simp [h]

theorem mapAxis_reshapable {o : OwnerRole} {f : ℕ → ℕ} (h : o.reshapable = true) : (o.mapAxis f).reshapable = true := by
  unfold OwnerRole.mapAxis
  cases ha : o.axis with
  | none => simpa
  | some a =>
    apply mkRole_reshapable
    left
    exact ⟨rfl, fun h1 => by have := o.canon h1; rw [ha] at this; cases this⟩

theorem axis_len_ne {o : OwnerRole} {a : ℕ} (ha : o.axis = some a) : o.values.length ≠ 1 := fun h1 => by
  have := o.canon h1; rw [ha] at this; cases this

theorem bcRole_at {j : SJac K} (hv : j.Valid) {o : OwnerRole} (ho : o ∈ j.roles) {sh i : List ℕ} (hi : i.length = sh.length) :
    (o.mapAxis (· + (sh.length - j.out.length))).at i = o.at (bsrc j.out i) := by
  unfold OwnerRole.mapAxis
  cases ha : o.axis with
  | none => simp [OwnerRole.at, ha]
  | some a =>
    obtain ⟨h1, h2⟩ := hv.dims o ho a ha
    have h3 := axis_len_ne ha
    simp only
    rw [mkRole_at_some _ _ _ fun h => absurd h h3]
    simp only [OwnerRole.at, ha, bsrc, getD_map_range, if_pos h1]
    rw [if_neg (by rw [← h2]; exact h3), hi]

theorem bcBlocks_get {j : SJac K} (hv : j.Valid) {sh i : List ℕ} (hi : i.length = sh.length) {s c : ℕ} (hs : s < j.roles.length)
    (hc : c < j.coords) :
    (laxBroadcastInDim j.blocks (j.blocks.shape.take 2 ++ sh)
      (0 :: 1 :: (List.range j.out.length).map fun a => a + (sh.length - j.out.length) + 2)).get (s :: c :: i) =
    j.blocks.get (s :: c :: bsrc j.out i) := by
  unfold laxBroadcastInDim
  simp only
  congr 1
  rw [hv.shape]
  simp only [List.length_cons]
  rw [range_add_two]
  simp only [List.map_cons, List.getD_cons_zero, List.map_map, Function.comp_def, List.getD_cons_succ]
  congr 1
  · split <;> omega
  congr 1
  · split <;> omega
  unfold bsrc
  apply List.map_congr_left
  intro a ha
  have ha' := List.mem_range.mp ha
  rw [getD_map_range, if_pos ha', hi]
  simp

theorem broadcastSJ_some {j j' : SJac K} (hv : j.Valid) {sh : List ℕ} (h : broadcastSJ j sh = some j') :
    j'.Valid ∧ j'.out = sh ∧ j'.inShape = j.inShape ∧ j'.ownAx = j.ownAx ∧ j'.roles.length = j.roles.length ∧
    ((∀ o ∈ j.roles, o.reshapable = true) → ∀ o ∈ j'.roles, o.reshapable = true) ∧
    (∀ i, InB sh i → ∀ s, s < j.roles.length → ∀ c, c < j.coords → j'.blocks.get (s :: c :: i) = j.blocks.get (s :: c :: bsrc j.out i)) ∧
    (∀ i, InB sh i → ∀ s : ℕ, (j'.roles[s]?).map (fun o => o.at i) = (j.roles[s]?).map fun o => o.at (bsrc j.out i)) := by
  unfold broadcastSJ at h
  split at h
  · rename_i he
    have := (Option.some.inj h).symm
    subst this
    refine ⟨hv, he, rfl, rfl, rfl, fun h => h, ?_, ?_⟩
    · intro i hi s _ c _; rw [bsrc_self (he ▸ hi)]
    · intro i hi s; rw [bsrc_self (he ▸ hi)]
  · simp only at h
    obtain ⟨rfl, hv', hl⟩ := withBlocks_some h
    refine ⟨hv', ?_, rfl, rfl, by simp, ?_, ?_, ?_⟩
    · unfold SJac.out laxBroadcastInDim
      simp only
      rw [hv.shape]; rfl
    · intro hr o ho
      obtain ⟨o', ho', rfl⟩ := List.mem_map.mp ho
      exact mapAxis_reshapable (hr o' ho')
    · intro i hi s hs c hc
      exact bcBlocks_get hv hi.length hs hc
    · intro i hi s
      simp only [List.getElem?_map, Option.map_map]
      cases hs : j.roles[s]? with
      | none => rfl
      | some o =>
        simp only [Option.map_some, Function.comp]
        rw [bcRole_at hv (List.mem_of_getElem? hs) hi.length]

section
variable [Field K]

theorem sel_eq_of_at {j j' : SJac K} {s : ℕ} {i i' : List ℕ} (h : (j'.roles[s]?).map (fun o => o.at i) = (j.roles[s]?).map fun o => o.at i')
    (o : ℕ) : j'.sel s i o = j.sel s i' o := by
  unfold SJac.sel
  cases h1 : j'.roles[s]? with
  | none =>
    cases h2 : j.roles[s]? with
    | none => rfl
    | some b => rw [h1, h2] at h; cases h
  | some a =>
    cases h2 : j.roles[s]? with
    | none => rw [h1, h2] at h; cases h
    | some b =>
      rw [h1, h2] at h
      simp only [Option.map_some, Option.some.injEq] at h
      simp only [h]

/-- Two Jacobians over the same inputs whose owners agree and whose blocks are related by `φ` at corresponding entries. -/
theorem row_rel {j j' : SJac K} (hn : j'.roles.length = j.roles.length) (hsh : j'.inShape = j.inShape) (hax : j'.ownAx = j.ownAx)
    {i i' : List ℕ} {φ : K}
    (hat : ∀ s : ℕ, (j'.roles[s]?).map (fun o => o.at i) = (j.roles[s]?).map fun o => o.at i')
    (hb : ∀ s, s < j.roles.length → ∀ c, c < j.coords → j'.blocks.get (s :: c :: i) = φ * j.blocks.get (s :: c :: i'))
    {r : ℕ} (hr : r < j.inShape.prod) : (j'.row r).get i = φ * (j.row r).get i' := by
  rw [row_get, row_get, hn, hsh, hax, Finset.mul_sum]
  refine Finset.sum_congr rfl fun s hs => ?_
  rw [sel_eq_of_at (hat s), hb s (Finset.mem_range.mp hs) _ (rowCoord_lt hr)]
  ring

theorem broadcastSJ_row {j j' : SJac K} (hv : j.Valid) {sh : List ℕ} (h : broadcastSJ j sh = some j') {i : List ℕ} (hi : InB sh i)
    {r : ℕ} (hr : r < j.inShape.prod) : (j'.row r).get i = (j.row r).get (bsrc j.out i) := by
  obtain ⟨_, _, h3, h4, h5, _, h7, h8⟩ := broadcastSJ_some hv h
  have := row_rel (φ := 1) h5 h3 h4 (h8 i hi) (fun s hs c hc => by rw [h7 i hi s hs c hc, one_mul]) hr
  rwa [one_mul] at this

theorem broadcastSL_some {s t : SLap K} (hw : s.WF) {sh : List ℕ} (h : broadcastSL s sh = some t) :
    t.WF ∧ t.jac.out = sh ∧ t.x = s.x.bcast sh ∧ t.lap = s.lap.bcast sh ∧ broadcastSJ s.jac sh = some t.jac := by
  unfold broadcastSL at h
  cases hj : broadcastSJ s.jac sh with
  | none => rw [hj] at h; cases h
  | some j =>
    rw [hj] at h
    have := (Option.some.inj h).symm
    subst this
    obtain ⟨h1, h2, _⟩ := broadcastSJ_some hw.jac hj
    exact ⟨⟨h1, by simp [bcast_shape, h2], by simp [bcast_shape, h2]⟩, h2, rfl, rfl, rfl⟩

/-! ### Scaling -/

/-- Scaling by a factor of the shape of the output, or by a scalar. -/
theorem scaleSJ_some {j j' : SJac K} (hv : j.Valid) {f : Arr K} (hf : f.shape = j.out ∨ f.shape = []) (h : scaleSJ j f = some j') :
    j'.Valid ∧ j'.out = j.out ∧ j'.inShape = j.inShape ∧ j'.ownAx = j.ownAx ∧ j'.roles = j.roles ∧ j'.blocks.shape = j.blocks.shape ∧
    (∀ i, InB j.out i → ∀ s, s < j.roles.length → ∀ c, c < j.coords →
      j'.blocks.get (s :: c :: i) = f.get (bsrc f.shape i) * j.blocks.get (s :: c :: i)) := by
  unfold scaleSJ at h
  simp only at h
  have hsh : bshape j.out f.shape = j.out := by
    rcases hf with hf | hf
    · rw [hf, bshape_self]
    · rw [hf, bshape_nil]
  rw [hsh, if_pos rfl] at h
  obtain ⟨rfl, hv', hl⟩ := withBlocks_some h
  have hbs : bshape j.blocks.shape (1 :: 1 :: j.out) = j.blocks.shape := by
    rw [hv.shape, bshape_ones]
  refine ⟨hv', ?_, rfl, rfl, rfl, ?_, ?_⟩
  · unfold SJac.out binop laxReshape
    simp only
    exact congrArg (List.drop 2) hbs
  · exact hbs
  · intro i hi s hs c hc
    unfold binop laxReshape
    simp only
    rw [hv.shape, bsrc_pair hs hc hi, bsrc_ones hi, ravel_one_one]
    simp only [Arr.bcast]
    rw [unravel_ravel hi, mul_comm]

theorem scaleSJ_row {j j' : SJac K} (hv : j.Valid) {f : Arr K} (hf : f.shape = j.out ∨ f.shape = []) (h : scaleSJ j f = some j')
    {i : List ℕ} (hi : InB j.out i) {r : ℕ} (hr : r < j.inShape.prod) :
    (j'.row r).get i = f.get (bsrc f.shape i) * (j.row r).get i := by
  obtain ⟨_, _, h3, h4, h5, _, h7⟩ := scaleSJ_some hv hf h
  exact row_rel (by rw [h5]) h3 h4 (fun s => by rw [h5]) (fun s hs c hc => h7 i hi s hs c hc) hr

/-! ### Traces -/

theorem sparseTrace_some {j : SJac K} (hv : j.Valid) {cj : K → K} (hadd : ∀ u v, cj (u + v) = cj u + cj v) (h0 : cj 0 = 0)
    {T : Arr K} (hr : ∀ o ∈ j.roles, o.reshapable = true) (h : sparseTrace cj j = some T) :
    T.shape = j.out ∧ ∀ i, InB j.out i → ∑ r ∈ Finset.range j.inShape.prod, (j.row r).get i * cj ((j.row r).get i) =
      T.get i + (match j.roles with
        | [a, b] => if a.at i = b.at i then
            ∑ c ∈ Finset.range j.coords, (j.blocks.get (1 :: c :: i) * cj (j.blocks.get (0 :: c :: i)) -
              j.blocks.get (0 :: c :: i) * cj (j.blocks.get (1 :: c :: i))) else 0
        | _ => 0) := by
  unfold sparseTrace at h
  simp only at h
  split at h
  · rename_i a hroles
    have := (Option.some.inj h).symm
    subst this
    refine ⟨rfl, fun i hi => ?_⟩
    rw [sum_row_mul rfl rfl hv.axis cj hadd h0 fun o ho => at_lt hv ho (hr o ho) hi]
    simp [hroles]
  · rename_i a b hroles
    split at h
    · have := (Option.some.inj h).symm
      subst this
      refine ⟨rfl, fun i hi => ?_⟩
      rw [sum_row_mul rfl rfl hv.axis cj hadd h0 fun o ho => at_lt hv ho (hr o ho) hi]
      simp only [hroles, List.length_cons, List.length_nil, Finset.sum_range_succ, Finset.sum_range_zero]
      by_cases hab : a.at i = b.at i
      · simp [hab, Finset.sum_add_distrib, Finset.sum_sub_distrib, Finset.sum_range_succ]
        ring
      · simp [hab, Ne.symm hab, Finset.sum_range_succ]
    · cases h
  · cases h

/-- `tr(J Jᵀ)`. -/
theorem sparseTrace_id {j : SJac K} (hv : j.Valid) {T : Arr K} (hr : ∀ o ∈ j.roles, o.reshapable = true)
    (h : sparseTrace id j = some T) :
    T.shape = j.out ∧ ∀ i, InB j.out i → T.get i = ∑ r ∈ Finset.range j.inShape.prod, (j.row r).get i * (j.row r).get i := by
  obtain ⟨h1, h2⟩ := sparseTrace_some hv (cj := id) (fun _ _ => rfl) rfl hr h
  refine ⟨h1, fun i hi => ?_⟩
  have := h2 i hi
  simp only [id] at this
  rw [this]
  split
  · split
    · simp [mul_comm]
    · simp
  · simp

end
end Jaqmc.Sparse
