import Verif.Lemmas.SparseSelect
import Verif.Lemmas.SparseDiv
/-! `concatenate` (C45). -/
namespace Jaqmc.Sparse
open Spec

/-- Segment and offset of position `k`. -/
def locate : List ℕ → ℕ → Option (ℕ × ℕ)
  | [], _ => none
  | n :: ns, k => if k < n then some (0, k) else (locate ns (k - n)).map fun p => (p.1 + 1, p.2)

theorem locate_some {sizes : List ℕ} {k : ℕ} (h : k < sizes.sum) : ∃ m k', locate sizes k = some (m, k') ∧ m < sizes.length ∧ k' < sizes.getD m 0 := by
  induction sizes generalizing k with
  | nil => simp at h
  | cons n ns ih =>
    unfold locate
    by_cases hk : k < n
    · exact ⟨0, k, by rw [if_pos hk], by simp, by simpa using hk⟩
    · obtain ⟨m, k', h1, h2, h3⟩ := ih (k := k - n) (by rw [List.sum_cons] at h; omega)
      exact ⟨m + 1, k', by rw [if_neg hk, h1]; rfl, by simpa using h2, by simpa using h3⟩

theorem concatGet_locate {K : Type} [Zero K] {axis : ℕ} (As : List (Arr K)) : ∀ {i : List ℕ} {m k' : ℕ}, axis < i.length →
    locate (As.map fun A => A.shape.getD axis 0) (i.getD axis 0) = some (m, k') →
    ∃ A, As[m]? = some A ∧ concatGet axis As i = A.get (i.set axis k') := by
  induction As with
  | nil => intro i m k' _ h; simp [locate] at h
  | cons A As ih =>
    intro i m k' hi h
    rw [List.map_cons, locate] at h
    unfold concatGet
    by_cases hk : i.getD axis 0 < A.shape.getD axis 0
    · rw [if_pos hk] at h ⊢
      obtain ⟨rfl, rfl⟩ := Prod.mk.injEq .. ▸ Option.some.inj h
      refine ⟨A, rfl, ?_⟩
      congr 1
      apply list_ext_getD (by simp)
      intro a ha
      rw [getD_set]
      split
      · rename_i h'; rw [h'.1]
      · rfl
    · rw [if_neg hk] at h ⊢
      obtain ⟨⟨m', k''⟩, h1, h2⟩ := Option.map_eq_some_iff.mp h
      obtain ⟨rfl, rfl⟩ := Prod.mk.injEq .. ▸ h2
      obtain ⟨B, hB, he⟩ := ih (i := i.set axis (i.getD axis 0 - A.shape.getD axis 0)) (m := m') (k' := k'') (by simpa using hi)
        (by rw [getD_set, if_pos ⟨rfl, hi⟩]; exact h1)
      refine ⟨B, by simpa using hB, ?_⟩
      rw [he, List.set_set]

theorem flatten_getD {sizes : List ℕ} : ∀ {parts : List (List ℕ)} {k m k' : ℕ}, parts.length = sizes.length →
    (∀ m : ℕ, ∀ p, parts[m]? = some p → p.length = sizes.getD m 0) → locate sizes k = some (m, k') →
    ∃ p, parts[m]? = some p ∧ parts.flatten.getD k 0 = p.getD k' 0 ∧ k' < p.length ∧ k < parts.flatten.length := by
  induction sizes with
  | nil => intro parts k m k' _ _ h; simp [locate] at h
  | cons n ns ih =>
    intro parts k m k' hl hp h
    cases parts with
    | nil => simp at hl
    | cons p ps =>
      have h0 := hp 0 p rfl
      simp only [List.getD_cons_zero] at h0
      unfold locate at h
      by_cases hk : k < n
      · rw [if_pos hk] at h
        obtain ⟨rfl, rfl⟩ := Prod.mk.injEq .. ▸ Option.some.inj h
        refine ⟨p, rfl, ?_, by omega, ?_⟩
        · rw [List.flatten_cons, List.getD_append _ _ _ _ (by omega)]
        · rw [List.flatten_cons, List.length_append]; omega
      · rw [if_neg hk] at h
        obtain ⟨⟨m', k''⟩, h1, h2⟩ := Option.map_eq_some_iff.mp h
        obtain ⟨rfl, rfl⟩ := Prod.mk.injEq .. ▸ h2
        obtain ⟨q, e1, e2, e3, e4⟩ := ih (parts := ps) (by simpa using hl) (fun m p hm => by simpa using hp (m + 1) p (by simpa using hm)) h1
        refine ⟨q, by simpa using e1, ?_, e3, ?_⟩
        · rw [List.flatten_cons, List.getD_append_right _ _ _ _ (by omega), h0, e2]
        · rw [List.flatten_cons, List.length_append]; omega

/-- The concatenated role at an entry is the role of the entry's segment at its place in the segment. -/
theorem concatRole_at {axis : ℕ} {os : List OwnerRole} {sizes : List ℕ} {p : OwnerRole} (h : concatRole axis os sizes = some (some p))
    (hl : os.length = sizes.length) (hd : ∀ m : ℕ, ∀ o, os[m]? = some o → o.axis = some axis → o.values.length = sizes.getD m 0)
    {i : List ℕ} (hi : axis < i.length) {m k' : ℕ} (hm : locate sizes (i.getD axis 0) = some (m, k')) (hk : m < sizes.length) {o : OwnerRole}
    (ho : os[m]? = some o) : p.at i = o.at (i.set axis k') := by
  unfold concatRole at h
  split at h
  · simp at h
  · rename_i o₀ rest
    split at h
    · rename_i hc
      simp only [Bool.and_eq_true, List.all_eq_true, Option.isNone_iff_eq_none, beq_iff_eq] at hc
      obtain rfl := Option.some.inj (Option.some.inj h)
      have hoe : o = o₀ := by
        rcases List.mem_cons.mp (List.mem_of_getElem? ho) with h' | h'
        · exact h'
        · exact hc.2 o h'
      subst hoe
      have := hc.1 o List.mem_cons_self
      simp [OwnerRole.at, this]
    · split at h
      · rename_i hc
        simp only [List.all_eq_true, Bool.or_eq_true, Option.isNone_iff_eq_none, beq_iff_eq] at hc
        simp only [Option.bind_eq_bind, Option.pure_def, Option.bind_eq_some_iff, Option.some.injEq] at h
        obtain ⟨parts, hparts, rfl⟩ := h
        obtain ⟨q1, q2⟩ := mapM_some hparts
        have hzip : ∀ m : ℕ, m < sizes.length → ∀ o, (o₀ :: rest)[m]? = some o → ((o₀ :: rest).zip sizes)[m]? = some (o, sizes.getD m 0) := by
          intro m hm o ho
          rw [List.getElem?_zip_eq_some]
          exact ⟨ho, by rw [List.getElem?_eq_getElem hm, List.getD_eq_getElem _ _ hm]⟩
        have hplen : ∀ m : ℕ, ∀ q, parts[m]? = some q → q.length = sizes.getD m 0 := by
          intro m q hq
          have hm : m < sizes.length := by
            have := (List.getElem?_eq_some_iff.mp hq).1
            rw [q1, List.length_zip, hl] at this
            omega
          obtain ⟨o, ho⟩ : ∃ o, (o₀ :: rest)[m]? = some o := ⟨_, List.getElem?_eq_getElem (by rw [hl]; exact hm)⟩
          obtain ⟨b, hb, hf⟩ := q2 m _ (hzip m hm o ho)
          rw [hq] at hb
          obtain rfl := Option.some.inj hb
          simp only at hf
          split at hf
          · rename_i ha
            rw [← Option.some.inj hf]; exact hd m o ho ha
          · obtain ⟨v, _, rfl⟩ := Option.map_eq_some_iff.mp hf
            simp
        obtain ⟨q, e1, e2, e3, e4⟩ := flatten_getD (by rw [q1, List.length_zip, hl]; simp) hplen hm
        obtain ⟨b, hb, hf⟩ := q2 m _ (hzip m hk o ho)
        rw [e1] at hb
        obtain rfl := Option.some.inj hb
        rw [mkRole_at_some _ _ _ (fun h1 => by omega), e2]
        simp only at hf
        split at hf
        · rename_i ha
          simp only [OwnerRole.at, ha]
          rw [getD_set, if_pos ⟨rfl, hi⟩, Option.some.inj hf]
        · rename_i ha
          have hn : o.axis = none := (hc o (List.mem_of_getElem? ho)).resolve_right ha
          obtain ⟨v, hv, rfl⟩ := Option.map_eq_some_iff.mp hf
          simp only [OwnerRole.at, hn]
          rw [List.getD_eq_getElem _ _ e3, List.getElem_replicate]
          cases hvs : o.values with
          | nil => rw [hvs] at hv; cases hv
          | cons u us => rw [hvs] at hv; simpa using (Option.some.inj hv).symm
      · split at h
        · rename_i hc
          simp only [List.all_eq_true, bne_iff_ne] at hc
          split at h
          · rename_i he
            obtain rfl := Option.some.inj (Option.some.inj h)
            simp only [List.all_eq_true, beq_iff_eq] at he
            have hoe : o = o₀ := by
              rcases List.mem_cons.mp (List.mem_of_getElem? ho) with h' | h'
              · exact h'
              · exact he o h'
            subst hoe
            have hne := hc o List.mem_cons_self
            unfold OwnerRole.at
            cases ha : o.axis with
            | none => rfl
            | some a =>
              simp only
              rw [getD_set, if_neg fun h => hne (by rw [ha, h.1])]
          · simp at h
        · simp at h

theorem concatRole_reshapable {axis : ℕ} {os : List OwnerRole} {sizes : List ℕ} {p : OwnerRole} (h : concatRole axis os sizes = some (some p))
    (hr : ∀ o ∈ os, o.reshapable = true) : p.reshapable = true := by
  unfold concatRole at h
  split at h
  · simp at h
  · rename_i o₀ rest
    split at h
    · obtain rfl := Option.some.inj (Option.some.inj h)
      exact hr _ List.mem_cons_self
    · split at h
      · simp only [Option.bind_eq_bind, Option.pure_def, Option.bind_eq_some_iff, Option.some.injEq] at h
        obtain ⟨parts, _, rfl⟩ := h
        exact mkRole_some_reshapable _ _
      · split at h
        · split at h
          · obtain rfl := Option.some.inj (Option.some.inj h)
            exact hr _ List.mem_cons_self
          · simp at h
        · simp at h

theorem filterMap_getElem? {α β : Type} (f : α → Option β) (l : List α) (h : ∀ a ∈ l, (f a).isSome) (m : ℕ) :
    (l.filterMap f)[m]? = (l[m]?).bind f := by
  induction l generalizing m with
  | nil => simp
  | cons a l ih =>
    obtain ⟨b, hb⟩ := Option.isSome_iff_exists.mp (h a List.mem_cons_self)
    rw [List.filterMap_cons_some hb]
    cases m with
    | zero => simp [hb]
    | succ m => simpa using ih (fun a ha => h a (List.mem_cons_of_mem _ ha)) m

theorem filterMap_length_of_some {α β : Type} (f : α → Option β) (l : List α) (h : ∀ a ∈ l, (f a).isSome) : (l.filterMap f).length = l.length := by
  induction l with
  | nil => simp
  | cons a l ih =>
    obtain ⟨b, hb⟩ := Option.isSome_iff_exists.mp (h a List.mem_cons_self)
    rw [List.filterMap_cons_some hb, List.length_cons, List.length_cons, ih fun a ha => h a (List.mem_cons_of_mem _ ha)]

theorem concatRoles_some {axis : ℕ} {oss : List (List OwnerRole)} {sizes : List ℕ} {roles : List OwnerRole} {n : ℕ}
    (h : concatRoles axis oss sizes = some (some roles)) (hne : oss ≠ []) (hn : ∀ os ∈ oss, os.length = n) :
    roles.length = n ∧ ∀ s < n, ∃ p, roles[s]? = some p ∧ concatRole axis (oss.filterMap (·[s]?)) sizes = some (some p) := by
  unfold concatRoles at h
  have hhead : (oss.headD []).length = n := by
    cases oss with
    | nil => exact absurd rfl hne
    | cons a l => exact hn a List.mem_cons_self
  simp only [hhead] at h
  split at h
  · cases h
  · simp only [Option.bind_eq_bind, Option.pure_def, Option.bind_eq_some_iff, Option.some.injEq] at h
    obtain ⟨rs, hrs, hro⟩ := h
    obtain ⟨a1, a2⟩ := mapM_some hrs
    obtain ⟨b1, b2⟩ := mapM_some hro
    rw [List.length_range] at a1
    refine ⟨by rw [b1, a1], fun s hs => ?_⟩
    obtain ⟨r, hr, hc⟩ := a2 s s (List.getElem?_range hs)
    obtain ⟨p, hp, he⟩ := b2 s r hr
    refine ⟨p, hp, ?_⟩
    rw [hc]
    exact congrArg some he

variable {K : Type} [Field K]

theorem segs_jacs {vs : List (Val K)} : ∀ {segs : List (Arr K × Option (SJac K) × Arr K)}, vs.mapM Val.seg = some segs →
    segs.filterMap (·.2.1) = (sparsesOf vs).map (·.jac) := by
  induction vs with
  | nil => intro segs h; simp only [List.mapM_nil, Option.pure_def, Option.some.injEq] at h; subst h; rfl
  | cons v vs ih =>
    intro segs h
    obtain ⟨b, bs, hb, hbs, rfl⟩ := mapM_cons_some h
    have := ih hbs
    cases v with
    | plain p => simp only [Val.seg, Option.some.injEq] at hb; subst hb; simpa [sparsesOf] using this
    | dense d => cases hb
    | sparse s => simp only [Val.seg, Option.some.injEq] at hb; subst hb; simpa [sparsesOf] using this

theorem seg_arr {v : Val K} {g : Arr K × Option (SJac K) × Arr K} (h : v.seg = some g) : g.1 = v.arr := by
  cases v with
  | plain p => simp only [Val.seg, Option.some.injEq] at h; subst h; rfl
  | dense d => cases h
  | sparse s => simp only [Val.seg, Option.some.injEq] at h; subst h; rfl

theorem lift_x {n : ℕ} {v : Val K} {D : DLap K} (h : v.lift n = some D) : D.x = v.arr := by
  cases v with
  | plain p => rw [lift_plain h]; rfl
  | dense d =>
    unfold Val.lift at h; simp only at h; split at h
    · rw [← Option.some.inj h]; rfl
    · cases h
  | sparse s => rw [(expand_some (lift_sparse h).2).1]; rfl

theorem mapM_map_eq {α β γ : Type} {f : α → Option β} {l : List α} : ∀ {r : List β}, l.mapM f = some r → ∀ (g : β → γ) (g' : α → γ),
    (∀ a ∈ l, ∀ b, f a = some b → g b = g' a) → r.map g = l.map g' := by
  induction l with
  | nil => intro r h g g' _; simp only [List.mapM_nil, Option.pure_def, Option.some.injEq] at h; subst h; rfl
  | cons a l ih =>
    intro r h g g' hg
    obtain ⟨b, bs, hb, hbs, rfl⟩ := mapM_cons_some h
    rw [List.map_cons, List.map_cons, hg a List.mem_cons_self b hb, ih hbs g g' fun a ha b hb => hg a (List.mem_cons_of_mem _ ha) b hb]

/-- The shape of a concatenation of arrays that differ only along the axis. -/
theorem concat_shape {As : List (Arr K)} {base : List ℕ} {axis : ℕ} (hne : As ≠ []) (hs : ∀ A ∈ As, ∃ m, A.shape = base.set axis m) :
    (laxConcatenate As axis).shape = base.set axis ((As.map fun A => A.shape.getD axis 0).sum) := by
  cases As with
  | nil => exact absurd rfl hne
  | cons A As =>
    obtain ⟨m, hm⟩ := hs A List.mem_cons_self
    show (A.shape.set axis _) = _
    rw [hm, List.set_set]

theorem inB_concat {base i : List ℕ} {axis n : ℕ} (hax : axis < base.length) (hi : InB (base.set axis n) i) :
    axis < i.length ∧ i.getD axis 0 < n ∧ ∀ m k, k < m → InB (base.set axis m) (i.set axis k) := by
  have h1 : i.length = base.length := by rw [hi.length]; simp
  have h2 := hi.2 axis (by simpa using hax)
  rw [getD_set, if_pos ⟨rfl, hax⟩] at h2
  refine ⟨by omega, h2, fun m k hk => ⟨by simp [h1], fun a ha => ?_⟩⟩
  rw [List.length_set] at ha
  have h3 := hi.2 a (by simpa using ha)
  rw [getD_set] at h3 ⊢
  rw [getD_set]
  by_cases h : axis = a
  · subst h
    rw [if_pos ⟨rfl, by omega⟩, if_pos ⟨rfl, by omega⟩]; exact hk
  · rw [if_neg fun h' => h h'.1] at h3
    rw [if_neg fun h' => h h'.1, if_neg fun h' => h h'.1]; exact h3

theorem handleConcatenate_expands {axis n : ℕ} {vs : List (Val K)} {Ds : List (DLap K)} {v : Val K} {base : List ℕ}
    (hw : ∀ u ∈ vs, u.WF) (hax : axis < base.length) (hsh : ∀ u ∈ vs, ∃ m, u.arr.shape = base.set axis m) (hne : vs ≠ [])
    (hl : vs.mapM (Val.lift n) = some Ds)
    (hplain : ∀ p, Val.plain p ∈ vs → ∀ t, (sparsesOf vs).head? = some t →
      (∀ o ∈ t.jac.roles, o.axis ≠ some axis) ∨ p.shape.getD axis 0 = t.x.shape.getD axis 0)
    (h : handleConcatenate axis vs = some v) :
    v.ExpandsTo (linearN (laxConcatenate · axis) n Ds) := by
  have hDf : ∀ D ∈ Ds, D.n = n ∧ D.WF ∧ ∃ m, D.x.shape = base.set axis m := by
    intro D hD
    obtain ⟨u, hu, hf⟩ := mapM_mem hl hD
    exact ⟨lift_n hf, lift_wf (hw u hu) hf, by rw [lift_x hf]; exact hsh u hu⟩
  have hDne : Ds ≠ [] := by
    intro h0
    have := (mapM_some hl).1
    rw [h0] at this
    exact hne (List.eq_nil_of_length_eq_zero this.symm)
  -- shapes of the three parts of the dense result
  have hdx : (laxConcatenate (Ds.map (·.x)) axis).shape = base.set axis ((Ds.map fun D => D.x.shape.getD axis 0).sum) := by
    rw [concat_shape (by simpa using hDne) fun A hA => by
      obtain ⟨D, hD, rfl⟩ := List.mem_map.mp hA
      exact (hDf D hD).2.2, List.map_map]; rfl
  have hdj : ∀ r < n, (laxConcatenate (Ds.map fun D => D.jac r) axis).shape = base.set axis ((Ds.map fun D => D.x.shape.getD axis 0).sum) := by
    intro r hr
    rw [concat_shape (base := base) (by simpa using hDne) fun A hA => by
      obtain ⟨D, hD, rfl⟩ := List.mem_map.mp hA
      obtain ⟨h1, h2, h3⟩ := hDf D hD
      rw [h2.jac r (by rw [h1]; exact hr)]
      exact h3, List.map_map]
    congr 2
    apply List.map_congr_left
    intro D hD
    obtain ⟨h1, h2, h3⟩ := hDf D hD
    simp only [Function.comp]
    rw [h2.jac r (by rw [h1]; exact hr)]
  have hdl : (laxConcatenate (Ds.map (·.lap)) axis).shape = base.set axis ((Ds.map fun D => D.x.shape.getD axis 0).sum) := by
    rw [concat_shape (base := base) (by simpa using hDne) fun A hA => by
      obtain ⟨D, hD, rfl⟩ := List.mem_map.mp hA
      obtain ⟨h1, h2, h3⟩ := hDf D hD
      rw [h2.lap]
      exact h3, List.map_map]
    congr 2
    apply List.map_congr_left
    intro D hD
    obtain ⟨h1, h2, h3⟩ := hDf D hD
    simp only [Function.comp]
    rw [h2.lap]
  have hdense : ∀ v, denseLinearN (laxConcatenate · axis) vs = some v → v.ExpandsTo (linearN (laxConcatenate · axis) n Ds) := fun v h =>
    denseLinearN_expands hl ⟨fun r hr => (hdj r hr).trans hdx.symm, hdl.trans hdx.symm⟩ h
  unfold handleConcatenate at h
  simp only at h
  split at h
  · exact hdense v h
  rename_i segs hsegs
  split at h
  swap
  · exact hdense v h
  simp only [Option.bind_eq_bind, Option.pure_def, Option.bind_eq_some_iff] at h
  obtain ⟨oj, hoj, h⟩ := h
  split at h
  · exact hdense v h
  rename_i j
  obtain rfl := Option.some.inj h
  -- the template
  unfold concatSJ at hoj
  simp only [Option.bind_eq_bind, Option.pure_def, Option.bind_eq_some_iff] at hoj
  obtain ⟨t, ht, hoj⟩ := hoj
  split at hoj
  · simp at hoj
  rename_i hcomp
  simp only [Option.bind_some, Option.bind_eq_some_iff] at hoj
  obtain ⟨or, hor, hoj⟩ := hoj
  split at hoj
  · simp at hoj
  rename_i roles
  simp only [Option.bind_eq_some_iff, Option.some.injEq] at hoj
  obtain ⟨j', hj', rfl⟩ := hoj
  rw [segs_jacs hsegs] at ht hcomp
  rw [List.head?_map] at ht
  obtain ⟨s0, hs0, rfl⟩ := Option.map_eq_some_iff.mp ht
  have hs0m : Val.sparse s0 ∈ vs := by
    have := List.mem_of_mem_head? (Option.mem_def.mpr hs0)
    unfold sparsesOf at this
    obtain ⟨u, hu, he⟩ := List.mem_filterMap.mp this
    cases u with
    | plain p => cases he
    | dense d => cases he
    | sparse s => simp only [Option.some.injEq] at he; rw [← he]; exact hu
  have hw0 : s0.WF := hw _ hs0m
  obtain ⟨hn0, hr0⟩ : s0.jac.inShape.prod = n ∧ ∀ o ∈ s0.jac.roles, o.reshapable = true := by
    obtain ⟨k, hk, he⟩ := List.getElem_of_mem hs0m
    obtain ⟨D, _, hD⟩ := (mapM_some hl).2 k vs[k] (List.getElem?_eq_getElem hk)
    rw [he] at hD
    exact ⟨(lift_sparse hD).1, (expand_some (lift_sparse hD).2).2⟩
  have hsparse : ∀ s, Val.sparse s ∈ vs → s.jac.roles.length = s0.jac.roles.length ∧ s.jac.inShape = s0.jac.inShape ∧ s.jac.ownAx = s0.jac.ownAx := by
    intro s hs
    have hm : s.jac ∈ (sparsesOf vs).map (·.jac) := by
      apply List.mem_map_of_mem (f := SLap.jac)
      unfold sparsesOf
      exact List.mem_filterMap.mpr ⟨_, hs, rfl⟩
    by_contra hc
    apply hcomp
    rw [List.any_eq_true]
    refine ⟨s.jac, hm, ?_⟩
    by_contra hc'
    apply hc
    simp only [Bool.or_eq_true, bne_iff_ne, Bool.not_eq_true', compat, Bool.and_eq_false_imp, not_or, not_not, ne_eq] at hc'
    obtain ⟨c1, c2⟩ := hc'
    refine ⟨c1, ?_⟩
    by_cases hh : s.jac.inShape = s0.jac.inShape
    · refine ⟨hh, ?_⟩
      by_contra h'
      exact c2 fun _ => by simpa using h'
    · exact absurd (fun h' => absurd (by simpa using h') hh) c2
  -- per segment
  let roleOf : Arr K × Option (SJac K) × Arr K → List OwnerRole := fun g => match g.2.1 with
    | some j => j.roles
    | none => s0.jac.roles
  let blockOf : Arr K × Option (SJac K) × Arr K → Arr K := fun g => match g.2.1 with
    | some j => j.blocks
    | none => fullA (s0.jac.roles.length :: s0.jac.coords :: g.1.shape) 0
  have hseg : ∀ (m : ℕ) g, segs[m]? = some g → ∃ u D, vs[m]? = some u ∧ Ds[m]? = some D ∧ u ∈ vs ∧ u.seg = some g ∧ u.lift n = some D := by
    intro m g hg
    have hm : m < vs.length := by
      rw [← (mapM_some hsegs).1]; exact (List.getElem?_eq_some_iff.mp hg).1
    obtain ⟨g', hg', he⟩ := (mapM_some hsegs).2 m vs[m] (List.getElem?_eq_getElem hm)
    obtain ⟨D, hD, hd⟩ := (mapM_some hl).2 m vs[m] (List.getElem?_eq_getElem hm)
    rw [hg] at hg'
    obtain rfl := Option.some.inj hg'
    exact ⟨_, D, List.getElem?_eq_getElem hm, hD, List.getElem_mem hm, he, hd⟩
  have hfacts : ∀ g ∈ segs, (∃ m, g.1.shape = base.set axis m) ∧ (roleOf g).length = s0.jac.roles.length ∧
      (blockOf g).shape = s0.jac.roles.length :: s0.jac.coords :: g.1.shape ∧ g.2.2.shape = g.1.shape ∧
      (∀ o ∈ roleOf g, o.reshapable = true) ∧ (∀ o ∈ roleOf g, o.axis = some axis → o.values.length = g.1.shape.getD axis 0) := by
    intro g hg
    obtain ⟨m, hm, he⟩ := List.getElem_of_mem hg
    obtain ⟨u, D, _, _, hu, hsg, hlD⟩ := hseg m g (by rw [List.getElem?_eq_getElem hm, he])
    have hus := hsh u hu
    rw [← seg_arr hsg] at hus
    cases u with
    | dense d => cases hsg
    | plain p =>
      simp only [Val.seg, Option.some.injEq] at hsg
      subst hsg
      refine ⟨hus, rfl, rfl, rfl, hr0, fun o ho ha => ?_⟩
      have ho' : o ∈ s0.jac.roles := ho
      rcases hplain p hu s0 hs0 with h' | h'
      · exact absurd ha (h' o ho')
      · rw [(hw0.jac.dims o ho' axis ha).2, ← hw0.x]; exact h'.symm
    | sparse s =>
      simp only [Val.seg, Option.some.injEq] at hsg
      subst hsg
      have hws : s.WF := hw _ hu
      obtain ⟨c1, c2, c3⟩ := hsparse s hu
      refine ⟨hus, c1, ?_, ?_, (expand_some (lift_sparse hlD).2).2, fun o ho ha => ?_⟩
      · show s.jac.blocks.shape = _
        rw [hws.jac.shape, c1, hws.x]
        congr 2
        unfold SJac.coords; rw [c2, c3]
      · rw [hws.lap, hws.x]
      · rw [(hws.jac.dims o ho axis ha).2, ← hws.x]
  have hsegne : segs ≠ [] := by
    intro h0
    have := (mapM_some hsegs).1
    rw [h0] at this
    exact hne (List.eq_nil_of_length_eq_zero this.symm)
  have hsizes : (segs.map fun g => g.1.shape.getD axis 0) = Ds.map fun D => D.x.shape.getD axis 0 := by
    rw [mapM_map_eq hsegs (fun g => g.1.shape.getD axis 0) (fun u => u.arr.shape.getD axis 0) fun u _ g hg => by rw [seg_arr hg],
      mapM_map_eq hl (fun D => D.x.shape.getD axis 0) (fun u => u.arr.shape.getD axis 0) fun u _ g hg => by rw [lift_x hg]]
  obtain ⟨je, jv, jl⟩ := withBlocks_some hj'
  obtain ⟨rl, rs⟩ := concatRoles_some hor (n := s0.jac.roles.length) (by simpa using hsegne) fun os hos => by
    obtain ⟨g, hg, rfl⟩ := List.mem_map.mp hos
    exact (hfacts g hg).2.1
  generalize hS : (Ds.map fun D => D.x.shape.getD axis 0) = sizes at *
  -- the roles of one slot across the segments
  have hslot : ∀ s < s0.jac.roles.length, ∀ (m : ℕ), ((segs.map roleOf).filterMap (·[s]?))[m]? = (segs[m]?).bind fun g => (roleOf g)[s]? := by
    intro s hs m
    rw [filterMap_getElem? _ _ fun os hos => by
      obtain ⟨g, hg, rfl⟩ := List.mem_map.mp hos
      rw [List.getElem?_eq_getElem (by rw [(hfacts g hg).2.1]; exact hs)]; rfl]
    rw [List.getElem?_map, Option.bind_map]; rfl
  have hslen : ∀ s < s0.jac.roles.length, ((segs.map roleOf).filterMap (·[s]?)).length = sizes.length := by
    intro s hs
    rw [filterMap_length_of_some _ _ fun os hos => by
      obtain ⟨g, hg, rfl⟩ := List.mem_map.mp hos
      rw [List.getElem?_eq_getElem (by rw [(hfacts g hg).2.1]; exact hs)]; rfl, List.length_map, ← hsizes, List.length_map]
  have hbl : laxConcatenate (segs.map blockOf) (axis + 2) = j'.blocks := by rw [je]; rfl
  have hjr : j'.roles = roles := by rw [je]
  have hji : j'.inShape = s0.jac.inShape := by rw [je]
  have hja : j'.ownAx = s0.jac.ownAx := by rw [je]
  have hxs : (laxConcatenate (segs.map (·.1)) axis).shape = base.set axis sizes.sum := by
    rw [concat_shape (base := base) (by simpa using hsegne) fun A hA => by
      obtain ⟨g, hg, rfl⟩ := List.mem_map.mp hA
      exact (hfacts g hg).1, List.map_map, ← hsizes]; rfl
  have hls : (laxConcatenate (segs.map (·.2.2)) axis).shape = base.set axis sizes.sum := by
    rw [concat_shape (base := base) (by simpa using hsegne) fun A hA => by
      obtain ⟨g, hg, rfl⟩ := List.mem_map.mp hA
      rw [(hfacts g hg).2.2.2.1]
      exact (hfacts g hg).1, List.map_map, ← hsizes]
    congr 2
    apply List.map_congr_left
    intro g hg
    simp only [Function.comp]
    rw [(hfacts g hg).2.2.2.1]
  have hbsz : (segs.map blockOf).map (fun A => A.shape.getD (axis + 2) 0) = sizes := by
    rw [List.map_map, ← hsizes]
    apply List.map_congr_left
    intro g hg
    simp only [Function.comp]
    rw [(hfacts g hg).2.2.1]; rfl
  have hjo : j'.out = base.set axis sizes.sum := by
    show List.drop 2 _ = _
    rw [← hbl, concat_shape (base := s0.jac.roles.length :: s0.jac.coords :: base) (by simpa using hsegne) fun A hA => by
      obtain ⟨g, hg, rfl⟩ := List.mem_map.mp hA
      obtain ⟨m, hm⟩ := (hfacts g hg).1
      exact ⟨m, by rw [(hfacts g hg).2.2.1, hm]; rfl⟩, hbsz]
    rfl
  -- an entry, its segment and its place there
  have hentry : ∀ i, InB (base.set axis sizes.sum) i → ∃ m k' g D, axis < i.length ∧ locate sizes (i.getD axis 0) = some (m, k') ∧ m < sizes.length ∧
      segs[m]? = some g ∧ Ds[m]? = some D ∧ InB D.x.shape (i.set axis k') := by
    intro i hi
    obtain ⟨h1, h2, h3⟩ := inB_concat hax hi
    obtain ⟨m, k', e1, e2, e3⟩ := locate_some h2
    have hm : m < segs.length := by rw [← hsizes, List.length_map] at e2; exact e2
    obtain ⟨u, D, _, hD, _, _, _⟩ := hseg m segs[m] (List.getElem?_eq_getElem hm)
    refine ⟨m, k', segs[m], D, h1, e1, e2, List.getElem?_eq_getElem hm, hD, ?_⟩
    obtain ⟨q, hq⟩ := (hDf D (List.mem_of_getElem? hD)).2.2
    have hqs : sizes.getD m 0 = q := by
      have : sizes[m]? = some (D.x.shape.getD axis 0) := by rw [← hS, List.getElem?_map, hD]; rfl
      rw [List.getD_eq_getElem?_getD, this, hq, getD_set, if_pos ⟨rfl, hax⟩]; rfl
    rw [hq]
    exact h3 q k' (hqs ▸ e3)
  have hget : ∀ (As : List (Arr K)) i m k', axis < i.length → locate (As.map fun A => A.shape.getD axis 0) (i.getD axis 0) = some (m, k') →
      ∀ A, As[m]? = some A → (laxConcatenate As axis).get i = A.get (i.set axis k') := by
    intro As i m k' h1 h2 A hA
    obtain ⟨A', hA', he⟩ := concatGet_locate As h1 h2
    rw [hA] at hA'
    obtain rfl := Option.some.inj hA'
    exact he
  apply expandsTo_intro
  · exact ⟨jv, by rw [hjo]; exact hxs, by rw [hjo]; exact hls⟩
  · intro o ho
    have ho' : o ∈ roles := by rw [← hjr]; exact ho
    obtain ⟨s, hs, rfl⟩ := List.getElem_of_mem ho'
    obtain ⟨p, hp, hc⟩ := rs s (by omega)
    rw [List.getElem?_eq_getElem hs] at hp
    rw [Option.some.inj hp]
    refine concatRole_reshapable hc fun o ho => ?_
    obtain ⟨os, hos, he⟩ := List.mem_filterMap.mp ho
    obtain ⟨g, hg, rfl⟩ := List.mem_map.mp hos
    exact (hfacts g hg).2.2.2.2.1 o (List.mem_of_getElem? he)
  · show j'.inShape.prod = n
    rw [hji, hn0]
  · have e : (segs.map (·.1)) = Ds.map (·.x) := by
      rw [mapM_map_eq hsegs (fun g => g.1) (fun u => u.arr) fun u _ g hg => seg_arr hg,
        mapM_map_eq hl (fun D => D.x) (fun u => u.arr) fun u _ g hg => lift_x hg]
    simp only [linearN, e]
    exact .refl _
  · intro r hr
    have hr' : r < n := hr
    refine ⟨by rw [row_shape, hjo]; exact (hdj r hr').symm, fun i hi => ?_⟩
    rw [row_shape, hjo] at hi
    obtain ⟨m, k', g, D, h1, h2, h3, hg, hD, hin⟩ := hentry i hi
    have rhs : (laxConcatenate (Ds.map fun D => D.jac r) axis).get i = (D.jac r).get (i.set axis k') := by
      refine hget _ i m k' h1 ?_ _ (by rw [List.getElem?_map, hD]; rfl)
      rw [List.map_map, ← h2, ← hS]
      congr 1
      apply List.map_congr_left
      intro D' hD'
      obtain ⟨q1, q2, _⟩ := hDf D' hD'
      simp only [Function.comp]
      rw [q2.jac r (by rw [q1]; exact hr')]
    refine Eq.trans ?_ rhs.symm
    obtain ⟨u, D', hu, hD', hum, hsg, hlD⟩ := hseg m g hg
    rw [hD] at hD'
    obtain rfl := Option.some.inj hD'
    -- the blocks
    have hblk : ∀ s c, j'.blocks.get (s :: c :: i) = (blockOf g).get (s :: c :: i.set axis k') := by
      intro s c
      obtain ⟨A, hA, he⟩ := concatGet_locate (axis := axis + 2) (segs.map blockOf) (i := s :: c :: i) (m := m) (k' := k') (by simpa using h1)
        (by rw [hbsz]; simpa using h2)
      rw [List.getElem?_map, hg] at hA
      have : A = blockOf g := (Option.some.inj hA).symm
      rw [← hbl]
      show concatGet (axis + 2) _ _ = _
      rw [he, this]; rfl
    -- the roles
    have hat : ∀ s : ℕ, (j'.roles[s]?).map (fun o => o.at i) = ((roleOf g)[s]?).map fun o => o.at (i.set axis k') := by
      intro s
      rw [hjr]
      have hgl := (hfacts g (List.mem_of_getElem? hg)).2.1
      by_cases hs : s < s0.jac.roles.length
      · obtain ⟨p, hp, hc⟩ := rs s hs
        obtain ⟨o, ho⟩ : ∃ o, (roleOf g)[s]? = some o := ⟨_, List.getElem?_eq_getElem (by rw [hgl]; exact hs)⟩
        rw [hp, ho, Option.map_some, Option.map_some]
        congr 1
        refine concatRole_at (os := (segs.map roleOf).filterMap (·[s]?)) (m := m) hc ?_ ?_ h1 ?_ ?_ ?_
        · rw [hslen s hs, ← hsizes]
        · intro m' o' ho' ha
          rw [hslot s hs] at ho'
          obtain ⟨g', hg', ho''⟩ := Option.bind_eq_some_iff.mp ho'
          rw [(hfacts g' (List.mem_of_getElem? hg')).2.2.2.2.2 o' (List.mem_of_getElem? ho'') ha]
          symm
          rw [List.getD_eq_getElem?_getD, List.getElem?_map, hg']; rfl
        · rw [hsizes]; exact h2
        · rw [hsizes]; exact h3
        · rw [hslot s hs, hg]; exact ho
      · rw [List.getElem?_eq_none (by omega), List.getElem?_eq_none (by omega)]; rfl
    cases u with
    | dense d => cases hsg
    | plain p =>
      simp only [Val.seg, Option.some.injEq] at hsg
      subst hsg
      obtain rfl := lift_plain hlD
      rw [row_get]
      simp only [const, full_get]
      apply Finset.sum_eq_zero
      intro s _
      rw [hblk]
      show _ * (0 : K) = 0
      rw [mul_zero]
    | sparse s =>
      simp only [Val.seg, Option.some.injEq] at hsg
      subst hsg
      obtain ⟨c1, c2, c3⟩ := hsparse s hum
      obtain ⟨hsn, hse⟩ := lift_sparse hlD
      obtain ⟨rfl, _⟩ := expand_some hse
      have := row_rel (j := s.jac) (j' := j') (i := i) (i' := i.set axis k') (φ := 1) (by rw [hjr, rl, c1]) (by rw [hji, c2]) (by rw [hja, c3])
        hat (fun s' _ c _ => by rw [one_mul]; exact hblk s' c) (r := r) (by rw [hsn]; exact hr')
      rw [one_mul] at this
      exact this
  · refine ⟨by simp only; rw [hls]; exact hdl.symm, fun i hi => ?_⟩
    simp only at hi
    rw [hls] at hi
    obtain ⟨m, k', g, D, h1, h2, h3, hg, hD, hin⟩ := hentry i hi
    have rhs : (laxConcatenate (Ds.map (·.lap)) axis).get i = D.lap.get (i.set axis k') := by
      refine hget _ i m k' h1 ?_ _ (by rw [List.getElem?_map, hD]; rfl)
      rw [List.map_map, ← h2, ← hS]
      congr 1
      apply List.map_congr_left
      intro D' hD'
      obtain ⟨_, q2, _⟩ := hDf D' hD'
      simp only [Function.comp]
      rw [q2.lap]
    refine Eq.trans ?_ rhs.symm
    refine Eq.trans (hget _ i m k' h1 ?_ g.2.2 (by rw [List.getElem?_map, hg]; rfl)) ?_
    · rw [List.map_map, ← h2, ← hsizes]
      congr 1
      apply List.map_congr_left
      intro g' hg'
      simp only [Function.comp]
      rw [(hfacts g' hg').2.2.2.1]
    · obtain ⟨u, D', hu, hD', hum, hsg, hlD⟩ := hseg m g hg
      rw [hD] at hD'
      obtain rfl := Option.some.inj hD'
      cases u with
      | dense d => cases hsg
      | plain p =>
        simp only [Val.seg, Option.some.injEq] at hsg
        subst hsg
        obtain rfl := lift_plain hlD
        rfl
      | sparse s =>
        simp only [Val.seg, Option.some.injEq] at hsg
        subst hsg
        obtain ⟨rfl, _⟩ := expand_some (lift_sparse hlD).2
        rfl

end Jaqmc.Sparse
