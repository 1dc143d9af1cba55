import Verif.Lemmas.SparseDot
import Verif.Lemmas.SparseConcat
/-! `dot_general` (C45): the rule. -/
namespace Jaqmc.Sparse
open Spec
variable {K : Type} [Field K]

theorem dotMerge_some {ml mr roles : List OwnerRole} {ls rs : List ℕ} (h : dotMerge ml mr = some (roles, ls, rs)) :
    ls.length = ml.length ∧ rs.length = mr.length ∧
    (∀ (m : ℕ) (o : OwnerRole), ml[m]? = some o → ∃ t, ls[m]? = some t ∧ roles[t]? = some o) ∧
    (∀ (m : ℕ) (o : OwnerRole), mr[m]? = some o → ∃ t, rs[m]? = some t ∧ roles[t]? = some o) ∧
    ∀ o ∈ roles, o ∈ ml ∨ o ∈ mr := by
  unfold dotMerge at h
  simp only at h
  split at h
  · simp only [Option.some.injEq, Prod.mk.injEq] at h
    obtain ⟨rfl, rfl, rfl⟩ := h
    obtain ⟨_, p2, p3, p4⟩ := outputSlots_spec [] ml
    obtain ⟨q1, q2, q3, q4⟩ := outputSlots_spec (outputSlots [] ml).1 mr
    refine ⟨p2, q2, fun m o hm => ?_, q3, fun o ho => ?_⟩
    · obtain ⟨t, h1, h2⟩ := p3 m o hm
      exact ⟨t, h1, prefix_get q1 h2⟩
    · rcases q4 o ho with h | h
      · rcases p4 o h with h | h
        · cases h
        · exact Or.inl h
      · exact Or.inr h
  · cases h

theorem vmap0_get (f : Arr K → Arr K) (A : Arr K) (c : ℕ) (i : List ℕ) : (vmap0 f A).get (c :: i) = (f (A.at0 c)).get i := rfl

/-- Rows of a contracted Jacobian: contract the rows, or contract the slots and select with the mapped roles. -/
theorem dot_row {a : SJac K} (hv : a.Valid) {ms : List OwnerRole} (hlen : ms.length = a.roles.length) {dot : Arr K → Arr K} {sh cs : List ℕ}
    {w : List ℕ → List ℕ → K} {src : List ℕ → List ℕ → List ℕ}
    (hdot : ∀ A : Arr K, A.shape = a.out → ∀ i, InB sh i → (dot A).get i = sumIdx cs fun k => w i k * A.get (src i k))
    (hat : ∀ i k, InB sh i → InB cs k → ∀ t : ℕ, (ms[t]?).map (fun o => o.at i) = (a.roles[t]?).map fun o => o.at (src i k))
    {i : List ℕ} (hi : InB sh i) (r : ℕ) :
    ∑ m ∈ Finset.range ms.length, (⟨a.blocks, ms, a.inShape, a.ownAx⟩ : SJac K).sel m i (rowOwner a.inShape a.ownAx r) *
      (vmap0 dot (a.blocks.at0 m)).get (rowCoord a.inShape a.ownAx r :: i) = (dot (a.row r)).get i := by
  rw [hdot _ (row_shape a r) i hi]
  have e : ∀ k, w i k * (a.row r).get (src i k) = ∑ t ∈ Finset.range a.roles.length,
      w i k * (a.sel t (src i k) (rowOwner a.inShape a.ownAx r) * a.blocks.get (t :: rowCoord a.inShape a.ownAx r :: src i k)) := by
    intro k; rw [row_get, Finset.mul_sum]
  simp only [e]
  rw [sumIdx_sum, hlen]
  refine Finset.sum_congr rfl fun t _ => ?_
  have hs : ((a.blocks.at0 t).at0 (rowCoord a.inShape a.ownAx r)).shape = a.out := by
    show a.blocks.shape.tail.tail = a.out
    rw [hv.shape]; rfl
  rw [vmap0_get, hdot _ hs i hi, ← sumIdx_mul_left]
  apply sumIdx_congr
  intro k hk
  rw [sel_eq_of_at (j := a) (j' := ⟨a.blocks, ms, a.inShape, a.ownAx⟩) (s := t) (hat i k hi hk t)]
  show _ = w i k * (_ * a.blocks.get (t :: rowCoord a.inShape a.ownAx r :: src i k))
  simp only [Arr.at0]
  ring

section
variable {d : DotDims} {ls rs : List ℕ}

theorem dot_left {A p : Arr K} (hA : A.shape = ls) (hp : p.shape = rs) (i : List ℕ) : (laxDot A p d).get i =
    sumIdx (d.lc.map fun a => ls.getD a 0) fun k =>
      p.get (dotSrc rs.length d.rc d.rb (d.lb.length + (dotFree ls.length d.lc d.lb).length) i k) * A.get (dotSrc ls.length d.lc d.lb d.lb.length i k) := by
  rw [laxDot_get, hA, hp]
  apply sumIdx_congr; intro k _; ring

theorem dot_right {A p : Arr K} (hp : p.shape = ls) (hA : A.shape = rs) (i : List ℕ) : (laxDot p A d).get i =
    sumIdx (d.lc.map fun a => ls.getD a 0) fun k =>
      p.get (dotSrc ls.length d.lc d.lb d.lb.length i k) * A.get (dotSrc rs.length d.rc d.rb (d.lb.length + (dotFree ls.length d.lc d.lb).length) i k) := by
  rw [laxDot_get, hA, hp]

theorem DotDims.OK.lcn (ok : d.OK ls rs) : d.lc.Nodup := (List.nodup_append.mp ok.lnodup).2.1
theorem DotDims.OK.rcn (ok : d.OK ls rs) : d.rc.Nodup := (List.nodup_append.mp ok.rnodup).2.1
theorem DotDims.OK.clen (ok : d.OK ls rs) : d.lc.length = d.rc.length := by
  have := congrArg List.length ok.contract
  simpa using this

theorem rolesL_at {a : SJac K} (hv : a.Valid) (ha : a.out = ls) (ok : d.OK ls rs) {ms : List OwnerRole}
    (hm : a.roles.mapM (dotRole d .lhs ls.length rs.length) = some ms) {i k : List ℕ} (hi : InB (dotShape ls rs d) i)
    (hk : InB (d.lc.map fun a => ls.getD a 0) k) (t : ℕ) :
    (ms[t]?).map (fun o => o.at i) = (a.roles[t]?).map fun o => o.at (dotSrc ls.length d.lc d.lb d.lb.length i k) :=
  roles_mapM_at hm (fun o ho p hp => dotRole_at (side := .lhs) hv ho ok.lcn (by rw [ha]; rfl) hp (by rw [ha]; exact dotSrc_inB_l hi hk)) t

theorem rolesR_at {b : SJac K} (hv : b.Valid) (hb : b.out = rs) (ok : d.OK ls rs) {ms : List OwnerRole}
    (hm : b.roles.mapM (dotRole d .rhs ls.length rs.length) = some ms) {i k : List ℕ} (hi : InB (dotShape ls rs d) i)
    (hk : InB (d.lc.map fun a => ls.getD a 0) k) (t : ℕ) :
    (ms[t]?).map (fun o => o.at i) = (b.roles[t]?).map fun o => o.at (dotSrc rs.length d.rc d.rb (d.lb.length + (dotFree ls.length d.lc d.lb).length) i k) :=
  roles_mapM_at hm (fun o ho p hp => dotRole_at (side := .rhs) hv ho ok.rcn (by rw [hb]; rfl) hp (by rw [hb]; exact dotSrc_inB_r ok hi hk)) t

theorem rolesL_reshapable {a : SJac K} (hv : a.Valid) (hr : ∀ o ∈ a.roles, o.reshapable = true) (ha : a.out = ls)
    (hne : ∀ c ∈ d.lc, ls.getD c 0 ≠ 0) {ms : List OwnerRole} {l r : ℕ} (hm : a.roles.mapM (dotRole d .lhs l r) = some ms) :
    ∀ o ∈ ms, o.reshapable = true := by
  intro o ho
  obtain ⟨o', ho', hf⟩ := mapM_mem hm ho
  exact dotRole_reshapable (side := .lhs) hv ho' (hr o' ho') (by rw [ha]; exact hne) hf

theorem rolesR_reshapable {b : SJac K} (hv : b.Valid) (hr : ∀ o ∈ b.roles, o.reshapable = true) (hb : b.out = rs) (ok : d.OK ls rs)
    (hne : ∀ c ∈ d.lc, ls.getD c 0 ≠ 0) {ms : List OwnerRole} {l r : ℕ} (hm : b.roles.mapM (dotRole d .rhs l r) = some ms) :
    ∀ o ∈ ms, o.reshapable = true := by
  intro o ho
  obtain ⟨o', ho', hf⟩ := mapM_mem hm ho
  refine dotRole_reshapable (side := .rhs) hv ho' (hr o' ho') (fun c hc => ?_) hf
  rw [hb]
  have h1 : rs.getD c 0 ∈ d.rc.map fun a => rs.getD a 0 := List.mem_map_of_mem hc
  rw [show (d.rc.map fun a => rs.getD a 0) = d.lc.map fun a => ls.getD a 0 from ok.contract.symm] at h1
  obtain ⟨c', hc', h2⟩ := List.mem_map.mp h1
  rw [← h2]; exact hne c' hc'

/-- The mixed trace. -/
theorem mixed_sum {a b : SJac K} (va : a.Valid) (vb : b.Valid) (ra : ∀ o ∈ a.roles, o.reshapable = true) (ha : a.out = ls) (hb : b.out = rs)
    (ok : d.OK ls rs) (hc : compat a b = true) {ml mr : List OwnerRole}
    (hml : a.roles.mapM (dotRole d .lhs ls.length rs.length) = some ml) (hmr : b.roles.mapM (dotRole d .rhs ls.length rs.length) = some mr)
    {i : List ℕ} (hi : InB (dotShape ls rs d) i) :
    ∑ r ∈ Finset.range a.inShape.prod, (laxDot (a.row r) (b.row r) d).get i =
    ∑ s ∈ Finset.range ml.length, ∑ t ∈ Finset.range mr.length,
      (match ml[s]?, mr[t]? with
       | some o, some p => if o.at i = p.at i then (dotLead (a.blocks.at0 s) (b.blocks.at0 t) d).get i else 0
       | _, _ => 0) := by
  obtain ⟨c1, c2⟩ := compat_iff.mp hc
  have hcoord : a.coords = b.coords := by unfold SJac.coords; rw [c1, c2]
  obtain ⟨ll, _⟩ := mapM_some hml
  obtain ⟨lr, _⟩ := mapM_some hmr
  set srcL := fun k => dotSrc ls.length d.lc d.lb d.lb.length i k with hsl
  set srcR := fun k => dotSrc rs.length d.rc d.rb (d.lb.length + (dotFree ls.length d.lc d.lb).length) i k with hsr
  have e1 : ∀ r, (laxDot (a.row r) (b.row r) d).get i = sumIdx (d.lc.map fun a => ls.getD a 0) fun k => (a.row r).get (srcL k) * (b.row r).get (srcR k) := by
    intro r
    rw [dot_right (by rw [row_shape, ha]) (by rw [row_shape, hb])]
  simp only [e1]
  rw [← sumIdx_comm_range]
  -- one contracted index at a time
  have e2 : ∀ k, InB (d.lc.map fun a => ls.getD a 0) k → ∑ r ∈ Finset.range a.inShape.prod, (a.row r).get (srcL k) * (b.row r).get (srcR k) =
      ∑ s ∈ Finset.range ml.length, ∑ t ∈ Finset.range mr.length,
        (match ml[s]?, mr[t]? with
         | some o, some p => if o.at i = p.at i then ∑ c ∈ Finset.range a.coords, a.blocks.get (s :: c :: srcL k) * b.blocks.get (t :: c :: srcR k) else 0
         | _, _ => 0) := by
    intro k hk
    let a' : SJac K := ⟨⟨a.blocks.shape, fun t => a.blocks.get (t.headD 0 :: t.tail.headD 0 :: srcL k)⟩, ml, a.inShape, a.ownAx⟩
    let b' : SJac K := ⟨⟨b.blocks.shape, fun t => b.blocks.get (t.headD 0 :: t.tail.headD 0 :: srcR k)⟩, mr, b.inShape, b.ownAx⟩
    have hra : ∀ r, (a.row r).get (srcL k) = (a'.row r).get i := by
      intro r
      rw [row_get, row_get]
      show _ = ∑ s ∈ Finset.range ml.length, _
      rw [ll]
      refine Finset.sum_congr rfl fun s _ => ?_
      rw [sel_eq_of_at (j := a) (j' := a') (s := s) (rolesL_at va ha ok hml hi hk s)]
      rfl
    have hrb : ∀ r, (b.row r).get (srcR k) = (b'.row r).get i := by
      intro r
      rw [row_get, row_get]
      show _ = ∑ s ∈ Finset.range mr.length, _
      rw [lr]
      refine Finset.sum_congr rfl fun s _ => ?_
      rw [sel_eq_of_at (j := b) (j' := b') (s := s) (rolesR_at vb hb ok hmr hi hk s)]
      rfl
    simp only [hra, hrb]
    have hlt : ∀ o ∈ a'.roles, o.at i < a'.owners := by
      intro o ho
      obtain ⟨o', ho', hf⟩ := mapM_mem hml ho
      have hin : InB a.out (srcL k) := by rw [ha]; exact dotSrc_inB_l hi hk
      rw [dotRole_at (side := .lhs) (i := i) (k := k) va ho' ok.lcn (by rw [ha]; rfl) hf hin]
      exact at_lt va ho' (ra o' ho') hin
    exact sum_row_mul (a := a') (b := b') c1 c2 va.axis id (fun _ _ => rfl) rfl hlt
  refine (sumIdx_congr e2).trans ?_
  rw [sumIdx_comm_range]
  refine Finset.sum_congr rfl fun s hs => ?_
  rw [sumIdx_comm_range]
  refine Finset.sum_congr rfl fun t ht => ?_
  have hs' := Finset.mem_range.mp hs
  have ht' := Finset.mem_range.mp ht
  simp only [List.getElem?_eq_getElem hs', List.getElem?_eq_getElem ht']
  have sA : (a.blocks.at0 s).shape = a.coords :: ls := by
    show a.blocks.shape.tail = _; rw [va.shape, ha]; rfl
  have sB : (b.blocks.at0 t).shape = a.coords :: rs := by
    show b.blocks.shape.tail = _; rw [vb.shape, hb, hcoord]; rfl
  by_cases h : (ml[s]).at i = (mr[t]).at i
  · simp only [h, if_true]
    rw [dotLead_get sA sB ok.clen, sumIdx_comm_range]
    rfl
  · simp only [h, if_false]
    exact sumIdx_zero _

theorem list_sum_range {M : Type} [AddCommMonoid M] (n : ℕ) (g : ℕ → M) : ((List.range n).map g).sum = ∑ s ∈ Finset.range n, g s := by
  induction n with
  | zero => simp
  | succ n ih => rw [List.range_succ, List.map_append, List.sum_append, ih, Finset.sum_range_succ]; simp

/-- A fold that adds an array at every step. -/
theorem foldlM_add {α : Type} {sh : List ℕ} {f : Arr K → α → Option (Arr K)} {g : α → List ℕ → K}
    (hf : ∀ (acc acc' : Arr K) x, acc.shape = sh → f acc x = some acc' → acc'.shape = sh ∧ ∀ i, InB sh i → acc'.get i = acc.get i + g x i)
    {l : List α} {acc acc' : Arr K} (ha : acc.shape = sh) (h : l.foldlM f acc = some acc') :
    acc'.shape = sh ∧ ∀ i, InB sh i → acc'.get i = acc.get i + (l.map fun x => g x i).sum := by
  induction l generalizing acc with
  | nil =>
    simp only [List.foldlM_nil, Option.pure_def, Option.some.injEq] at h
    subst h
    exact ⟨ha, fun i _ => by simp⟩
  | cons x l ih =>
    simp only [List.foldlM_cons, Option.bind_eq_bind, Option.bind_eq_some_iff] at h
    obtain ⟨acc1, h1, h2⟩ := h
    obtain ⟨s1, g1⟩ := hf _ _ _ ha h1
    obtain ⟨s2, g2⟩ := ih s1 h2
    exact ⟨s2, fun i hi => by rw [g2 i hi, g1 i hi, List.map_cons, List.sum_cons, add_assoc]⟩

theorem mixedTrace_some {owners : List OwnerRole} {sh : List ℕ} {A B : ℕ → Arr K} {sl sr : List ℕ} {T : Arr K}
    (hs : ∀ s t, (dotLead (A s) (B t) d).shape = sh) (h : mixedTrace d owners sh A B sl sr = some T) :
    T.shape = sh ∧ ∀ i, InB sh i → T.get i = ∑ s ∈ Finset.range sl.length, ∑ t ∈ Finset.range sr.length,
      (match owners[sl.getD s 0]?, owners[sr.getD t 0]? with
       | some o, some p => if o.at i = p.at i then (dotLead (A s) (B t) d).get i else 0
       | _, _ => 0) := by
  unfold mixedTrace at h
  have inner : ∀ (acc acc' : Arr K) (s t : ℕ), acc.shape = sh → (do
      let o ← owners[sl.getD s 0]?
      let p ← owners[sr.getD t 0]?
      let m ← ownerMask o p sh
      return binop (· + ·) acc (maskA m (dotLead (A s) (B t) d))) = some acc' →
      acc'.shape = sh ∧ ∀ i, InB sh i → acc'.get i = acc.get i +
        (match owners[sl.getD s 0]?, owners[sr.getD t 0]? with
         | some o, some p => if o.at i = p.at i then (dotLead (A s) (B t) d).get i else 0
         | _, _ => 0) := by
    intro acc acc' s t hacc hin
    simp only [Option.bind_eq_bind, Option.pure_def, Option.bind_eq_some_iff, Option.some.injEq] at hin
    obtain ⟨o, ho, p, hp, m, hm, rfl⟩ := hin
    unfold ownerMask at hm
    split at hm
    · obtain rfl := Option.some.inj hm
      have hsm : (maskA ⟨sh, fun i => o.at i == p.at i⟩ (dotLead (A s) (B t) d)).shape = sh := hs s t
      refine ⟨binop_same_shape _ hacc hsm, fun i hi => ?_⟩
      rw [binop_same_get _ hacc hsm hi, ho, hp]
      simp only [maskA, beq_iff_eq]
    · cases hm
  have outer := foldlM_add (sh := sh) (g := fun s i => ∑ t ∈ Finset.range sr.length,
      (match owners[sl.getD s 0]?, owners[sr.getD t 0]? with
       | some o, some p => if o.at i = p.at i then (dotLead (A s) (B t) d).get i else 0
       | _, _ => 0)) (fun acc acc' s hacc hin => by
    obtain ⟨k1, k2⟩ := foldlM_add (sh := sh) (fun acc acc' t hacc hin => inner acc acc' s t hacc hin) hacc hin
    exact ⟨k1, fun i hi => by rw [k2 i hi, list_sum_range]⟩) rfl h
  refine ⟨outer.1, fun i hi => ?_⟩
  rw [outer.2 i hi]
  show 0 + _ = _
  rw [zero_add, list_sum_range]

end
end Jaqmc.Sparse
