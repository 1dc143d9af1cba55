import Verif.Model.SparseDot
import Verif.Lemmas.SparseReduce
/-! `dot_general` (C45): index lemmas. -/
namespace Jaqmc.Sparse
open Spec

theorem mem_dotFree {n a : ℕ} {c b : List ℕ} : a ∈ dotFree n c b ↔ a < n ∧ a ∉ b ∧ a ∉ c := by
  simp [dotFree]

theorem dotSrc_getD {n : ℕ} {c b : List ℕ} {off : ℕ} {i k : List ℕ} {a : ℕ} (ha : a < n) :
    (dotSrc n c b off i k).getD a 0 = if a ∈ c then k.getD (c.idxOf a) 0 else if a ∈ b then i.getD (b.idxOf a) 0
      else i.getD (off + (dotFree n c b).idxOf a) 0 := by
  unfold dotSrc
  rw [getD_map_range, if_pos ha]

theorem getD_map_idxOf {l : List ℕ} {f : ℕ → ℕ} {a : ℕ} (h : a ∈ l) : (l.map f).getD (l.idxOf a) 0 = f a := by
  have hl := List.idxOf_lt_length_of_mem h
  rw [List.getD_eq_getElem _ _ (by simpa using hl), List.getElem_map, List.getElem_idxOf]

/-- The output shape of `dot_general`. -/
def dotShape (ls rs : List ℕ) (d : DotDims) : List ℕ :=
  d.lb.map (fun a => ls.getD a 0) ++ (dotFree ls.length d.lc d.lb).map (fun a => ls.getD a 0) ++ (dotFree rs.length d.rc d.rb).map (fun a => rs.getD a 0)

theorem InB.getD_lt {sh i : List ℕ} (h : InB sh i) {a m : ℕ} (hm : sh[a]? = some m) : i.getD a 0 < m := by
  have ha : a < sh.length := by
    by_contra hc
    rw [List.getElem?_eq_none (by omega)] at hm; cases hm
  have := h.2 a ha
  rw [show sh.getD a 0 = sh[a]?.getD 0 from List.getD_eq_getElem?_getD, hm] at this
  exact this

theorem getElem?_map_idxOf {l : List ℕ} {f : ℕ → ℕ} {a : ℕ} (h : a ∈ l) : (l.map f)[l.idxOf a]? = some (f a) := by
  have hl := List.idxOf_lt_length_of_mem h
  rw [List.getElem?_eq_getElem (by simpa using hl), List.getElem_map, List.getElem_idxOf]

theorem dotSrc_inB_l {ls rs : List ℕ} {d : DotDims} {i k : List ℕ} (hi : InB (dotShape ls rs d) i)
    (hk : InB (d.lc.map fun a => ls.getD a 0) k) : InB ls (dotSrc ls.length d.lc d.lb d.lb.length i k) := by
  refine ⟨by simp [dotSrc], fun a ha => ?_⟩
  rw [dotSrc_getD ha]
  unfold dotShape at hi
  split
  · rename_i h; exact hk.getD_lt (getElem?_map_idxOf h)
  · rename_i hc
    split
    · rename_i hb
      apply hi.getD_lt
      rw [List.append_assoc, List.getElem?_append_left (by simpa using List.idxOf_lt_length_of_mem hb)]
      exact getElem?_map_idxOf hb
    · rename_i hb
      have hf : a ∈ dotFree ls.length d.lc d.lb := mem_dotFree.mpr ⟨ha, hb, hc⟩
      have := List.idxOf_lt_length_of_mem hf
      apply hi.getD_lt
      rw [List.getElem?_append_left (by simp; omega), List.getElem?_append_right (by simp)]
      simp only [List.length_map, Nat.add_sub_cancel_left]
      exact getElem?_map_idxOf hf

theorem dotSrc_inB_r {ls rs : List ℕ} {d : DotDims} (ok : d.OK ls rs) {i k : List ℕ} (hi : InB (dotShape ls rs d) i)
    (hk : InB (d.lc.map fun a => ls.getD a 0) k) :
    InB rs (dotSrc rs.length d.rc d.rb (d.lb.length + (dotFree ls.length d.lc d.lb).length) i k) := by
  refine ⟨by simp [dotSrc], fun a ha => ?_⟩
  rw [dotSrc_getD ha]
  unfold dotShape at hi
  split
  · rename_i h
    rw [show (d.lc.map fun a => ls.getD a 0) = _ from ok.contract] at hk
    exact hk.getD_lt (getElem?_map_idxOf h)
  · rename_i hc
    split
    · rename_i hb
      apply hi.getD_lt
      rw [show (d.lb.map fun a => ls.getD a 0) = _ from ok.batch]
      rw [List.append_assoc, List.getElem?_append_left (by simpa using List.idxOf_lt_length_of_mem hb)]
      exact getElem?_map_idxOf hb
    · rename_i hb
      have hf : a ∈ dotFree rs.length d.rc d.rb := mem_dotFree.mpr ⟨ha, hb, hc⟩
      apply hi.getD_lt
      rw [List.getElem?_append_right (by simp)]
      have : d.lb.length + (dotFree ls.length d.lc d.lb).length + (dotFree rs.length d.rc d.rb).idxOf a -
          (d.lb.map (fun a => ls.getD a 0) ++ (dotFree ls.length d.lc d.lb).map fun a => ls.getD a 0).length =
          (dotFree rs.length d.rc d.rb).idxOf a := by simp
      rw [this]
      exact getElem?_map_idxOf hf

/-- Where the free axes of an operand start in the output. -/
def DotDims.off (d : DotDims) (s : Side) (l : ℕ) : ℕ := match s with
  | .lhs => d.lb.length
  | .rhs => d.lb.length + (dotFree l d.lc d.lb).length

theorem outputAxis_src {d : DotDims} {side : Side} {a l r b : ℕ} (h : d.outputAxis side a l r = some b) (ha : a < side.dim l r)
    (i k : List ℕ) : (dotSrc (side.dim l r) (d.contract side) (d.batch side) (d.off side l) i k).getD a 0 = i.getD b 0 := by
  rw [dotSrc_getD ha]
  unfold DotDims.outputAxis at h
  split at h
  · cases h
  · rename_i hc
    rw [if_neg hc]
    split at h
    · rename_i hb
      rw [if_pos hb, ← Option.some.inj h]
    · rename_i hb
      rw [if_neg hb]
      cases side <;> simp only [Option.some.injEq] at h <;> rw [← h] <;> rfl

theorem axis_mkRole {a b : ℕ} {vs : List ℕ} (h : (mkRole (some a) vs).axis = some b) : a = b := by
  unfold mkRole at h
  simp only at h
  split at h
  · cases h
  · exact Option.some.inj h

theorem mkRole_none_axis (vs : List ℕ) : (mkRole none vs).axis = none := by
  unfold mkRole; simp

theorem mkRole_values (a : Option ℕ) (vs : List ℕ) : (mkRole a vs).values = vs := rfl

variable {K : Type} [Field K]

theorem dotRole_at {j : SJac K} (hv : j.Valid) {o p : OwnerRole} (ho : o ∈ j.roles) {d : DotDims} {side : Side} {l r : ℕ}
    (hn : (d.contract side).Nodup) (hd : side.dim l r = j.out.length) (h : dotRole d side l r o = some p) {i k : List ℕ}
    (hin : InB j.out (dotSrc (side.dim l r) (d.contract side) (d.batch side) (d.off side l) i k)) :
    p.at i = o.at (dotSrc (side.dim l r) (d.contract side) (d.batch side) (d.off side l) i k) := by
  unfold dotRole at h
  simp only [Option.bind_eq_bind, Option.pure_def, Option.bind_eq_some_iff] at h
  obtain ⟨q, hq, h⟩ := h
  set src := dotSrc (side.dim l r) (d.contract side) (d.batch side) (d.off side l) i k with hsrc
  have hra := reduce_at hv ho hn hin hq
  split at h
  · rename_i hqa
    obtain rfl := Option.some.inj h
    rw [← hra]; simp only [OwnerRole.at, hqa]
  · rename_i qa hqa
    simp only [Option.bind_eq_some_iff, Option.some.injEq] at h
    obtain ⟨orig, horig, out, hout, rfl⟩ := h
    -- the reduced role has the axis of the original one
    unfold OwnerRole.reduce at hq
    split at hq
    · rename_i hoa
      rw [← Option.some.inj hq, hoa] at hqa; cases hqa
    · rename_i a hoa
      split at hq
      · split at hq
        · rw [← Option.some.inj hq, mkRole_none_axis] at hqa; cases hqa
        · cases hq
      · rename_i hac
        have hq' := Option.some.inj hq
        obtain ⟨h1, h2⟩ := hv.dims o ho a hoa
        have hlen := axis_len_ne hoa
        have hqa' : a - (d.contract side).countP (· < a) = qa := axis_mkRole (by rw [hq']; exact hqa)
        have hqv : q.values = o.values := by rw [← hq']; rfl
        rw [← keptAxes_length _ hn] at hqa'
        rw [hd] at horig
        obtain ⟨rest, hrest⟩ := keptAxes_split (d.contract side) h1 hac
        rw [hrest, ← hqa', List.getElem?_append_right (Nat.le_refl _), Nat.sub_self] at horig
        have hao : a = orig := Option.some.inj horig
        subst hao
        have := outputAxis_src hout (by rw [hd]; exact h1) i k
        rw [mkRole_at_some _ _ _ (fun he => absurd (hqv ▸ he) hlen), hqv, ← this, ← hsrc]
        simp only [OwnerRole.at, hoa]

theorem dotRole_reshapable {j : SJac K} (hv : j.Valid) {o p : OwnerRole} (ho : o ∈ j.roles) (hr : o.reshapable = true) {d : DotDims}
    {side : Side} {l r : ℕ} (hne : ∀ a ∈ d.contract side, j.out.getD a 0 ≠ 0) (h : dotRole d side l r o = some p) : p.reshapable = true := by
  unfold dotRole at h
  simp only [Option.bind_eq_bind, Option.pure_def, Option.bind_eq_some_iff] at h
  obtain ⟨q, hq, h⟩ := h
  split at h
  · rw [← Option.some.inj h]
    exact reduce_reshapable hv ho hr hne hq
  · simp only [Option.bind_eq_some_iff, Option.some.injEq] at h
    obtain ⟨orig, _, out, _, rfl⟩ := h
    exact mkRole_some_reshapable _ _

/-! ### The primitive -/

theorem laxDot_shape (A B : Arr K) (d : DotDims) : (laxDot A B d).shape = dotShape A.shape B.shape d := rfl

theorem laxDot_get (A B : Arr K) (d : DotDims) (i : List ℕ) : (laxDot A B d).get i =
    sumIdx (d.lc.map fun a => A.shape.getD a 0) fun k =>
      A.get (dotSrc A.shape.length d.lc d.lb d.lb.length i k) *
      B.get (dotSrc B.shape.length d.rc d.rb (d.lb.length + (dotFree A.shape.length d.lc d.lb).length) i k) := rfl

theorem idxOf_map_succ (l : List ℕ) (a : ℕ) : (l.map (· + 1)).idxOf (a + 1) = l.idxOf a := by
  induction l with
  | nil => rfl
  | cons b l ih =>
    by_cases h : b = a
    · simp [h]
    · rw [List.map_cons, List.idxOf_cons_ne _ (by omega), List.idxOf_cons_ne _ h, ih]

theorem mem_map_succ {l : List ℕ} {a : ℕ} : a + 1 ∈ l.map (· + 1) ↔ a ∈ l := by simp

theorem zero_not_mem_succ {l : List ℕ} : 0 ∉ l.map (· + 1) := by simp

theorem dotFree_lead (n : ℕ) (c b : List ℕ) : dotFree (n + 1) (c.map (· + 1) ++ [0]) (b.map (· + 1)) = (dotFree n c b).map (· + 1) := by
  unfold dotFree
  rw [List.range_succ_eq_map, List.filter_cons_of_neg (by simp), List.filter_map]
  congr 1
  apply List.filter_congr
  intro a _
  simp only [Function.comp, Nat.succ_eq_add_one]
  have : (a + 1 ∉ b.map (· + 1) ++ (c.map (· + 1) ++ [0])) ↔ (a ∉ b ++ c) := by simp
  simp only [this]

theorem dotSrc_lead {n : ℕ} {c b : List ℕ} {off : ℕ} {i k : List ℕ} {t : ℕ} (hk : k.length = c.length) :
    dotSrc (n + 1) (c.map (· + 1) ++ [0]) (b.map (· + 1)) off i (k ++ [t]) = t :: dotSrc n c b off i k := by
  unfold dotSrc
  rw [dotFree_lead, List.range_succ_eq_map, List.map_cons, List.map_map]
  congr 1
  · rw [if_pos (by simp), List.idxOf_append_of_notMem (by simp)]
    simp [← hk]
  · apply List.map_congr_left
    intro a _
    simp only [Function.comp, Nat.succ_eq_add_one, idxOf_map_succ, mem_map_succ]
    have : (a + 1 ∈ c.map (· + 1) ++ [0]) ↔ a ∈ c := by simp
    simp only [this]
    split
    · rename_i h
      have hl := List.idxOf_lt_length_of_mem h
      rw [List.idxOf_append_of_mem (by simpa using h), idxOf_map_succ, List.getD_append _ _ _ _ (by omega)]
    · rfl

theorem sumIdx_append_one {M : Type} [AddCommMonoid M] (sh : List ℕ) (C : ℕ) (f : List ℕ → M) :
    sumIdx (sh ++ [C]) f = sumIdx sh fun k => ∑ c ∈ Finset.range C, f (k ++ [c]) := by
  induction sh generalizing f with
  | nil => simp [sumIdx]
  | cons n s ih => simp only [List.cons_append, sumIdx]; exact Finset.sum_congr rfl fun a _ => ih _

theorem sumIdx_comm_range {M : Type} [AddCommMonoid M] (sh : List ℕ) (C : ℕ) (f : List ℕ → ℕ → M) :
    sumIdx sh (fun k => ∑ c ∈ Finset.range C, f k c) = ∑ c ∈ Finset.range C, sumIdx sh fun k => f k c :=
  sumIdx_sum sh C fun c k => f k c

theorem dotLead_shape {A B : Arr K} {C : ℕ} {ls rs : List ℕ} (hA : A.shape = C :: ls) (hB : B.shape = C :: rs) (d : DotDims) :
    (dotLead A B d).shape = dotShape ls rs d := by
  unfold dotLead
  rw [laxDot_shape, hA, hB]
  unfold dotShape
  simp only [List.length_cons, dotFree_lead, List.map_map, Function.comp_def, List.getD_cons_succ]

theorem dotLead_get {A B : Arr K} {C : ℕ} {ls rs : List ℕ} (hA : A.shape = C :: ls) (hB : B.shape = C :: rs) {d : DotDims}
    (hl : d.lc.length = d.rc.length) (i : List ℕ) : (dotLead A B d).get i =
    ∑ c ∈ Finset.range C, sumIdx (d.lc.map fun a => ls.getD a 0) fun k =>
      A.get (c :: dotSrc ls.length d.lc d.lb d.lb.length i k) *
      B.get (c :: dotSrc rs.length d.rc d.rb (d.lb.length + (dotFree ls.length d.lc d.lb).length) i k) := by
  unfold dotLead
  rw [laxDot_get, hA, hB]
  simp only [List.length_cons, dotFree_lead, List.map_append, List.map_map, Function.comp_def, List.getD_cons_succ, List.map_cons,
    List.map_nil, List.getD_cons_zero, List.length_map]
  rw [sumIdx_append_one, ← sumIdx_comm_range]
  apply sumIdx_congr
  intro k hk
  have hk1 : k.length = d.lc.length := by rw [hk.1]; simp
  refine Finset.sum_congr rfl fun c _ => ?_
  rw [dotSrc_lead hk1, dotSrc_lead (by omega)]

end Jaqmc.Sparse
