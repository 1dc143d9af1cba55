import Verif.Lemmas.SparseReduce
/-! `reduce_max` and `reduce_min` (C45). -/
namespace Jaqmc.Sparse
open Spec

/-- `dropAxes` by recursion. -/
def dropP : (ℕ → Bool) → List ℕ → List ℕ
  | _, [] => []
  | p, k :: is => if p 0 then k :: dropP (fun a => p (a + 1)) is else dropP (fun a => p (a + 1)) is

theorem dropP_eq (p : ℕ → Bool) (l : List ℕ) : ((List.range l.length).filter p).map (fun a => l.getD a 0) = dropP p l := by
  induction l generalizing p with
  | nil => rfl
  | cons k is ih =>
    rw [List.length_cons, List.range_succ_eq_map, List.filter_cons, List.filter_map]
    simp only [dropP, ← ih, apply_ite (List.map _), List.map_cons, List.map_map, List.getD_cons_zero, Function.comp_def, List.getD_cons_succ]

theorem dropAxes_eq (dims l : List ℕ) : dropAxes dims l = dropP (fun a => a ∉ dims) l := by
  unfold dropAxes keptAxes
  exact dropP_eq _ l

theorem dropP_inB (p : ℕ → Bool) {sh j : List ℕ} (h : InB sh j) : InB (dropP p sh) (dropP p j) := by
  induction sh generalizing p j with
  | nil => rw [inB_nil.mp h]; exact inB_nil.mpr rfl
  | cons n sh ih =>
    cases j with
    | nil => have := h.1; simp at this
    | cons k j =>
      obtain ⟨h1, h2⟩ := inB_cons.mp h
      unfold dropP
      by_cases hp : p 0
      · simp only [hp, if_true]; exact inB_cons.mpr ⟨h1, ih _ h2⟩
      · simp only [hp]; exact ih _ h2

theorem dropAxes_inB (dims : List ℕ) {sh j : List ℕ} (h : InB sh j) : InB (dropAxes dims sh) (dropAxes dims j) := by
  rw [dropAxes_eq, dropAxes_eq]; exact dropP_inB _ h

/-- Keep the size-one axes in place. -/
def onesP : (ℕ → Bool) → List ℕ → List ℕ
  | _, [] => []
  | p, k :: is => (if p 0 then k else 1) :: onesP (fun a => p (a + 1)) is

def zerosP : (ℕ → Bool) → List ℕ → List ℕ
  | _, [] => []
  | p, k :: is => (if p 0 then k else 0) :: zerosP (fun a => p (a + 1)) is

theorem onesP_eq (p : ℕ → Bool) (l : List ℕ) : (List.range l.length).map (fun a => if p a then l.getD a 0 else 1) = onesP p l := by
  induction l generalizing p with
  | nil => rfl
  | cons k is ih =>
    rw [List.length_cons, List.range_succ_eq_map, List.map_cons, List.map_map]
    simp only [onesP, ← ih, List.getD_cons_zero, Function.comp_def, List.getD_cons_succ]

theorem zerosP_eq (p : ℕ → Bool) (l : List ℕ) : (List.range l.length).map (fun a => if p a then l.getD a 0 else 0) = zerosP p l := by
  induction l generalizing p with
  | nil => rfl
  | cons k is ih =>
    rw [List.length_cons, List.range_succ_eq_map, List.map_cons, List.map_map]
    simp only [zerosP, ← ih, List.getD_cons_zero, Function.comp_def, List.getD_cons_succ]

theorem onesP_prod (p : ℕ → Bool) (l : List ℕ) : (onesP p l).prod = (dropP p l).prod := by
  induction l generalizing p with
  | nil => rfl
  | cons k is ih => unfold onesP dropP; by_cases hp : p 0 <;> simp [hp, ih]

theorem ravel_onesP (p : ℕ → Bool) {sh j : List ℕ} (h : j.length = sh.length) :
    ravel (onesP p sh) (zerosP p j) = ravel (dropP p sh) (dropP p j) := by
  induction sh generalizing p j with
  | nil => cases j <;> simp_all [onesP, zerosP, dropP, ravel]
  | cons n sh ih =>
    cases j with
    | nil => simp at h
    | cons k j =>
      have h' : j.length = sh.length := by simpa using h
      unfold onesP zerosP dropP
      by_cases hp : p 0
      · simp only [hp, if_true, ravel, onesP_prod, ih _ h']
      · simp only [hp, ravel, ih _ h']; simp

theorem broadcastReduced_get {L : Type} {y : Arr L} {shape axes j : List ℕ} (hy : y.shape = dropAxes axes shape) (hj : InB shape j) :
    (broadcastReduced y shape axes).get j = y.get (dropAxes axes j) := by
  unfold broadcastReduced
  simp only [bcast_get, laxReshape, hy]
  congr 1
  have e1 : (List.range shape.length).map (fun a => if a ∈ axes then 1 else shape.getD a 0) = onesP (fun a => a ∉ axes) shape := by
    rw [← onesP_eq]
    apply List.map_congr_left
    intro a _
    by_cases h : a ∈ axes <;> simp [h]
  have e2 : bsrc ((List.range shape.length).map fun a => if a ∈ axes then 1 else shape.getD a 0) j = zerosP (fun a => a ∉ axes) j := by
    rw [← zerosP_eq]
    unfold bsrc
    rw [List.length_map, List.length_range, hj.length]
    apply List.map_congr_left
    intro a ha
    have ha' : a < shape.length := List.mem_range.mp ha
    rw [getD_map_range, if_pos ha']
    by_cases h : a ∈ axes
    · simp [h]
    · have := hj.2 a ha'
      simp only [h, if_false, Nat.sub_self, Nat.add_zero, not_false_eq_true, decide_true, if_true]
      split
      · omega
      · rfl
  rw [e1] at e2 ⊢
  rw [e2, ravel_onesP _ hj.length, ← dropAxes_eq, ← dropAxes_eq, unravel_ravel (dropAxes_inB axes hj)]

theorem broadcastReduced_shape {L : Type} (y : Arr L) (shape axes : List ℕ) : (broadcastReduced y shape axes).shape = shape := rfl

variable {K : Type} [Field K]

open Classical in
theorem handleReduceSelect_expands {red : Arr K → Arr K} {axes : List ℕ} {s : SLap K} {v : Val K} {D : DLap K} (hw : s.WF)
    (hD : s.expand = some D) (hred : (red D.x).shape = dropAxes axes D.x.shape)
    (hn : axes.Nodup) (hne : ∀ a ∈ axes, D.x.shape.getD a 0 ≠ 0) (h : handleReduceSelect red axes s = some v) :
    v.ExpandsTo (reducePick red axes D) := by
  obtain ⟨hDe, hr⟩ := expand_some hD
  have hxe : D.x = s.x := by rw [hDe]
  have hxs : D.x.shape = s.jac.out := by rw [hxe]; exact hw.x
  have hxs' := hw.x
  have hDn : D.n = s.jac.inShape.prod := by rw [hDe]
  have hDl : D.lap = s.lap := by rw [hDe]
  have hDj : D.jac = s.jac.row := by rw [hDe]
  rw [hxs] at hne
  rw [hxe, hxs'] at hred
  -- the weights
  unfold handleReduceSelect at h
  simp only [hxs'] at h
  generalize hm : (binop (fun u v => if u = v then (1 : K) else 0) s.x (broadcastReduced (red s.x) s.jac.out axes)) = mask at h
  generalize hc : broadcastReduced (laxReduceSum mask axes) s.jac.out axes = count at h
  generalize hwt : binop (· / ·) mask count = weight at h
  have m1 : mask.shape = s.jac.out := by rw [← hm]; exact binop_same_shape _ hxs' rfl
  have m2 : ∀ k, InB s.jac.out k → mask.get k = if s.x.get k = (red s.x).get (dropAxes axes k) then 1 else 0 := by
    intro k hk
    rw [← hm, binop_same_get _ hxs' rfl hk, broadcastReduced_get hred hk]
  have c1 : count.shape = s.jac.out := by rw [← hc]; rfl
  let cnt : List ℕ → K := fun i => sumIdx s.jac.out fun j => if dropAxes axes j = i ∧ s.x.get j = (red s.x).get (dropAxes axes j) then 1 else 0
  have c2 : ∀ k, InB s.jac.out k → count.get k = cnt (dropAxes axes k) := by
    intro k hk
    rw [← hc, broadcastReduced_get (by simp only [laxReduceSum, m1]) hk]
    simp only [laxReduceSum, m1]
    apply sumIdx_congr
    intro j hj
    rw [m2 j hj]
    by_cases h1 : dropAxes axes j = dropAxes axes k
    · by_cases h2 : s.x.get j = (red s.x).get (dropAxes axes k) <;> simp [h1, h2]
    · simp [h1]
  have w1 : weight.shape = s.jac.out := by rw [← hwt]; exact binop_same_shape _ m1 c1
  have w2 : ∀ k, InB s.jac.out k → weight.get k = (if s.x.get k = (red s.x).get (dropAxes axes k) then 1 else 0) / cnt (dropAxes axes k) := by
    intro k hk
    rw [← hwt, binop_same_get _ m1 c1 hk, m2 k hk, c2 k hk]
  -- the average
  have avg : ∀ A : Arr K, A.shape = s.jac.out → ∀ B : Arr K, B.shape = s.jac.out → (∀ k, InB s.jac.out k → B.get k = weight.get k * A.get k) →
      (laxReduceSum B axes).Same ⟨dropAxes axes A.shape, fun i =>
        (sumIdx s.jac.out fun j => if dropAxes axes j = i ∧ s.x.get j = (red s.x).get (dropAxes axes j) then A.get j else 0) / cnt i⟩ := by
    intro A hA B hB hBA
    refine ⟨by simp only [laxReduceSum, hA, hB], fun i _ => ?_⟩
    simp only [laxReduceSum, hB]
    rw [← sumIdx_div]
    apply sumIdx_congr
    intro k hk
    rw [hBA k hk, w2 k hk]
    by_cases h1 : dropAxes axes k = i
    · subst h1
      by_cases h2 : s.x.get k = (red s.x).get (dropAxes axes k) <;> simp [h2]
      · rw [div_eq_mul_inv, mul_comm]
    · simp [h1]
  have hlap := avg s.lap hw.lap (binop (· * ·) weight s.lap) (binop_same_shape _ w1 hw.lap) fun k hk => binop_same_get _ w1 hw.lap hk
  split at h
  · rename_i roles hro
    simp only [Option.bind_eq_bind, Option.pure_def, Option.bind_eq_some_iff, Option.some.injEq] at h
    obtain ⟨j, hj, rfl⟩ := h
    have key := kernel_expands (q := fun A => ⟨dropAxes axes A.shape, fun i =>
        (sumIdx s.jac.out fun j => if dropAxes axes j = i ∧ s.x.get j = (red s.x).get (dropAxes axes j) then A.get j else 0) / cnt i⟩)
      (sh := dropAxes axes s.jac.out) (px := red s.x) (pl := laxReduceSum (binop (· * ·) weight s.lap) axes)
      (W := fun i k => if dropAxes axes k = i then weight.get k else 0) hw hD hred
      (by simp only [laxReduceSum]; rw [binop_same_shape _ w1 hw.lap]) ?_ hj ?_ ?_ ?_ ?_
    · refine SLap.ExpandsTo.congr key ⟨?_, hDn ▸ rfl, fun r hr => ?_, ?_⟩
      · show (red s.x).Same (red D.x); rw [hxe]; exact .refl _
      · simp only [reducePick, hxe, hxs', cnt]; exact .refl _
      · simp only [reducePick, hxe, hxs', hDl]; exact hlap
    · intro A hA
      refine ⟨by simp only [hA], fun i _ => ?_⟩
      simp only
      rw [← sumIdx_div]
      apply sumIdx_congr
      intro k hk
      by_cases h1 : dropAxes axes k = i
      · subst h1
        simp only [true_and, if_true, w2 k hk]
        by_cases h2 : s.x.get k = (red s.x).get (dropAxes axes k) <;> simp [h2]
        · rw [div_eq_mul_inv, mul_comm]
      · simp [h1]
    · simp only [laxReduceSum]
      rw [show (binop (· * ·) s.jac.blocks (laxReshape weight (1 :: 1 :: s.jac.out))).shape = s.jac.roles.length :: s.jac.coords :: s.jac.out by
        simp only [binop, hw.jac.shape, laxReshape, bshape_ones], dropAxes_pair]
      rfl
    · intro o ho
      obtain ⟨o', ho', hf⟩ := mapM_mem hro ho
      exact reduce_reshapable hw.jac ho' (hr o' ho') hne hf
    · intro i k _ hk hW t
      have hik : dropAxes axes k = i := by by_contra hc; simp [hc] at hW
      apply roles_mapM_at hro
      intro o ho p hf
      rw [← hik]
      exact reduce_at hw.jac ho hn hk hf
    · intro i hi t ht c hc
      obtain ⟨_, b2⟩ := reduceBlocks (axes := axes) (B := binop (· * ·) s.jac.blocks (laxReshape weight (1 :: 1 :: s.jac.out)))
        (S := s.jac.roles.length) (C := s.jac.coords) (sh := s.jac.out) (by simp only [binop, hw.jac.shape, laxReshape, bshape_ones])
      rw [b2 t c i ht hc]
      apply sumIdx_congr
      intro k hk
      by_cases h1 : dropAxes axes k = i
      · simp only [h1, if_true, one_mul]
        simp only [binop, hw.jac.shape, laxReshape, bsrc_pair ht hc hk, bsrc_ones hk, ravel_one_one, w1, unravel_ravel hk]
        rw [mul_comm]
      · simp [h1]
  · simp only [Option.bind_eq_bind, Option.pure_def, Option.bind_eq_some_iff, Option.some.injEq] at h
    obtain ⟨J, hJ, rfl⟩ := h
    obtain ⟨rfl, _⟩ := toDense_some hJ
    refine ⟨⟨fun r hr => ?_, ?_⟩, ?_, hDn.symm, fun r hr => ?_, ?_⟩
    · simp only [laxReduceSum]; rw [binop_same_shape _ (row_shape _ _) w1, hred]
    · simp only [laxReduceSum]; rw [binop_same_shape _ w1 hw.lap, hred]
    · show (red s.x).Same (red D.x); rw [hxe]; exact .refl _
    · simp only [reducePick, hxe, hxs', hDj]
      exact avg _ (row_shape _ _) _ (binop_same_shape _ (row_shape _ _) w1) fun k hk => by
        rw [binop_same_get _ (row_shape _ _) w1 hk, mul_comm]
    · simp only [reducePick, hxe, hxs', hDl]; exact hlap

end Jaqmc.Sparse
