import Verif.Lemmas.SparseMerge
/-! The arithmetic and elementwise rules (C45). -/
namespace Jaqmc.Sparse
open Spec
variable {K : Type} [Field K]

/-- Facts about a well-formed sparse value and its expansion. -/
theorem expand_facts {s : SLap K} {D : DLap K} (hw : s.WF) (h : s.expand = some D) :
    D.x = s.x ∧ D.n = s.jac.inShape.prod ∧ D.jac = s.jac.row ∧ D.lap = s.lap ∧ D.WF ∧ ∀ o ∈ s.jac.roles, o.reshapable = true := by
  obtain ⟨rfl, hr⟩ := expand_some h
  exact ⟨rfl, rfl, rfl, rfl, ⟨fun r _ => by simp [row_shape, hw.x], by simp [hw.lap, hw.x]⟩, hr⟩

/-! ### Unary rules -/

theorem handleUnary_expands {f f1 f2 : K → K} {s v : SLap K} {D : DLap K} (hw : s.WF) (hD : s.expand = some D)
    (h : handleUnary f f1 f2 s = some v) : v.ExpandsTo (chain1 f f1 f2 D) := by
  unfold handleUnary at h
  simp only [Option.bind_eq_bind, Option.pure_def, Option.bind_eq_some_iff, Option.some.injEq] at h
  obtain ⟨j, hj, T, hT, rfl⟩ := h
  obtain ⟨rfl, hr⟩ := expand_some hD
  have hf : (s.x.map f1).shape = s.jac.out := hw.x
  obtain ⟨j1, j2, j3, j4, j5, _, _⟩ := scaleSJ_some hw.jac (Or.inl hf) hj
  obtain ⟨T1, T2⟩ := sparseTrace_id hw.jac hr hT
  have hs1 : (binop (· * ·) (s.x.map f1) s.lap).shape = s.jac.out := binop_same_shape _ hf hw.lap
  have hs2 : (binop (· * ·) (s.x.map f2) T).shape = s.jac.out := binop_same_shape _ hw.x T1
  apply expandsTo_intro
  · exact ⟨j1, by rw [j2]; exact hw.x, by rw [j2]; exact binop_same_shape _ hs1 hs2⟩
  · intro o ho; exact hr o (j5 ▸ ho)
  · simp [chain1, j3]
  · exact ⟨rfl, fun i _ => rfl⟩
  · intro r hr'
    refine ⟨by simp [row_shape, chain1, j2, hw.x], fun i hi => ?_⟩
    rw [row_shape, j2] at hi
    rw [scaleSJ_row hw.jac (Or.inl hf) hj hi hr', hf, bsrc_self hi]; rfl
  · refine ⟨by rw [binop_same_shape _ hs1 hs2]; exact hw.x.symm, fun i hi => ?_⟩
    rw [binop_same_shape _ hs1 hs2] at hi
    rw [binop_same_get _ hs1 hs2 hi, binop_same_get _ hf hw.lap hi, binop_same_get _ (show (s.x.map f2).shape = _ from hw.x) T1 hi, T2 i hi]
    rfl

theorem handleNeg_expands {s v : SLap K} {D : DLap K} (hw : s.WF) (hD : s.expand = some D)
    (h : handleNeg s = some v) : v.ExpandsTo (chain1 (fun x => -x) (fun _ => -1) (fun _ => 0) D) := by
  unfold handleNeg at h
  simp only [Option.bind_eq_bind, Option.pure_def, Option.bind_eq_some_iff, Option.some.injEq] at h
  obtain ⟨j, hj, rfl⟩ := h
  obtain ⟨rfl, hr⟩ := expand_some hD
  obtain ⟨j1, j2, j3, j4, j5, _, _⟩ := scaleSJ_some hw.jac (Or.inr rfl) hj
  apply expandsTo_intro
  · exact ⟨j1, by rw [j2]; exact hw.x, by rw [j2]; exact hw.lap⟩
  · intro o ho; exact hr o (j5 ▸ ho)
  · simp [chain1, j3]
  · exact ⟨rfl, fun i _ => rfl⟩
  · intro r hr'
    refine ⟨by simp [row_shape, chain1, j2, hw.x], fun i hi => ?_⟩
    rw [row_shape, j2] at hi
    rw [scaleSJ_row hw.jac (Or.inr rfl) hj hi hr']; rfl
  · refine ⟨by simp [map_shape, chain1, hw.lap, hw.x], fun i hi => ?_⟩
    simp [map_get, chain1]

theorem handleRound_expands {rnd : K → K} {s v : SLap K} {D : DLap K} (hw : s.WF) (hD : s.expand = some D)
    (h : handleRound rnd s = some v) : v.ExpandsTo (chain1 rnd (fun _ => 0) (fun _ => 0) D) := by
  unfold handleRound at h
  simp only [Option.bind_eq_bind, Option.pure_def, Option.bind_eq_some_iff, Option.some.injEq] at h
  obtain ⟨j, hj, rfl⟩ := h
  obtain ⟨rfl, hr⟩ := expand_some hD
  obtain ⟨rfl, j1, _⟩ := withBlocks_some hj
  apply expandsTo_intro
  · exact ⟨j1, hw.x, hw.x⟩
  · exact hr
  · rfl
  · exact ⟨rfl, fun i _ => rfl⟩
  · intro r hr'
    refine ⟨by simp [row_shape, chain1, hw.x]; rfl, fun i hi => ?_⟩
    rw [row_get]
    simp [chain1, full_get]
  · exact ⟨rfl, fun i hi => by simp [full_get, chain1]⟩

/-! ### Sparse with plain -/

theorem toCommon_some {s t : SLap K} {p q : Arr K} (hw : s.WF) (h : toCommon s p = some (t, q)) :
    q = p.bcast (bshape s.x.shape p.shape) ∧ t.WF ∧ t.jac.out = bshape s.x.shape p.shape ∧ t.x = s.x.bcast (bshape s.x.shape p.shape) ∧
    t.lap = s.lap.bcast (bshape s.x.shape p.shape) ∧ broadcastSJ s.jac (bshape s.x.shape p.shape) = some t.jac := by
  unfold toCommon at h
  simp only at h
  cases hb : broadcastSL s (bshape s.x.shape p.shape) with
  | none => rw [hb] at h; cases h
  | some t' =>
    rw [hb] at h
    simp only [Option.map_some, Option.some.injEq, Prod.mk.injEq] at h
    obtain ⟨rfl, rfl⟩ := h
    obtain ⟨h1, h2, h3, h4, h5⟩ := broadcastSL_some hw hb
    exact ⟨rfl, h1, h2, h3, h4, h5⟩

theorem bshapeRev_comm_ok : ∀ s t : List ℕ, (∀ a, a < s.length → a < t.length → s.getD a 0 = 1 ∨ t.getD a 0 = 1 ∨ s.getD a 0 = t.getD a 0) →
    bshapeRev s t = bshapeRev t s
  | [], t, _ => by simp [bshapeRev, bshapeRev_nil]
  | a :: s, [], _ => by simp [bshapeRev]
  | a :: s, b :: t, h => by
    simp only [bshapeRev]
    rw [bshapeRev_comm_ok s t fun k h1 h2 => by simpa using h (k + 1) (by simpa using h1) (by simpa using h2)]
    have := h 0 (by simp) (by simp)
    simp only [List.getD_cons_zero] at this
    congr 1
    rcases this with h | h | h
    · subst h; by_cases hb : b = 1 <;> simp [hb]
    · subst h; by_cases ha : a = 1 <;> simp [ha]
    · subst h; simp

theorem bshape_comm {s t : List ℕ} (h : Compat s t) : bshape s t = bshape t s := by
  unfold bshape
  rw [bshapeRev_comm_ok _ _ fun a h1 h2 => h a (by simpa using h1) (by simpa using h2)]

/-- What a broadcast operand looks like at an entry of the common shape. -/
structure BFacts (s : SLap K) (j : SJac K) (sh : List ℕ) : Prop where
  valid : j.Valid
  out : j.out = sh
  inShape : j.inShape = s.jac.inShape
  ownAx : j.ownAx = s.jac.ownAx
  len : j.roles.length = s.jac.roles.length
  resh : (∀ o ∈ s.jac.roles, o.reshapable = true) → ∀ o ∈ j.roles, o.reshapable = true
  row : ∀ i, InB sh i → ∀ r, r < s.jac.inShape.prod → (j.row r).get i = (s.jac.row r).get (bsrc s.x.shape i)

theorem bfacts {s : SLap K} (hw : s.WF) {sh : List ℕ} {j : SJac K} (h : broadcastSJ s.jac sh = some j) : BFacts s j sh := by
  obtain ⟨h1, h2, h3, h4, h5, h6, _, _⟩ := broadcastSJ_some hw.jac h
  exact ⟨h1, h2, h3, h4, h5, h6, fun i hi r hr => by rw [hw.x]; exact broadcastSJ_row hw.jac h hi hr⟩

theorem ruleSS {F : Fun2 K} {a b v : SLap K} {D E : DLap K} {aj bj : SJac K} {sh : List ℕ} (hwa : a.WF) (hwb : b.WF)
    (hD : a.expand = some D) (hE : b.expand = some E) (hn : a.jac.inShape.prod = b.jac.inShape.prod)
    (hsh : sh = bshape a.x.shape b.x.shape) (ha : BFacts a aj sh) (hb : BFacts b bj sh)
    (hv : v.jac.Valid) (hout : v.jac.out = sh) (hin : v.jac.inShape = a.jac.inShape)
    (hres : ∀ o ∈ v.jac.roles, o ∈ aj.roles ∨ o ∈ bj.roles) (hxs : v.x.shape = sh) (hls : v.lap.shape = sh)
    (hx : ∀ i, InB sh i → v.x.get i = F.f (a.x.get (bsrc a.x.shape i)) (b.x.get (bsrc b.x.shape i)))
    (hrow : ∀ i, InB sh i → ∀ r, r < a.jac.inShape.prod → (v.jac.row r).get i =
      F.d1 (a.x.get (bsrc a.x.shape i)) (b.x.get (bsrc b.x.shape i)) * (aj.row r).get i +
      F.d2 (a.x.get (bsrc a.x.shape i)) (b.x.get (bsrc b.x.shape i)) * (bj.row r).get i)
    (hlap : ∀ i, InB sh i → v.lap.get i =
      F.d1 (a.x.get (bsrc a.x.shape i)) (b.x.get (bsrc b.x.shape i)) * a.lap.get (bsrc a.x.shape i) +
      F.d2 (a.x.get (bsrc a.x.shape i)) (b.x.get (bsrc b.x.shape i)) * b.lap.get (bsrc b.x.shape i) +
      (F.d11 (a.x.get (bsrc a.x.shape i)) (b.x.get (bsrc b.x.shape i)) *
          (∑ r ∈ Finset.range a.jac.inShape.prod, (aj.row r).get i * (aj.row r).get i) +
       2 * F.d12 (a.x.get (bsrc a.x.shape i)) (b.x.get (bsrc b.x.shape i)) *
          (∑ r ∈ Finset.range a.jac.inShape.prod, (aj.row r).get i * (bj.row r).get i) +
       F.d22 (a.x.get (bsrc a.x.shape i)) (b.x.get (bsrc b.x.shape i)) *
          (∑ r ∈ Finset.range a.jac.inShape.prod, (bj.row r).get i * (bj.row r).get i))) :
    v.ExpandsTo (chain2 F D E) := by
  obtain ⟨rfl, hra⟩ := expand_some hD
  obtain ⟨rfl, hrb⟩ := expand_some hE
  have hrowa : ∀ r, (a.jac.row r).shape = a.x.shape := fun r => by rw [row_shape, hwa.x]
  have hrowb : ∀ r, (b.jac.row r).shape = b.x.shape := fun r => by rw [row_shape, hwb.x]
  apply expandsTo_intro
  · exact ⟨hv, by rw [hxs, hout], by rw [hls, hout]⟩
  · intro o ho
    rcases hres o ho with h | h
    · exact ha.resh hra o h
    · exact hb.resh hrb o h
  · simp [chain2, hin]
  · refine ⟨by simp [chain2, hxs, hsh], fun i hi => ?_⟩
    rw [hxs] at hi
    rw [hx i hi]; rfl
  · intro r hr
    have hr' : r < a.jac.inShape.prod := hr
    refine ⟨by simp [row_shape, hout, hsh, chain2], fun i hi => ?_⟩
    rw [row_shape, hout] at hi
    rw [hrow i hi r hr', ha.row i hi r hr', hb.row i hi r (hn ▸ hr')]
    simp only [chain2, bcast_get, hrowa, hrowb]
  · refine ⟨by simp [hls, hsh, chain2], fun i hi => ?_⟩
    rw [hls] at hi
    rw [hlap i hi]
    simp only [chain2, bcast_get, hrowa, hrowb, hwa.lap, hwb.lap, ← hwa.x, ← hwb.x]
    have e1 : ∀ r ∈ Finset.range a.jac.inShape.prod, (aj.row r).get i = (a.jac.row r).get (bsrc a.x.shape i) := fun r hr =>
      ha.row i hi r (Finset.mem_range.mp hr)
    have e2 : ∀ r ∈ Finset.range a.jac.inShape.prod, (bj.row r).get i = (b.jac.row r).get (bsrc b.x.shape i) := fun r hr =>
      hb.row i hi r (hn ▸ Finset.mem_range.mp hr)
    have s1 : ∑ r ∈ Finset.range a.jac.inShape.prod, (aj.row r).get i * (aj.row r).get i =
        ∑ r ∈ Finset.range a.jac.inShape.prod, (a.jac.row r).get (bsrc a.x.shape i) * (a.jac.row r).get (bsrc a.x.shape i) :=
      Finset.sum_congr rfl fun r hr => by rw [e1 r hr]
    have s2 : ∑ r ∈ Finset.range a.jac.inShape.prod, (aj.row r).get i * (bj.row r).get i =
        ∑ r ∈ Finset.range a.jac.inShape.prod, (a.jac.row r).get (bsrc a.x.shape i) * (b.jac.row r).get (bsrc b.x.shape i) :=
      Finset.sum_congr rfl fun r hr => by rw [e1 r hr, e2 r hr]
    have s3 : ∑ r ∈ Finset.range a.jac.inShape.prod, (bj.row r).get i * (bj.row r).get i =
        ∑ r ∈ Finset.range a.jac.inShape.prod, (b.jac.row r).get (bsrc b.x.shape i) * (b.jac.row r).get (bsrc b.x.shape i) :=
      Finset.sum_congr rfl fun r hr => by rw [e2 r hr]
    rw [s1, s2, s3]

theorem ruleSP {F : Fun2 K} {a v : SLap K} {p : Arr K} {D : DLap K} {aj : SJac K} {sh : List ℕ} (hwa : a.WF)
    (hD : a.expand = some D)
    (hsh : sh = bshape a.x.shape p.shape) (ha : BFacts a aj sh)
    (hv : v.jac.Valid) (hout : v.jac.out = sh) (hin : v.jac.inShape = a.jac.inShape)
    (hres : ∀ o ∈ v.jac.roles, o ∈ aj.roles) (hxs : v.x.shape = sh) (hls : v.lap.shape = sh)
    (hx : ∀ i, InB sh i → v.x.get i = F.f (a.x.get (bsrc a.x.shape i)) (p.get (bsrc p.shape i)))
    (hrow : ∀ i, InB sh i → ∀ r, r < a.jac.inShape.prod → (v.jac.row r).get i =
      F.d1 (a.x.get (bsrc a.x.shape i)) (p.get (bsrc p.shape i)) * (aj.row r).get i)
    (hlap : ∀ i, InB sh i → v.lap.get i =
      F.d1 (a.x.get (bsrc a.x.shape i)) (p.get (bsrc p.shape i)) * a.lap.get (bsrc a.x.shape i) +
      F.d11 (a.x.get (bsrc a.x.shape i)) (p.get (bsrc p.shape i)) *
          (∑ r ∈ Finset.range a.jac.inShape.prod, (aj.row r).get i * (aj.row r).get i)) :
    v.ExpandsTo (chain2 F D (const D.n p)) := by
  obtain ⟨rfl, hra⟩ := expand_some hD
  have hrowa : ∀ r, (a.jac.row r).shape = a.x.shape := fun r => by rw [row_shape, hwa.x]
  apply expandsTo_intro
  · exact ⟨hv, by rw [hxs, hout], by rw [hls, hout]⟩
  · intro o ho
    exact ha.resh hra o (hres o ho)
  · simp [chain2, hin]
  · refine ⟨by simp [chain2, hxs, hsh, const], fun i hi => ?_⟩
    rw [hxs] at hi
    rw [hx i hi]; rfl
  · intro r hr
    have hr' : r < a.jac.inShape.prod := hr
    refine ⟨by simp [row_shape, hout, hsh, chain2, const], fun i hi => ?_⟩
    rw [row_shape, hout] at hi
    rw [hrow i hi r hr', ha.row i hi r hr']
    simp only [chain2, bcast_get, hrowa, const, full_get]
    ring
  · refine ⟨by simp [hls, hsh, chain2, const], fun i hi => ?_⟩
    rw [hls] at hi
    rw [hlap i hi]
    simp only [chain2, bcast_get, hrowa, hwa.lap, ← hwa.x, const, full_get]
    have e1 : ∀ r ∈ Finset.range a.jac.inShape.prod, (aj.row r).get i = (a.jac.row r).get (bsrc a.x.shape i) := fun r hr =>
      ha.row i hi r (Finset.mem_range.mp hr)
    rw [Finset.sum_congr rfl fun r hr => by rw [e1 r hr]]
    simp

theorem rulePS {F : Fun2 K} {a v : SLap K} {p : Arr K} {D : DLap K} {aj : SJac K} {sh : List ℕ} (hwa : a.WF)
    (hD : a.expand = some D)
    (hsh : sh = bshape p.shape a.x.shape) (ha : BFacts a aj sh)
    (hv : v.jac.Valid) (hout : v.jac.out = sh) (hin : v.jac.inShape = a.jac.inShape)
    (hres : ∀ o ∈ v.jac.roles, o ∈ aj.roles) (hxs : v.x.shape = sh) (hls : v.lap.shape = sh)
    (hx : ∀ i, InB sh i → v.x.get i = F.f (p.get (bsrc p.shape i)) (a.x.get (bsrc a.x.shape i)))
    (hrow : ∀ i, InB sh i → ∀ r, r < a.jac.inShape.prod → (v.jac.row r).get i =
      F.d2 (p.get (bsrc p.shape i)) (a.x.get (bsrc a.x.shape i)) * (aj.row r).get i)
    (hlap : ∀ i, InB sh i → v.lap.get i =
      F.d2 (p.get (bsrc p.shape i)) (a.x.get (bsrc a.x.shape i)) * a.lap.get (bsrc a.x.shape i) +
      F.d22 (p.get (bsrc p.shape i)) (a.x.get (bsrc a.x.shape i)) *
          (∑ r ∈ Finset.range a.jac.inShape.prod, (aj.row r).get i * (aj.row r).get i)) :
    v.ExpandsTo (chain2 F (const D.n p) D) := by
  obtain ⟨rfl, hra⟩ := expand_some hD
  have hrowa : ∀ r, (a.jac.row r).shape = a.x.shape := fun r => by rw [row_shape, hwa.x]
  apply expandsTo_intro
  · exact ⟨hv, by rw [hxs, hout], by rw [hls, hout]⟩
  · intro o ho
    exact ha.resh hra o (hres o ho)
  · simp [chain2, hin, const]
  · refine ⟨by simp [chain2, hxs, hsh, const], fun i hi => ?_⟩
    rw [hxs] at hi
    rw [hx i hi]; rfl
  · intro r hr
    have hr' : r < a.jac.inShape.prod := hr
    refine ⟨by simp [row_shape, hout, hsh, chain2, const], fun i hi => ?_⟩
    rw [row_shape, hout] at hi
    rw [hrow i hi r hr', ha.row i hi r hr']
    simp only [chain2, bcast_get, hrowa, const, full_get]
    ring
  · refine ⟨by simp [hls, hsh, chain2, const], fun i hi => ?_⟩
    rw [hls] at hi
    rw [hlap i hi]
    simp only [chain2, bcast_get, hrowa, hwa.lap, ← hwa.x, const, full_get]
    have e1 : ∀ r ∈ Finset.range a.jac.inShape.prod, (aj.row r).get i = (a.jac.row r).get (bsrc a.x.shape i) := fun r hr =>
      ha.row i hi r (Finset.mem_range.mp hr)
    rw [Finset.sum_congr rfl fun r hr => by rw [e1 r hr]]
    simp

end Jaqmc.Sparse
