import Verif.Lemmas.SparseProg
import Verif.Lemmas.SparseSeed
/-!
C45: where the sparse rules do not agree with the dense ones.
-/
namespace Jaqmc.Sparse.Props
open Jaqmc.Sparse Jaqmc.Sparse.Spec

/-- Three one-dimensional coordinates with values 1, 2, 3. -/
def pts : Arr ℚ := ⟨[3], fun i => 1 + (i.headD 0 : ℚ)⟩

/-- Entry `(r, i)` of the dense Jacobian of a result over `n` coordinates. -/
def entry (n : ℕ) (v : Val ℚ) (r : ℕ) (i : List ℕ) : Option ℚ := (v.lift n).map fun D => (D.jac r).get i

/-- `concatenate([plain of 2, r (3 owners), plain of 4])` along the owner axis: the owner ids of the tracked segment are
repeated for every segment, so entry 2 of the result, which is `r[0]`, is recorded as depending on `r[2]` and not on `r[0]`. -/
theorem c45_concat_plain_wrong :
    ∃ s v, seedInput pts (fullA [] 1) 0 = some s ∧
      handleConcatenate 0 [.plain (fullA [2] 5), .sparse s, .plain (fullA [4] 5)] = some v ∧
      entry 3 v 0 [2] = some 0 ∧ entry 3 v 2 [2] = some 1 ∧
      ∀ Ds, [Val.plain (fullA [2] (5 : ℚ)), .sparse s, .plain (fullA [4] 5)].mapM (Val.lift 3) = some Ds →
        ¬ v.ExpandsTo (linearN (laxConcatenate · 0) 3 Ds) := by
  have hs : (seedInput pts (fullA [] 1) 0).isSome = true := by decide +kernel
  obtain ⟨s, hs⟩ := Option.isSome_iff_exists.1 hs
  have hc : ((seedInput pts (fullA [] 1) 0).bind fun s =>
      handleConcatenate 0 [.plain (fullA [2] 5), .sparse s, .plain (fullA [4] 5)]).isSome = true := by decide +kernel
  obtain ⟨v, hv⟩ := Option.isSome_iff_exists.1 hc
  have h0 : (((seedInput pts (fullA [] 1) 0).bind fun s =>
      handleConcatenate 0 [.plain (fullA [2] 5), .sparse s, .plain (fullA [4] 5)]).bind fun v => entry 3 v 0 [2]) = some 0 := by decide +kernel
  have h2 : (((seedInput pts (fullA [] 1) 0).bind fun s =>
      handleConcatenate 0 [.plain (fullA [2] 5), .sparse s, .plain (fullA [4] 5)]).bind fun v => entry 3 v 2 [2]) = some 1 := by decide +kernel
  have hd : ((seedInput pts (fullA [] 1) 0).bind fun s =>
      ([Val.plain (fullA [2] (5 : ℚ)), .sparse s, .plain (fullA [4] 5)].mapM (Val.lift 3)).map fun Ds =>
        ((linearN (laxConcatenate · 0) 3 Ds).jac 0).get [2]) = some 1 := by decide +kernel
  rw [hv] at h0 h2
  rw [hs] at hv hd
  refine ⟨s, v, hs, hv, h0, h2, fun Ds hDs he => ?_⟩
  simp only [Option.bind_some] at hd h0
  rw [hDs] at hd
  obtain ⟨D, hD, hsame⟩ := expands_lift he
  have hn : (linearN (laxConcatenate · 0) 3 Ds).n = 3 := rfl
  rw [hn] at hD
  unfold entry at h0
  rw [hD] at h0
  have e0 : (D.jac 0).get [2] = 0 := by simpa using h0
  have e1 : ((linearN (laxConcatenate · 0) 3 Ds).jac 0).get [2] = 1 := by simpa using hd
  have hD3 : D.n = 3 := hsame.2.1
  have hj := hsame.2.2.1 0 (by omega)
  have hsh : (D.jac 0).shape = [9] := by
    rw [hj.1]
    have h9 : ((seedInput pts (fullA [] 1) 0).bind fun s =>
      ([Val.plain (fullA [2] (5 : ℚ)), .sparse s, .plain (fullA [4] 5)].mapM (Val.lift 3)).map fun Ds =>
        ((linearN (laxConcatenate · 0) 3 Ds).jac 0).shape) = some [9] := by decide +kernel
    rw [hs] at h9
    simp only [Option.bind_some] at h9
    rw [hDs] at h9
    simpa using h9
  have := hj.2 [2] (by rw [hsh]; refine ⟨rfl, fun a ha => ?_⟩; have : a = 0 := by simpa using ha
                       subst this; simp)
  rw [e0, e1] at this
  exact absurd this (by norm_num)

/-- The same with one plain segment whose length is not the number of owners: an exception. -/
theorem c45_concat_plain_raises : ∃ s, seedInput pts (fullA [] 1) 0 = some s ∧
    handleConcatenate 0 [.sparse s, .plain (fullA [2] 5)] = none := by
  have hs : (seedInput pts (fullA [] 1) 0).isSome = true := by decide +kernel
  obtain ⟨s, hs⟩ := Option.isSome_iff_exists.1 hs
  refine ⟨s, hs, ?_⟩
  have : ((seedInput pts (fullA [] 1) 0).map fun s => (handleConcatenate 0 [.sparse s, .plain (fullA [2] (5 : ℚ))]).isNone) = some true := by
    decide +kernel
  rw [hs] at this
  simpa using this

/-- Summing a tracked array over an axis of length 0 (no electron of one spin): the result is accepted, but its owner list
is empty and `to_dense` raises.  The dense rule gives the zero array with zero derivatives. -/
theorem c45_empty_sum : ∃ (s t : SLap ℚ) (v : SLap ℚ), seedInput pts (fullA [] 1) 0 = some s ∧ handleSlice [3] [3] [1] s = some t ∧
    handleReduceSum [0] t = some (.sparse v) ∧ v.expand = none ∧ t.expand.isSome := by
  have hs : (seedInput pts (fullA [] 1) 0).isSome = true := by decide +kernel
  obtain ⟨s, hs⟩ := Option.isSome_iff_exists.1 hs
  have ht : ((seedInput pts (fullA [] 1) 0).bind fun s => handleSlice [3] [3] [1] s).isSome = true := by decide +kernel
  obtain ⟨t, ht⟩ := Option.isSome_iff_exists.1 ht
  have h1 : (((seedInput pts (fullA [] 1) 0).bind fun s => handleSlice [3] [3] [1] s).map fun t =>
      (match handleReduceSum [0] t with
        | some (.sparse v) => v.expand.isNone
        | _ => false) && t.expand.isSome) = some true := by decide +kernel
  rw [ht] at h1
  rw [hs] at ht
  simp only [Option.map_some, Option.some.injEq, Bool.and_eq_true] at h1
  obtain ⟨h1, h2⟩ := h1
  split at h1
  · rename_i v hv
    exact ⟨s, t, v, hs, ht, hv, by simpa using h1, h2⟩
  · cases h1

/-- `|x|` of a tracked real value at 0: the sparse rule reports the derivative 1, the dense rule reports 0. -/
theorem c45_abs_zero {s v : SLap ℝ} {D : DLap ℝ} (hw : s.WF) (hD : s.expand = some D) (h : handleAbsReal s = some v)
    {i : List ℕ} {r : ℕ} (hi : InB D.x.shape i) (hr : r < D.n) (h0 : D.x.get i = 0) (h1 : (D.jac r).get i ≠ 0) :
    (∃ E, v.expand = some E ∧ (E.jac r).get i = (D.jac r).get i) ∧
    ¬ v.ExpandsTo (chain1 (fun x => |x|) (fun x => if x = 0 then 0 else if 0 < x then 1 else -1) (fun _ => 0) D) := by
  obtain ⟨hv, E, hE, hs1, hs2, hs3, hs4⟩ := handleAbsReal_rule hw hD h
  have hn : E.n = D.n := hs2
  have hj := hs3 r (by omega)
  have hsh : (E.jac r).shape = D.x.shape := hj.1
  have e1 : (E.jac r).get i = (D.jac r).get i := by
    rw [hj.2 i (by rw [hsh]; exact hi)]
    simp [chain1, h0]
  refine ⟨⟨E, hE, e1⟩, fun hx => ?_⟩
  obtain ⟨_, E', hE', _, hn', hs3', _⟩ := hx
  rw [hE] at hE'
  obtain rfl := Option.some.inj hE'
  have := (hs3' r (by omega)).2 i (by rw [hsh]; exact hi)
  rw [e1] at this
  simp [chain1, h0] at this
  exact h1 this

/-- `max(x, c)` of a tracked `x` and a constant `c` at a tie: the sparse rule gives the derivative of `x`, the dense rule
half of it. -/
theorem c45_max_tie : ∃ s v, seedInput pts (fullA [] 1) 0 = some s ∧
    handlePick max (fun a b => decide (b ≤ a)) (.sparse s) (.plain (fullA [3] 2)) none = some v ∧
    entry 3 v 1 [1] = some 1 ∧
    ∀ D, s.expand = some D → ((chain2 (pickF max fun a b => decide (b ≤ a) = true) D (const 3 (fullA [3] 2))).jac 1).get [1] = 1 / 2 := by
  have hs : (seedInput pts (fullA [] 1) 0).isSome = true := by decide +kernel
  obtain ⟨s, hs⟩ := Option.isSome_iff_exists.1 hs
  have hc : ((seedInput pts (fullA [] 1) 0).bind fun s =>
      handlePick max (fun a b => decide (b ≤ a)) (.sparse s) (.plain (fullA [3] 2)) none).isSome = true := by decide +kernel
  obtain ⟨v, hv⟩ := Option.isSome_iff_exists.1 hc
  have h0 : (((seedInput pts (fullA [] 1) 0).bind fun s =>
      handlePick max (fun a b => decide (b ≤ a)) (.sparse s) (.plain (fullA [3] 2)) none).bind fun v => entry 3 v 1 [1]) = some 1 := by
    decide +kernel
  rw [hv] at h0
  have h2 : ((seedInput pts (fullA [] 1) 0).bind fun s => s.expand.map fun D =>
      ((D.x.bcast [3]).get [1], ((D.jac 1).bcast [3]).get [1], D.x.shape)) = some ((2 : ℚ), (1 : ℚ), [3]) := by decide +kernel
  rw [hs] at hv h2
  refine ⟨s, v, hs, hv, h0, fun D hD => ?_⟩
  simp only [Option.bind_some] at h2
  rw [hD] at h2
  simp only [Option.map_some, Option.some.injEq, Prod.mk.injEq] at h2
  obtain ⟨a1, a2, a3⟩ := h2
  have hb : bshape D.x.shape [3] = [3] := by rw [a3]; rfl
  simp only [chain2, const, full_get, fullA, bcast_get, hb] at a1 a2 ⊢
  rw [a1, a2]
  simp [pickF]

end Jaqmc.Sparse.Props
