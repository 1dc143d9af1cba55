import Verif.Spec.Spins
import Mathlib.Tactic.Ring
import Mathlib.Tactic.Linarith
import Mathlib.Algebra.Order.Group.Unbundled.Abs
import Mathlib.Algebra.Order.Ring.Int
import Mathlib.Algebra.Order.BigOperators.Group.List
/-! C38, C39, C59, C60: initial electron configurations. -/
namespace Jaqmc.Spins.Props
open Jaqmc.Spins Jaqmc.Spins.Spec

theorem getD_set (l : List (ℤ × ℤ)) (i j : Nat) (v : ℤ × ℤ) :
    (l.set i v).getD j (0, 0) = if i = j ∧ j < l.length then v else l.getD j (0, 0) := by
  simp only [List.getD_eq_getElem?_getD, List.getElem?_set]
  by_cases h : i = j
  · subst h
    by_cases h2 : i < l.length
    · simp [h2]
    · simp [h2]
  · simp [h]

theorem sum_set (f : ℤ × ℤ → ℤ) : ∀ (l : List (ℤ × ℤ)) (i : Nat) (v : ℤ × ℤ), i < l.length →
    ((l.set i v).map f).sum = (l.map f).sum - f (l.getD i (0, 0)) + f v
  | [], i, v, h => by simp at h
  | a :: l, 0, v, h => by simp; ring
  | a :: l, i + 1, v, h => by
    have ih := sum_set f l i v (by simpa using h)
    simp only [List.set_cons_succ, List.map_cons, List.sum_cons, ih, List.getD_cons_succ]
    ring

theorem exists_lt : ∀ (l w : List (ℤ × ℤ)), l.length = w.length → (l.map Prod.fst).sum < (w.map Prod.fst).sum →
    ∃ j, j < l.length ∧ (l.getD j (0, 0)).1 < (w.getD j (0, 0)).1
  | [], [], _, h => by simp at h
  | [], _ :: _, hl, _ => by simp at hl
  | _ :: _, [], hl, _ => by simp at hl
  | a :: l, b :: w, hl, h => by
    by_cases hab : a.1 < b.1
    · exact ⟨0, by simp, by simpa using hab⟩
    · simp only [List.map_cons, List.sum_cons] at h
      obtain ⟨j, hj, hlt⟩ := exists_lt l w (by simpa using hl) (by omega)
      exact ⟨j + 1, by simpa using hj, by simpa using hlt⟩

theorem mem_candidates (fixed : List Bool) (spins : List (ℤ × ℤ)) (up : Bool) (i : Nat) :
    i ∈ candidates fixed spins up ↔ i < spins.length ∧ fixed.getD i true = false ∧
      (if up then 0 < (spins.getD i (0, 0)).2 else 0 < (spins.getD i (0, 0)).1) := by
  unfold candidates
  cases up <;> simp [List.mem_filter]

/-- What the loop preserves. -/
structure Inv (start : List (ℤ × ℤ)) (fixed : List Bool) (cur : ℤ) (r : List (ℤ × ℤ)) : Prop where
  length : r.length = start.length
  nonneg : ∀ j, 0 ≤ (r.getD j (0, 0)).1 ∧ 0 ≤ (r.getD j (0, 0)).2
  electrons : ∀ j, (r.getD j (0, 0)).1 + (r.getD j (0, 0)).2 = (start.getD j (0, 0)).1 + (start.getD j (0, 0)).2
  kept : ∀ j, fixed.getD j true = true → r.getD j (0, 0) = start.getD j (0, 0)
  up : (r.map Prod.fst).sum = cur
  tot : (r.map Prod.fst).sum + (r.map Prod.snd).sum = (start.map Prod.fst).sum + (start.map Prod.snd).sum

theorem Inv.step {start fixed cur r} (h : Inv start fixed cur r) {i : Nat} (d : ℤ) (hi : i < r.length)
    (hf : fixed.getD i true = false) (h1 : 0 ≤ (r.getD i (0, 0)).1 + d) (h2 : 0 ≤ (r.getD i (0, 0)).2 - d) :
    Inv start fixed (cur + d) (r.set i ((r.getD i (0, 0)).1 + d, (r.getD i (0, 0)).2 - d)) := by
  refine ⟨by simp [h.length], ?_, ?_, ?_, ?_, ?_⟩
  · intro j
    rw [getD_set]
    split
    · exact ⟨h1, h2⟩
    · exact h.nonneg j
  · intro j
    rw [getD_set]
    split
    · rename_i hc
      rw [← h.electrons j, hc.1]; dsimp only; rw [← hc.1]; ring
    · exact h.electrons j
  · intro j hj
    rw [getD_set, if_neg]
    · exact h.kept j hj
    · rintro ⟨rfl, _⟩; rw [hf] at hj; exact absurd hj (by simp)
  · rw [sum_set _ _ _ _ hi, h.up]; ring
  · rw [sum_set _ _ _ _ hi, sum_set _ _ _ _ hi, ← h.tot]; ring

theorem loop_sound (pick : Nat → (m : Nat) → Fin (m + 1)) (fixed : List Bool) (target : ℤ) (start : List (ℤ × ℤ)) :
    ∀ (step : Nat) (spins : List (ℤ × ℤ)) (cur : ℤ), Inv start fixed cur spins →
    (∀ r, loop pick fixed target step spins cur = .ok r → Inv start fixed target r) ∧
    ((∃ w, Inv start fixed target w) → ∃ r, loop pick fixed target step spins cur = .ok r) := by
  intro step spins cur
  induction hm : (target - cur).natAbs generalizing step spins cur with
  | zero =>
    intro h
    have : cur = target := by omega
    subst this
    rw [loop, if_pos rfl]
    exact ⟨fun r hr => by cases hr; exact h, fun _ => ⟨_, rfl⟩⟩
  | succ k ih =>
    intro h
    have hne : cur ≠ target := by omega
    rw [loop, if_neg hne]
    cases hc : candidates fixed spins (decide (target > cur)) with
    | nil =>
      simp only [hc]
      refine ⟨fun r hr => (by cases hr), ?_⟩
      rintro ⟨w, hw⟩
      exfalso
      have hlen : spins.length = w.length := h.length.trans hw.length.symm
      rcases lt_or_gt_of_ne hne with hlt | hlt
      · obtain ⟨j, hj, hj2⟩ := exists_lt spins w hlen (by rw [h.up, hw.up]; exact hlt)
        have hfj : fixed.getD j true = false := by
          cases hf : fixed.getD j true with
          | false => rfl
          | true => rw [h.kept j hf, hw.kept j hf] at hj2; exact absurd hj2 (lt_irrefl _)
        have : j ∈ candidates fixed spins (decide (target > cur)) := by
          rw [mem_candidates]
          refine ⟨hj, hfj, ?_⟩
          have e1 := h.electrons j
          have e2 := hw.electrons j
          have e3 := hw.nonneg j
          rw [if_pos (by simpa using hlt)]
          omega
        rw [hc] at this; simp at this
      · obtain ⟨j, hj, hj2⟩ := exists_lt w spins hlen.symm (by rw [h.up, hw.up]; exact hlt)
        have hfj : fixed.getD j true = false := by
          cases hf : fixed.getD j true with
          | false => rfl
          | true => rw [h.kept j hf, hw.kept j hf] at hj2; exact absurd hj2 (lt_irrefl _)
        have : j ∈ candidates fixed spins (decide (target > cur)) := by
          rw [mem_candidates]
          refine ⟨by omega, hfj, ?_⟩
          have e3 := hw.nonneg j
          rw [if_neg (by simp; omega)]
          omega
        rw [hc] at this; simp at this
    | cons c cs =>
      simp only [hc]
      set i := (c :: cs).get (pick step cs.length) with hi
      have hmem : i ∈ candidates fixed spins (decide (target > cur)) := by rw [hc]; exact List.get_mem _ _
      rw [mem_candidates] at hmem
      obtain ⟨m1, m2, m3⟩ := hmem
      have hn := h.nonneg i
      by_cases hlt : target > cur
      · rw [if_pos hlt]
        rw [if_pos (by simpa using hlt)] at m3
        have := h.step 1 m1 m2 (by omega) (by omega)
        exact ih _ _ _ (by omega) this
      · rw [if_neg hlt]
        rw [if_neg (by simpa using hlt)] at m3
        have := h.step (-1) m1 m2 (by omega) (by omega)
        rw [show (spins.getD i (0, 0)).2 - -1 = (spins.getD i (0, 0)).2 + 1 by ring,
          show (spins.getD i (0, 0)).1 + -1 = (spins.getD i (0, 0)).1 - 1 by ring,
          show cur + -1 = cur - 1 by ring] at this
        exact ih _ _ _ (by omega) this

theorem allSpins_spec : ∀ (atoms : List (Atom × Init)) (l : List (ℤ × ℤ)), allSpins atoms = .ok l ↔
    l = atoms.map (fun p => rawSpins p.1 p.2) ∧ ∀ p ∈ atoms, 0 ≤ (rawSpins p.1 p.2).1 ∧ 0 ≤ (rawSpins p.1 p.2).2
  | [], l => by simp [allSpins, eq_comm]
  | (a, i) :: rest, l => by
    have ih := allSpins_spec rest
    unfold allSpins atomSpins
    by_cases h : (rawSpins a i).1 < 0 ∨ (rawSpins a i).2 < 0
    · rw [if_pos h]
      simp only [reduceCtorEq, List.mem_cons, forall_eq_or_imp, false_iff, not_and]
      intro _ h2
      omega
    · rw [if_neg h]
      dsimp only
      cases hr : allSpins rest with
      | error e =>
        simp only [reduceCtorEq, List.mem_cons, forall_eq_or_imp, false_iff, not_and]
        intro _ _ h3
        have := (ih _).2 ⟨rfl, h3⟩
        rw [hr] at this
        cases this
      | ok ss =>
        obtain ⟨h1, h2⟩ := (ih ss).1 hr
        simp only [Except.ok.injEq, List.map_cons, List.mem_cons, forall_eq_or_imp]
        constructor
        · rintro rfl; exact ⟨by rw [h1], ⟨by omega, by omega⟩, h2⟩
        · rintro ⟨rfl, _, _⟩; rw [h1]

theorem sum_total : ∀ (w l : List (ℤ × ℤ)), w.length = l.length →
    (∀ j, (w.getD j (0, 0)).1 + (w.getD j (0, 0)).2 = (l.getD j (0, 0)).1 + (l.getD j (0, 0)).2) →
    (w.map Prod.fst).sum + (w.map Prod.snd).sum = (l.map Prod.fst).sum + (l.map Prod.snd).sum
  | [], [], _, _ => rfl
  | [], _ :: _, h, _ => by simp at h
  | _ :: _, [], h, _ => by simp at h
  | a :: w, b :: l, hl, h => by
    have ih := sum_total w l (by simpa using hl) (fun j => by simpa using h (j + 1))
    have h0 := h 0
    simp only [List.getD_cons_zero] at h0
    simp only [List.map_cons, List.sum_cons]
    omega

/-- C38: whatever the random choices, the assignment terminates; it succeeds exactly when the offsets sum to zero, no
starting occupation is negative and an admissible assignment exists, and then returns an admissible assignment. -/
theorem c38_distribute (pick : Nat → (m : Nat) → Fin (m + 1)) (atoms : List (Atom × Init)) (total : ℤ × ℤ) :
    (∀ r, distribute pick atoms total = .ok r → Good (starts atoms) (flags atoms) total r) ∧
    ((∃ r, distribute pick atoms total = .ok r) ↔
      (atoms.map (fun p => p.2.localCharge)).sum = 0 ∧
      (∀ p ∈ atoms, 0 ≤ (rawSpins p.1 p.2).1 ∧ 0 ≤ (rawSpins p.1 p.2).2) ∧
      ∃ w, Good (starts atoms) (flags atoms) total w) := by
  have hstart : ∀ l, allSpins atoms = .ok l → Inv (starts atoms) (flags atoms) (alphas l) l := by
    intro l hl
    obtain ⟨h1, h2⟩ := (allSpins_spec atoms l).1 hl
    have h1' : l = starts atoms := h1
    refine ⟨by rw [h1'], ?_, fun j => by rw [h1'], fun j _ => by rw [h1'], rfl, by rw [h1']⟩
    intro j
    rw [h1, List.getD_eq_getElem?_getD, List.getElem?_map]
    cases hj : atoms[j]? with
    | none => simp
    | some p => exact h2 p (List.mem_of_getElem? hj)
  have good_of_inv : ∀ r, Inv (starts atoms) (flags atoms) total.1 r →
      total.1 + total.2 = alphas (starts atoms) + betas (starts atoms) → Good (starts atoms) (flags atoms) total r := by
    intro r h ht
    refine ⟨h.length, h.nonneg, h.electrons, h.kept, h.up, ?_⟩
    have h1 := h.tot
    have h2 := h.up
    unfold alphas betas at ht
    omega
  have inv_of_good : ∀ w, Good (starts atoms) (flags atoms) total w → Inv (starts atoms) (flags atoms) total.1 w := by
    intro w h
    refine ⟨h.length, h.nonneg, h.electrons, h.kept, h.up, ?_⟩
    exact sum_total _ _ h.length h.electrons
  have explicit_eq : ∀ l, l = starts atoms → (flags atoms).all id = true →
      ((l.zip (flags atoms)).filter Prod.snd).map Prod.fst = l := by
    intro l hl hall
    rw [List.filter_eq_self.2]
    · rw [List.map_fst_zip]
      rw [hl]; simp [starts, flags]
    · intro p hp
      exact (List.all_eq_true.1 hall) p.2 (List.of_mem_zip hp).2
  have good_all_fixed : ∀ w, (flags atoms).all id = true → Good (starts atoms) (flags atoms) total w → w = starts atoms := by
    intro w hall hw
    apply List.ext_getElem hw.length
    intro j h1 h2
    have hf : (flags atoms).getD j true = true := by
      rw [List.getD_eq_getElem?_getD]
      cases hj : (flags atoms)[j]? with
      | none => rfl
      | some b => exact (List.all_eq_true.1 hall) b (List.mem_of_getElem? hj)
    have := hw.kept j hf
    simpa [List.getD_eq_getElem?_getD, h1, h2] using this
  unfold distribute
  by_cases h0 : (atoms.map (fun p => p.2.localCharge)).sum = 0
  swap
  · rw [if_pos h0]
    refine ⟨fun r hr => (by cases hr), ⟨?_, fun h => absurd h.1 h0⟩⟩
    rintro ⟨r, hr⟩; cases hr
  rw [if_neg (not_not.2 h0)]
  cases hl : allSpins atoms with
  | error e =>
    refine ⟨fun r hr => (by cases hr), ⟨?_, ?_⟩⟩
    · rintro ⟨r, hr⟩; cases hr
    · rintro ⟨_, h2, _⟩
      have := (allSpins_spec atoms _).2 ⟨rfl, h2⟩
      rw [hl] at this; cases this
  | ok l =>
    have hinv := hstart l hl
    obtain ⟨hl1, hl2⟩ := (allSpins_spec atoms l).1 hl
    have hl1' : l = starts atoms := hl1
    dsimp only
    show (∀ r, (if total.1 + total.2 ≠ alphas l + betas l then _ else if (flags atoms).all id then _ else _) = _ → _) ∧
      ((∃ r, (if total.1 + total.2 ≠ alphas l + betas l then _ else if (flags atoms).all id then _ else _) = _) ↔ _)
    by_cases ht : total.1 + total.2 = alphas l + betas l
    swap
    · simp only [if_pos (show total.1 + total.2 ≠ alphas l + betas l from ht)]
      refine ⟨fun r hr => (by cases hr), ⟨?_, ?_⟩⟩
      · rintro ⟨r, hr⟩; cases hr
      · rintro ⟨_, _, w, hw⟩
        exfalso
        apply ht
        have := sum_total _ _ hw.length hw.electrons
        rw [hw.up, hw.down] at this
        rw [this, hl1']
        rfl
    simp only [ne_eq, ht, not_true, if_false]
    rw [hl1'] at ht
    by_cases hall : (flags atoms).all id = true
    · simp only [hall, if_true]
      have he := explicit_eq l hl1' hall
      show (∀ r, (if ¬ (alphas (((l.zip (flags atoms)).filter Prod.snd).map Prod.fst),
        betas (((l.zip (flags atoms)).filter Prod.snd).map Prod.fst)) = total then Except.error Err.fixedTotals
          else Except.ok (((l.zip (flags atoms)).filter Prod.snd).map Prod.fst)) = _ → _) ∧
        ((∃ r, (if ¬ (alphas (((l.zip (flags atoms)).filter Prod.snd).map Prod.fst),
        betas (((l.zip (flags atoms)).filter Prod.snd).map Prod.fst)) = total then Except.error Err.fixedTotals
          else Except.ok (((l.zip (flags atoms)).filter Prod.snd).map Prod.fst)) = _) ↔ _)
      rw [he]
      by_cases hf : (alphas l, betas l) = total
      · simp only [hf, not_true, if_false]
        have hg : Good (starts atoms) (flags atoms) total l := by
          apply good_of_inv l _ ht
          rw [← hf]; exact hinv
        refine ⟨fun r hr => (by cases hr; exact hg), ⟨fun _ => ⟨h0, hl2, l, hg⟩, fun _ => ⟨l, rfl⟩⟩⟩
      · simp only [hf, not_false_eq_true, if_true]
        refine ⟨fun r hr => (by cases hr), ⟨?_, ?_⟩⟩
        · rintro ⟨r, hr⟩; cases hr
        · rintro ⟨_, _, w, hw⟩
          exfalso
          apply hf
          have hws := good_all_fixed w hall hw
          rw [hl1', ← hws]
          exact Prod.ext hw.up hw.down
    · simp only [hall]
      obtain ⟨s1, s2⟩ := loop_sound pick (flags atoms) total.1 (starts atoms) 0 l (alphas l) hinv
      refine ⟨fun r hr => good_of_inv r (s1 r hr) ht, ⟨?_, ?_⟩⟩
      · rintro ⟨r, hr⟩
        exact ⟨h0, hl2, r, good_of_inv r (s1 r hr) ht⟩
      · rintro ⟨_, _, w, hw⟩
        exact s2 ⟨w, inv_of_good w hw⟩

/-- A mixed system that needs rebalancing: H (spin fixed down) and Li, three up and one down, is admissible. -/
example : Good (starts [(⟨1, 1⟩, ⟨some (-1), 0⟩), (⟨3, 1⟩, ⟨none, 0⟩)]) (flags [(⟨1, 1⟩, ⟨some (-1), 0⟩), (⟨3, 1⟩, ⟨none, 0⟩)])
    (3, 1) [(0, 1), (3, 0)] := by
  refine ⟨rfl, ?_, ?_, ?_, rfl, rfl⟩ <;> intro j <;> match j with
    | 0 => simp [starts, flags, rawSpins]
    | 1 => simp [starts, flags, rawSpins, Atom.spinConfig]
    | j + 2 => simp [starts, flags]

/-! ### C39 -/

/-- C39 for atoms whose spin is not prescribed (of the parity of their element): the documented number of electrons. -/
theorem c39_unfixed_partial (a : Atom) (i : Init) (hi : i.imbalance = none) (hp : (a.charge - a.unpaired) % 2 = 0) :
    (rawSpins a i).1 + (rawSpins a i).2 = documentedElectrons a i := by
  unfold rawSpins documentedElectrons Atom.spinConfig
  rw [hi]
  dsimp only
  split <;> dsimp only <;> omega

/-- C39 fails for atoms with a prescribed spin: the local charge has the opposite sign. The spin is as prescribed. -/
theorem c39_fixed_sign (a : Atom) (i : Init) (s : ℤ) (hi : i.imbalance = some s)
    (hp : (a.charge + i.localCharge + s) % 2 = 0) :
    (rawSpins a i).1 - (rawSpins a i).2 = s ∧
    (rawSpins a i).1 + (rawSpins a i).2 = a.charge + i.localCharge ∧
    (i.localCharge ≠ 0 → (rawSpins a i).1 + (rawSpins a i).2 ≠ documentedElectrons a i) := by
  unfold rawSpins documentedElectrons
  rw [hi]
  dsimp only
  refine ⟨by omega, by omega, fun h => by omega⟩

/-- The number of electrons near an atom with the wrong parity (a custom charge) is one too small. -/
theorem c39_parity (a : Atom) (hp : (a.charge - a.unpaired) % 2 = 1) :
    a.spinConfig.1 + a.spinConfig.2 = a.charge - 1 := by
  unfold Atom.spinConfig
  dsimp only
  omega

example : (rawSpins ⟨11, 1⟩ ⟨some 0, 1⟩) = (6, 6) ∧ (rawSpins ⟨11, 1⟩ ⟨none, 1⟩) = (5, 5) := by decide

/-! ### C59: charged systems -/

theorem starts_total_unfixed : ∀ (atoms : List (Atom × Init)), (∀ p ∈ atoms, p.2.imbalance = none) →
    (∀ p ∈ atoms, (p.1.charge - p.1.unpaired) % 2 = 0) →
    alphas (starts atoms) + betas (starts atoms)
      = (atoms.map (fun p => p.1.charge)).sum - (atoms.map (fun p => p.2.localCharge)).sum
  | [], _, _ => by simp [starts, alphas, betas]
  | p :: rest, h1, h2 => by
    have ih := starts_total_unfixed rest (fun q hq => h1 q (List.mem_cons_of_mem _ hq)) (fun q hq => h2 q (List.mem_cons_of_mem _ hq))
    have := c39_unfixed_partial p.1 p.2 (h1 p (by simp)) (h2 p (by simp))
    unfold documentedElectrons at this
    simp only [starts, alphas, betas, List.map_cons, List.sum_cons] at ih ⊢
    omega

/-- C59 fails: a system with a net charge whose atoms have no prescribed spin is always rejected, for every choice of
local charges and every spin. -/
theorem c59_charged_rejected (pick : Nat → (m : Nat) → Fin (m + 1)) (atoms : List (Atom × Init)) (totalCharge imbalance : ℤ)
    (hc : totalCharge ≠ 0) (hu : ∀ p ∈ atoms, p.2.imbalance = none)
    (hp : ∀ p ∈ atoms, (p.1.charge - p.1.unpaired) % 2 = 0)
    (hi : ((atoms.map (fun p => p.1.charge)).sum - totalCharge + imbalance) % 2 = 0) :
    ∀ r, distribute pick atoms (electronSpins atoms totalCharge imbalance) ≠ .ok r := by
  intro r hr
  obtain ⟨_, h2⟩ := c38_distribute pick atoms (electronSpins atoms totalCharge imbalance)
  obtain ⟨h0, _, w, hw⟩ := h2.1 ⟨r, hr⟩
  have h3 := starts_total_unfixed atoms hu hp
  have h4 := sum_total _ _ hw.length hw.electrons
  rw [hw.up, hw.down] at h4
  unfold electronSpins at h4
  unfold alphas betas at h3
  dsimp only at h4
  omega

/-- The hypotheses of `c59_charged_rejected` are those of a lithium cation with default settings. -/
example : let atoms : List (Atom × Init) := [(⟨3, 1⟩, ⟨none, 0⟩)]
    (∀ p ∈ atoms, p.2.imbalance = none) ∧ (∀ p ∈ atoms, (p.1.charge - p.1.unpaired) % 2 = 0) ∧
      ((atoms.map (fun p => p.1.charge)).sum - 1 + 0) % 2 = 0 := by decide

theorem fill : ∀ (start : List (ℤ × ℤ)) (k : ℤ), (∀ p ∈ start, 0 ≤ p.1 + p.2) → 0 ≤ k →
    k ≤ alphas start + betas start → ∃ w : List (ℤ × ℤ), w.length = start.length ∧
      (∀ j, 0 ≤ (w.getD j (0, 0)).1 ∧ 0 ≤ (w.getD j (0, 0)).2) ∧
      (∀ j, (w.getD j (0, 0)).1 + (w.getD j (0, 0)).2 = (start.getD j (0, 0)).1 + (start.getD j (0, 0)).2) ∧
      (w.map Prod.fst).sum = k
  | [], k, _, h0, h1 => ⟨[], rfl, by simp, by simp, by simp [alphas, betas] at h1 ⊢; omega⟩
  | p :: rest, k, hp, h0, h1 => by
    have hpp := hp p (by simp)
    obtain ⟨w, w1, w2, w3, w4⟩ := fill rest (k - min k (p.1 + p.2)) (fun q hq => hp q (List.mem_cons_of_mem _ hq))
      (by omega) (by simp only [alphas, betas, List.map_cons, List.sum_cons] at h1 ⊢
                     have : 0 ≤ alphas rest + betas rest := by
                       have h5 : ∀ l : List (ℤ × ℤ), (∀ p ∈ l, 0 ≤ p.1 + p.2) → 0 ≤ alphas l + betas l := by
                         intro l
                         induction l with
                         | nil => intro _; simp [alphas, betas]
                         | cons q l ih =>
                           intro h
                           have := ih (fun x hx => h x (List.mem_cons_of_mem _ hx))
                           have := h q (by simp)
                           simp only [alphas, betas, List.map_cons, List.sum_cons] at *
                           omega
                       exact h5 rest (fun q hq => hp q (List.mem_cons_of_mem _ hq))
                     unfold alphas betas at this
                     omega)
    refine ⟨(min k (p.1 + p.2), p.1 + p.2 - min k (p.1 + p.2)) :: w, by simp [w1], ?_, ?_, ?_⟩
    · intro j
      cases j with
      | zero => simp only [List.getD_cons_zero]; omega
      | succ j => simpa using w2 j
    · intro j
      cases j with
      | zero => simp only [List.getD_cons_zero]; omega
      | succ j => simpa using w3 j
    · simp only [List.map_cons, List.sum_cons, w4]; omega

/-- C59 for neutral systems: without hints, with at most as many unpaired electrons as electrons on every atom, every
possible total spin is initialised. -/
theorem c59_neutral_partial (pick : Nat → (m : Nat) → Fin (m + 1)) (atoms : List (Atom × Init)) (imbalance : ℤ)
    (hu : ∀ p ∈ atoms, p.2.imbalance = none ∧ p.2.localCharge = 0)
    (hp : ∀ p ∈ atoms, (p.1.charge - p.1.unpaired) % 2 = 0 ∧ 0 ≤ p.1.unpaired ∧ p.1.unpaired ≤ p.1.charge)
    (hi : ((atoms.map (fun p => p.1.charge)).sum + imbalance) % 2 = 0)
    (hs : |imbalance| ≤ (atoms.map (fun p => p.1.charge)).sum) :
    ∃ r, distribute pick atoms (electronSpins atoms 0 imbalance) = .ok r := by
  have h0 : (atoms.map (fun p => p.2.localCharge)).sum = 0 :=
    List.sum_eq_zero (by intro x hx; obtain ⟨p, hp, rfl⟩ := List.mem_map.1 hx; exact (hu p hp).2)
  have ht := starts_total_unfixed atoms (fun p hp => (hu p hp).1) (fun q hq => (hp q hq).1)
  have hnn : ∀ p ∈ atoms, 0 ≤ (rawSpins p.1 p.2).1 ∧ 0 ≤ (rawSpins p.1 p.2).2 := by
    intro p hpm
    obtain ⟨h1, h2, h3⟩ := hp p hpm
    obtain ⟨h4, h5⟩ := hu p hpm
    unfold rawSpins Atom.spinConfig
    rw [h4, h5]
    dsimp only
    split <;> dsimp only <;> omega
  rw [abs_le] at hs
  obtain ⟨w, w1, w2, w3, w4⟩ := fill (starts atoms) (electronSpins atoms 0 imbalance).1
    (by
      intro q hq
      obtain ⟨p, hpm, rfl⟩ := List.mem_map.1 hq
      have := hnn p hpm
      omega)
    (by unfold electronSpins; dsimp only; omega) (by rw [ht, h0]; unfold electronSpins; dsimp only; omega)
  refine (c38_distribute pick atoms _).2.2 ⟨h0, hnn, w, ⟨w1, w2, w3, ?_, w4, ?_⟩⟩
  · intro j hj
    have hlen : ¬ j < atoms.length := by
      intro hlt
      rw [List.getD_eq_getElem?_getD, flags, List.getElem?_map, List.getElem?_eq_getElem hlt] at hj
      simp [(hu _ (List.getElem_mem hlt)).1] at hj
    have e1 : w.getD j (0, 0) = (0, 0) := by
      rw [List.getD_eq_getElem?_getD, List.getElem?_eq_none]; · rfl
      · rw [w1, starts, List.length_map]; omega
    have e2 : (starts atoms).getD j (0, 0) = (0, 0) := by
      rw [List.getD_eq_getElem?_getD, List.getElem?_eq_none]; · rfl
      · rw [starts, List.length_map]; omega
    rw [e1, e2]
  · have h4 := sum_total _ _ w1 w3
    rw [w4] at h4
    unfold alphas betas at ht
    rw [ht, h0] at h4
    unfold electronSpins at h4 ⊢
    dsimp only at h4 ⊢
    omega

/-- C59: for a spin accepted by `AtomicSystemConfig.__post_init__` (atomic_system.py:106-123) the numbers of up and down
electrons are natural numbers, their sum is the sum of the nuclear charges minus the charge of the system, and their
difference is `2 s_z`. -/
theorem c59_electron_counts (atoms : List (Atom × Init)) (totalCharge imbalance : ℤ)
    (hi : ((atoms.map (fun p => p.1.charge)).sum - totalCharge + imbalance) % 2 = 0)
    (hs : |imbalance| ≤ (atoms.map (fun p => p.1.charge)).sum - totalCharge) :
    let s := electronSpins atoms totalCharge imbalance
    s.1 + s.2 = (atoms.map (fun p => p.1.charge)).sum - totalCharge ∧ s.1 - s.2 = imbalance ∧ 0 ≤ s.1 ∧ 0 ≤ s.2 := by
  rw [abs_le] at hs
  unfold electronSpins
  dsimp only
  omega

/-- Instance: a lithium cation, `s_z = 1` (both electrons up). -/
example : let atoms : List (Atom × Init) := [(⟨3, 1⟩, ⟨none, 0⟩)]
    ((atoms.map (fun p => p.1.charge)).sum - 1 + 2) % 2 = 0 ∧ |(2 : ℤ)| ≤ (atoms.map (fun p => p.1.charge)).sum - 1 ∧
      electronSpins atoms 1 2 = (2, 0) := by decide

/-! ### C60: initial positions -/

theorem flatMap_replicate_length (l : List Nat) (f : Nat → Nat) :
    (l.flatMap fun j => List.replicate (f j) j).length = (l.map f).sum := by
  induction l with
  | nil => rfl
  | cons a l ih => simp [ih]

theorem flatMap_replicate_count (f : Nat → Nat) (j n : Nat) :
    ((List.range n).flatMap fun j => List.replicate (f j) j).count j = if j < n then f j else 0 := by
  induction n with
  | zero => simp
  | succ n ih =>
    rw [List.range_succ, List.flatMap_append, List.count_append, ih]
    simp only [List.flatMap_cons, List.flatMap_nil, List.append_nil, List.count_replicate]
    by_cases h : n = j
    · subst h; simp
    · have : (n == j) = false := by simpa using h
      rw [this]
      split_ifs <;> first | rfl | omega | simp_all

theorem range_getD_sum (f : ℤ × ℤ → ℤ) (hf : f (0, 0) = 0) : ∀ (l : List (ℤ × ℤ)), (∀ j, 0 ≤ f (l.getD j (0, 0))) →
    ((((List.range l.length).map fun j => (f (l.getD j (0, 0))).toNat).sum : Nat) : ℤ) = (l.map f).sum
  | [], _ => by simp
  | a :: l, h => by
    have ih := range_getD_sum f hf l (fun j => by simpa using h (j + 1))
    have h0 := h 0
    simp only [List.getD_cons_zero] at h0
    rw [List.length_cons, List.range_succ_eq_map]
    simp only [List.map_cons, List.map_map, List.sum_cons, List.getD_cons_zero, Nat.cast_add, Int.toNat_of_nonneg h0]
    rw [← ih]
    rfl

/-- C60: the position array of every walker has the requested number of electrons, spin-up ones first; near atom `j`
there start as many up and down electrons as assigned to it. -/
theorem c60_positions (pick : Nat → (m : Nat) → Fin (m + 1)) (atoms : List (Atom × Init)) (total : ℤ × ℤ)
    (r : List (ℤ × ℤ)) (hr : distribute pick atoms total = .ok r) :
    0 ≤ total.1 ∧ 0 ≤ total.2 ∧ ((centers r).length : ℤ) = total.1 + total.2 ∧
    ∀ j, ((((centers r).take total.1.toNat).count j : Nat) : ℤ) = (r.getD j (0, 0)).1 ∧
      ((((centers r).drop total.1.toNat).count j : Nat) : ℤ) = (r.getD j (0, 0)).2 := by
  have hg := (c38_distribute pick atoms total).1 r hr
  have s1 := range_getD_sum Prod.fst rfl r (fun j => (hg.nonneg j).1)
  have s2 := range_getD_sum Prod.snd rfl r (fun j => (hg.nonneg j).2)
  rw [hg.up] at s1
  rw [hg.down] at s2
  have l1 : ((List.range r.length).flatMap fun j => List.replicate (r.getD j (0, 0)).1.toNat j).length = total.1.toNat := by
    rw [flatMap_replicate_length _ (fun j => (r.getD j (0, 0)).1.toNat)]; omega
  have l2 : ((List.range r.length).flatMap fun j => List.replicate (r.getD j (0, 0)).2.toNat j).length = total.2.toNat := by
    rw [flatMap_replicate_length _ (fun j => (r.getD j (0, 0)).2.toNat)]; omega
  refine ⟨by omega, by omega, ?_, ?_⟩
  · unfold centers
    rw [List.length_append, l1, l2]; omega
  · intro j
    have hn := hg.nonneg j
    unfold centers
    rw [← l1, List.take_left, List.drop_left, flatMap_replicate_count (fun j => (r.getD j (0, 0)).1.toNat),
      flatMap_replicate_count (fun j => (r.getD j (0, 0)).2.toNat)]
    by_cases hj : j < r.length
    · rw [if_pos hj, if_pos hj]; omega
    · have e1 : r.getD j (0, 0) = (0, 0) := by
        rw [List.getD_eq_getElem?_getD, List.getElem?_eq_none (by omega)]; rfl
      rw [if_neg hj, if_neg hj, e1]; simp

/-- C60 for crystals: the occupations of the supercell give copy number `c` of atom `a` the occupation of atom `a`,
`scale` times the electrons in all. -/
theorem c60_supercell (r : List (ℤ × ℤ)) (scale : Nat) :
    (repeated r scale).length = scale * r.length ∧
    (∀ c a, c < scale → a < r.length → (repeated r scale).getD (c * r.length + a) (0, 0) = r.getD a (0, 0)) ∧
    alphas (repeated r scale) = scale * alphas r ∧ betas (repeated r scale) = scale * betas r := by
  have hs : ∀ f : ℤ × ℤ → ℤ, ((repeated r scale).map f).sum = scale * (r.map f).sum := by
    intro f
    unfold repeated
    induction scale with
    | zero => simp
    | succ k ih => rw [List.replicate_succ, List.flatten_cons, List.map_append, List.sum_append, ih]; push_cast; ring
  refine ⟨by simp [repeated], ?_, hs _, hs _⟩
  intro c a hc ha
  unfold repeated
  induction scale generalizing c with
  | zero => omega
  | succ k ih =>
    rw [List.replicate_succ, List.flatten_cons, List.getD_eq_getElem?_getD]
    cases c with
    | zero =>
      rw [List.getElem?_append_left (by omega), ← List.getD_eq_getElem?_getD]
      congr 1; omega
    | succ c =>
      rw [List.getElem?_append_right (by rw [Nat.succ_mul]; omega), ← List.getD_eq_getElem?_getD]
      have : (c + 1) * r.length + a - r.length = c * r.length + a := by rw [Nat.succ_mul]; omega
      rw [this]
      exact ih (fun f => by
        have := hs f
        unfold repeated at this
        rw [List.replicate_succ, List.flatten_cons, List.map_append, List.sum_append] at this
        push_cast at this
        unfold repeated
        linarith) c (by omega)

end Jaqmc.Spins.Props
