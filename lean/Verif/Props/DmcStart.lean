import Verif.Spec.DmcStart
import Verif.Props.DmcRun
import Verif.Props.DmcPopulation
/-! # C147: a legacy DMC run with a guide of (nearly) constant local energy -/

namespace Jaqmc.DmcRun.Props
open Jaqmc.DmcRun Jaqmc.DmcRun.Spec
open Jaqmc.DmcEnergy
open scoped Classical

variable {X Key : Type}

/-! ## The start -/

theorem masked_pad (pair : Option (ℝ × ℝ)) (l : List (ℝ × ℝ)) (n : ℕ) :
    maskedEnergy pair (l ++ List.replicate n (0, 0)) = maskedEnergy pair l := by
  unfold maskedEnergy
  simp

/-- **C147.** The default start, on any number of devices: every walker with weight one, and the average energy
of the walkers (as every iteration averages) as offset and as mixed estimator. -/
theorem c147_start (pair : Option (ℝ × ℝ)) (devices : ℕ) (energy : X → ℝ) (positions : List X) :
    (defaultState pair devices energy positions).walkers = positions.map (fun x => (1, x)) ∧
    (defaultState pair devices energy positions).target = positions.length ∧
    (defaultState pair devices energy positions).mixed =
      averageEnergy pair (positions.map fun x => (energy x, 1)) ∧
    (defaultState pair devices energy positions).offset = (defaultState pair devices energy positions).mixed := by
  refine ⟨rfl, rfl, ?_, rfl⟩
  show startEnergy pair devices (positions.map energy) = _
  unfold startEnergy
  rw [masked_pad, DmcEnergy.Props.avg_eq]
  unfold maskedEnergy
  simp [List.map_map, Function.comp_def]

/-! ## Branching that only selects -/

theorem repeat_mem {N : ℕ} {Y : Type} (w : Fin N → ℝ) (rep : Fin N → ℕ) (x : Fin N → Y) (e : ℝ × Y)
    (he : e ∈ DmcBranch.repeatRows w rep x) : ∃ i, e.2 = x i := by
  unfold DmcBranch.repeatRows at he
  obtain ⟨i, _, hi⟩ := List.mem_flatMap.1 he
  obtain rfl := List.eq_of_mem_replicate hi
  exact ⟨i, rfl⟩

/-- **C147.** The variable-size branching is fair. -/
theorem c147_fair {Y : Type} (minT maxT : ℝ) (u : Key → ℕ → ℝ) : Fair (Y := Y) (varBranch minT maxT u) := by
  intro k l p hne hpos hb
  obtain ⟨h1, h2⟩ := c130_branch minT maxT u k l p hpos hb
  refine ⟨?_, fun e he => ⟨h1 e he, ?_⟩⟩
  · rintro rfl
    have : 0 < (l.map Prod.fst).sum := sum_pos_list _ (by simpa using hne) (by
      intro x hx
      obtain ⟨e, he, rfl⟩ := List.mem_map.1 hx
      exact hpos e he)
    rw [← h2] at this
    simp at this
  · unfold varBranch DmcBranch.branch at hb
    split at hb
    · cases hb
      obtain ⟨i, hi⟩ := repeat_mem _ _ _ e he
      exact ⟨l.get i, List.get_mem l i, hi.symm⟩
    · cases hb

theorem setAt_all {N n : ℕ} {β : Type*} (P : β → Prop) (idx : Fin n → Fin N) (v : Fin n → β) (a : Fin N → β)
    (hv : ∀ j, P (v j)) (ha : ∀ i, P (a i)) (i : Fin N) : P (DmcBranch.setAt idx v a i) := by
  unfold DmcBranch.setAt
  generalize List.finRange n = l
  induction l generalizing a with
  | nil => exact ha i
  | cons j l ih =>
    rw [List.foldl_cons]
    apply ih
    intro k
    by_cases e : k = idx j
    · subst e; rw [Function.update_self]; exact hv j
    · rw [Function.update_of_ne e]; exact ha k

theorem addAt_pos {N n : ℕ} (idx : Fin n → Fin N) (v : Fin n → ℝ) (a : Fin N → ℝ)
    (hv : ∀ j, 0 < v j) (ha : ∀ i, 0 < a i) (i : Fin N) : 0 < DmcBranch.addAt idx v a i := by
  unfold DmcBranch.addAt
  generalize List.finRange n = l
  induction l generalizing a with
  | nil => exact ha i
  | cons j l ih =>
    rw [List.foldl_cons]
    apply ih
    intro k
    by_cases e : k = idx j
    · subst e; rw [Function.update_self]; exact add_pos (ha _) (hv j)
    · rw [Function.update_of_ne e]; exact ha k

theorem fix_fair {N n : ℕ} {Y : Type} (w : Fin N → ℝ) (hw : ∀ i, 0 < w i) (x : Fin N → Y)
    (a b l : Fin n → Fin N) (u : Fin n → ℝ) : (∀ i, 0 < (DmcBranch.doBranchFix w x a b l u).1 i) ∧
    ∀ i, ∃ i', (DmcBranch.doBranchFix w x a b l u).2 i = x i' := by
  unfold DmcBranch.doBranchFix
  dsimp only
  have w1 := addAt_pos (DmcBranch.keptIdx w a b u) (fun j => w (DmcBranch.removedIdx w a b u j)) w
    (fun j => hw _) hw
  have w2 := setAt_all (fun x : ℝ => 0 < x) l _ _ (fun j => half_pos (w1 (l j))) w1
  exact ⟨setAt_all (fun x : ℝ => 0 < x) _ _ _ (fun j => w2 _) w2,
    setAt_all (fun y : Y => ∃ i', y = x i') _ _ _ (fun j => ⟨_, rfl⟩) fun i => ⟨i, rfl⟩⟩

/-- **C147.** The fixed-size branching is fair too (also where it does not keep the total weight, C85). -/
theorem c147_fair_fix {Y : Type} (minT maxT : ℝ) (u : Key → ℕ → ℝ) :
    Fair (Y := Y) (fixBranch minT maxT u) := by
  intro k l p hne hpos hb
  unfold fixBranch at hb
  obtain ⟨r, hr, rfl⟩ := Option.map_eq_some_iff.1 hb
  have hw : ∀ i : Fin l.length, 0 < (l.get i).1 := fun i => hpos _ (List.get_mem l i)
  have key : (∀ i, 0 < r.1 i) ∧ ∀ i, ∃ i', r.2 i = (l.get i').2 := by
    rcases DmcBranch.Props.fix_some hr with rfl | ⟨h, rfl⟩
    · exact ⟨hw, fun i => ⟨i, rfl⟩⟩
    · exact fix_fair _ hw _ _ _ _ _
  constructor
  · intro h0
    have : (List.ofFn fun i => (r.1 i, r.2 i)).length = 0 := by rw [h0]; rfl
    rw [List.length_ofFn] at this
    exact hne (List.length_eq_zero_iff.1 this)
  · intro e he
    obtain ⟨i, rfl⟩ := (List.mem_ofFn' _ _).1 he
    obtain ⟨i', hi'⟩ := key.2 i
    exact ⟨key.1 i, l.get i', List.get_mem l i', hi'.symm⟩

theorem below_one {N : ℕ} (w : Fin N → ℝ) (hw : ∀ i, w i = 1) (minT : ℝ) (h : minT ≤ 1) :
    DmcBranch.countBelow w minT = 0 := by
  unfold DmcBranch.countBelow
  rw [Finset.card_eq_zero, Finset.filter_eq_empty_iff]
  intro i _
  rw [hw i, not_lt]
  exact h

theorem repeat_once {Y : Type} (l : List (ℝ × Y)) (h1 : ∀ e ∈ l, e.1 = 1) (w : Fin l.length → ℝ)
    (rep : Fin l.length → ℕ) (hw : ∀ i, w i = 1) (hr : ∀ i, rep i = 1) :
    DmcBranch.repeatRows w rep (fun i => (l.get i).2) = l := by
  unfold DmcBranch.repeatRows
  have : (fun i : Fin l.length => List.replicate (rep i) (w i, (l.get i).2)) = fun i => [l.get i] := by
    funext i
    rw [hr, hw, List.replicate_one, ← h1 _ (List.get_mem l i)]
  rw [this]
  have e : ∀ L : List (Fin l.length), L.flatMap (fun i => [l.get i]) = L.map l.get := by
    intro L
    induction L with
    | nil => rfl
    | cons a L ih => rw [List.flatMap_cons, ih]; rfl
  rw [e]
  exact List.map_get_finRange l

/-- **C147.** Between thresholds on either side of one, the variable-size branching is idle. -/
theorem c147_idle {Y : Type} (minT maxT : ℝ) (hmin : minT ≤ 1) (hmax : 1 ≤ maxT) (u : Key → ℕ → ℝ) :
    Idle (Y := Y) (varBranch minT maxT u) := by
  intro k l hl h1
  have hw : ∀ i : Fin l.length, (l.get i).1 = 1 := fun i => h1 _ (List.get_mem l i)
  have hm : DmcBranch.mergePairs (fun i : Fin l.length => (l.get i).1) minT = 1 := by
    unfold DmcBranch.mergePairs
    rw [below_one _ hw minT hmin]
    rfl
  have hN : 2 * DmcBranch.mergePairs (fun i : Fin l.length => (l.get i).1) minT ≤ l.length := by
    rw [hm]; omega
  have hfold : ∀ (L : List _) (st : (Fin l.length → ℝ) × (Fin l.length → ℕ)),
      L.foldl (DmcBranch.helper hN (fun i : Fin l.length => (l.get i).1) minT fun j => u k j.1) st = st := by
    intro L
    induction L with
    | nil => intro st; rfl
    | cons a L ih =>
      intro st
      rw [List.foldl_cons, ih]
      unfold DmcBranch.helper
      rw [if_neg]
      exact not_lt.2 (hmin.trans_eq (hw _).symm)
  unfold varBranch DmcBranch.branch
  rw [dif_pos hN]
  unfold DmcBranch.doBranch
  dsimp only
  rw [hfold]
  dsimp only
  have hn : ∀ i : Fin l.length, ¬ maxT < (l.get i).1 := by
    intro i; rw [hw, not_lt]; exact hmax
  refine congrArg some (repeat_once l h1 _ _ ?_ ?_)
  · intro i
    rw [if_neg (hn i), hw]
    norm_num
  · intro i
    rw [if_neg (hn i)]

/-- **C147.** So is the fixed-size branching. -/
theorem c147_idle_fix {Y : Type} (minT maxT : ℝ) (hmin : minT ≤ 1) (hmax : 1 ≤ maxT) (u : Key → ℕ → ℝ) :
    Idle (Y := Y) (fixBranch minT maxT u) := by
  intro k l hl h1
  have hw : ∀ i : Fin l.length, (l.get i).1 = 1 := fun i => h1 _ (List.get_mem l i)
  have hz : DmcBranch.numToChange (fun i : Fin l.length => (l.get i).1) minT maxT = 0 := by
    unfold DmcBranch.numToChange
    rw [below_one _ hw minT hmin]
    have : DmcBranch.countAbove (fun i : Fin l.length => (l.get i).1) maxT = 0 := by
      unfold DmcBranch.countAbove
      rw [Finset.card_eq_zero, Finset.filter_eq_empty_iff]
      intro i _
      exact not_lt.2 ((hw i).trans_le hmax)
    rw [this]
    rfl
  unfold fixBranch DmcBranch.branchFix
  rw [if_pos hz]
  refine congrArg some ?_
  exact List.ofFn_get l

/-! ## Energies between bounds -/

theorem fits_clip {pair : Option (ℝ × ℝ)} {lo hi : ℝ} (h : Fits pair lo hi) (x : ℝ) (h1 : lo ≤ x) (h2 : x ≤ hi) :
    clipPair pair x = x := by
  cases pair with
  | none => rfl
  | some ab =>
    obtain ⟨a, b⟩ := ab
    obtain ⟨ha, hb⟩ := h a b rfl
    show min (max x a) b = x
    rw [max_eq_left (ha.trans h1), min_eq_left (h2.trans hb)]

theorem average_in {pair : Option (ℝ × ℝ)} {lo hi : ℝ} (hf : Fits pair lo hi) (l : List (ℝ × ℝ)) (hne : l ≠ [])
    (hpos : ∀ e ∈ l, 0 < e.2) (hE : ∀ e ∈ l, lo ≤ e.1 ∧ e.1 ≤ hi) :
    lo ≤ averageEnergy pair l ∧ averageEnergy pair l ≤ hi := by
  refine (DmcEnergy.Props.c88_average pair l (fun e he => (hpos e he).le) ?_ lo hi ?_).2
  · exact sum_pos_list _ (by simpa using hne) (by
      intro x hx
      obtain ⟨e, he, rfl⟩ := List.mem_map.1 hx
      exact hpos e he)
  · intro e he
    rw [fits_clip hf _ (hE e he).1 (hE e he).2]
    exact hE e he

theorem pop_energy (s : Setup X Key) {lo hi : ℝ} (hE : Between s lo hi) (key : Key) (state : State X) :
    ∀ e ∈ attemptPop s key state, lo ≤ e.2.2 ∧ e.2.2 ≤ hi := by
  intro e he
  unfold attemptPop at he
  obtain ⟨x, hx, hx'⟩ := List.mem_map.1 (List.of_mem_zip he).2
  rw [← hx']
  exact hE _ _ _ _ x hx

/-- What one attempt and the branching after it give. -/
theorem attempt_between (s : Setup X Key) (hlen : ∀ l k o m, (s.move l k o m).length = l.length)
    (hb : Fair s.branch) {lo hi : ℝ} (hf : Fits s.pair lo hi) (hE : Between s lo hi) (key : Key)
    (state : State X) (h : Alive state.walkers) :
    (lo ≤ averageEnergy s.pair ((attemptEnergies s key state).zip (attemptWeights s key state)) ∧
      averageEnergy s.pair ((attemptEnergies s key state).zip (attemptWeights s key state)) ≤ hi) ∧
    ∀ k p, s.branch k (attemptPop s key state) = some p →
      Alive (p.map fun e => (e.1, e.2.1)) ∧ 0 < (p.map Prod.fst).sum ∧
      lo ≤ averageEnergy s.pair (p.map fun e => (e.2.2, e.1)) ∧
      averageEnergy s.pair (p.map fun e => (e.2.2, e.1)) ≤ hi := by
  obtain ⟨a1, a2, -, a4⟩ := attempt_alive s hlen key state h
  have ae := pop_energy s hE key state
  constructor
  · rw [← a4]
    refine average_in hf _ (by simpa using a1) ?_ ?_
    · intro e he
      obtain ⟨q, hq, rfl⟩ := List.mem_map.1 he
      exact a2 q hq
    · intro e he
      obtain ⟨q, hq, rfl⟩ := List.mem_map.1 he
      exact ae q hq
  · intro k p hp
    obtain ⟨b1, b2⟩ := hb _ _ _ a1 a2 hp
    refine ⟨⟨by simpa using b1, ?_⟩, ?_, average_in hf _ (by simpa using b1) ?_ ?_⟩
    · intro e he
      obtain ⟨q, hq, rfl⟩ := List.mem_map.1 he
      exact (b2 q hq).1
    · refine sum_pos_list _ (by simpa using b1) ?_
      intro x hx
      obtain ⟨e, he, rfl⟩ := List.mem_map.1 hx
      exact (b2 e he).1
    · intro e he
      obtain ⟨q, hq, rfl⟩ := List.mem_map.1 he
      exact (b2 q hq).1
    · intro e he
      obtain ⟨q, hq, rfl⟩ := List.mem_map.1 he
      obtain ⟨q', hq', e'⟩ := (b2 q hq).2
      dsimp only
      rw [← e']
      exact ae q' hq'

/-- What holds of the energies after every pass. -/
structure Kept (s : Setup X Key) (t0 : ℕ) (offset target mixed lo hi : ℝ) (r : Run X Key) : Prop where
  inv : Inv s t0 offset target mixed r
  alive : Alive r.state.walkers
  mixed_in : lo ≤ r.state.mixed ∧ r.state.mixed ≤ hi
  row : ∀ row ∈ rows r.log, 0 < row.total ∧ (lo ≤ row.before ∧ row.before ≤ hi) ∧
    (lo ≤ row.average ∧ row.average ≤ hi) ∧ lo ≤ row.mixed ∧ row.mixed ≤ hi
  counted : (∀ x, lo ≤ x → x ≤ hi → hi - lo ≤ s.threshold * |x|) → ∀ a ∈ r.log, a.row.isSome

theorem mem_rows_append {log : List (Attempt X)} {ws : List ℝ} {mv : List (Moved X)} {row row' : Row}
    (h : row' ∈ rows (log ++ [⟨ws, mv, some row⟩])) : row' ∈ rows log ∨ row' = row := by
  simpa [rows] using h

theorem kept_step (s : Setup X Key) (hlen : ∀ l k o m, (s.move l k o m).length = l.length) (hK : 0 < s.K)
    (hb : Fair s.branch) (t0 : ℕ) (offset target mixed : ℝ) {lo hi : ℝ} (hf : Fits s.pair lo hi)
    (hE : Between s lo hi) (r r' : Run X Key) (h : Kept s t0 offset target mixed lo hi r) (hs : Step s r r') :
    Kept s t0 offset target mixed lo hi r' := by
  have hinv := inv_step s t0 offset target mixed r r' h.inv hs
  cases hs with
  | raised => exact ⟨hinv, h.alive, h.mixed_in, h.row, h.counted⟩
  | rejected t key state hi' =>
    obtain ⟨rfl, rfl, ho⟩ := rejected_iff hi'
    refine ⟨hinv, h.alive, h.mixed_in, ?_, ?_⟩
    · intro row hrow
      exact h.row row (by simpa [rows] using hrow)
    · intro hth
      exfalso
      rw [DmcEnergy.Props.c88_outlier] at ho
      have h1 := (attempt_between s hlen hb hf hE r.key r.state h.alive).1
      have h2 := hth _ h.mixed_in.1 h.mixed_in.2
      have h3 := h.mixed_in
      rcases abs_cases (averageEnergy s.pair ((attemptEnergies s r.key r.state).zip
        (attemptWeights s r.key r.state)) - r.state.mixed) with ⟨h4, _⟩ | ⟨h4, _⟩ <;>
      · have := ho.2
        rw [h4] at this
        linarith [h1.1, h1.2, h3.1, h3.2]
  | ok t key state row hi' =>
    obtain ⟨p, hbr, h1, h2, h3, h4, h5, h6, h7, h8, h9, h10, h11, h12, h13, h14, h15, h16, h17⟩ := ok_iff hi'
    obtain ⟨c1, c2⟩ := attempt_between s hlen hb hf hE r.key r.state h.alive
    obtain ⟨d1, d2, d3⟩ := c2 _ _ hbr
    have hrows : rows (r.log ++ [⟨r.state.walkers.map Prod.fst, s.move (r.state.walkers.map Prod.snd)
        (s.split r.key).2 r.state.offset r.state.mixed, some row⟩]) = rows r.log ++ [row] := by simp [rows]
    have hold : ∀ row' ∈ rows r.log ++ [row], 0 < row'.total ∧ lo ≤ row'.average ∧ row'.average ≤ hi := by
      intro row' hrow
      rcases List.mem_append.1 hrow with ho | ho
      · exact ⟨(h.row row' ho).1, (h.row row' ho).2.2.1⟩
      · obtain rfl := List.mem_singleton.1 ho
        rw [h7, h6]
        exact ⟨d2, d3⟩
    have hm : lo ≤ row.mixed ∧ row.mixed ≤ hi := by
      have hg := (hinv.row_eq (rows r.log).length row (by dsimp only; rw [hrows]; simp)).2.1
      dsimp only at hg
      rw [hrows] at hg
      rw [hg]
      have hmem : ∀ j ∈ window s.K (rows r.log).length, ∃ row' ∈ rows r.log ++ [row],
          callOf (rows r.log ++ [row]) j = ⟨row'.offsetBefore, row'.average, row'.total, row'.eff⟩ := by
        intro j hj
        have hjl : j < (rows r.log ++ [row]).length := by
          unfold window at hj; rw [Finset.mem_Ico] at hj; simp; omega
        refine ⟨_, List.getElem_mem hjl, ?_⟩
        unfold callOf
        rw [List.getElem?_eq_getElem hjl]
      refine DmcEnergy.Props.c86_between s.K s.T hK _ _ lo hi ?_ ?_
      · intro j hj
        obtain ⟨row', hr, he⟩ := hmem j hj
        rw [he]
        exact (hold row' hr).1
      · intro j hj
        obtain ⟨row', hr, he⟩ := hmem j hj
        rw [he]
        exact (hold row' hr).2
    refine ⟨hinv, ?_, ?_, ?_, ?_⟩
    · dsimp only; rw [h12]; exact d1
    · dsimp only; rw [h15]; exact hm
    · intro row' hrow
      rcases mem_rows_append hrow with ho | rfl
      · exact h.row row' ho
      · rw [h4]
        refine ⟨?_, c1, ?_, hm⟩
        · rw [h7]; exact d2
        · rw [h6]; exact d3
    · intro hth a ha
      rcases List.mem_append.1 ha with ho | ho
      · exact h.counted hth a ho
      · obtain rfl := List.mem_singleton.1 ho
        rfl

/-- **C147.** If all local energies are between `lo` and `hi` and the starting estimate too, so is every energy
a run reports, whatever happens to weights and population: the average before and after branching and the mixed
estimator of every iteration.  If moreover the outlier threshold allows for `hi - lo`, no iteration is
rejected. -/
theorem c147_between (s : Setup X Key) (hlen : ∀ l k o m, (s.move l k o m).length = l.length) (hK : 0 < s.K)
    (hb : Fair s.branch) {lo hi : ℝ} (hf : Fits s.pair lo hi) (hE : Between s lo hi)
    (numSteps blockSize : ℕ) (period : ℤ) (anchor : Option ℝ) (t0 : ℕ)
    (key : Key) (walkers : List (ℝ × X)) (hne : walkers ≠ []) (hpos : ∀ e ∈ walkers, 0 < e.1)
    (offset target mixed : ℝ) (hm : lo ≤ mixed ∧ mixed ≤ hi) (passes : ℕ) (r : Run X Key)
    (hr : r = loop s numSteps blockSize period anchor passes (fresh t0 key walkers offset target mixed)) :
    (lo ≤ r.state.mixed ∧ r.state.mixed ≤ hi) ∧
    (∀ row ∈ rows r.log, (lo ≤ row.before ∧ row.before ≤ hi) ∧ (lo ≤ row.average ∧ row.average ≤ hi) ∧
      lo ≤ row.mixed ∧ row.mixed ≤ hi) ∧
    ((∀ x, lo ≤ x → x ≤ hi → hi - lo ≤ s.threshold * |x|) → ∀ a ∈ r.log, a.row.isSome) := by
  have h := loop_inv s numSteps blockSize period anchor _
    (kept_step s hlen hK hb t0 offset target mixed hf hE) passes
    (fresh t0 key walkers offset target mixed)
    ⟨inv_fresh s t0 key walkers offset target mixed, ⟨hne, hpos⟩, hm,
      by intro row hrow; simp [fresh, rows] at hrow, by intro _ a ha; simp [fresh] at ha⟩
  rw [← hr] at h
  exact ⟨h.mixed_in, fun row hrow => (h.row row hrow).2, h.counted⟩

/-- **C147.** With a guide whose local energy is `E` everywhere, no iteration is ever rejected (for any outlier
threshold), and every energy a run reports is `E`, whatever happens to weights and population. -/
theorem c147_exact (s : Setup X Key) (hlen : ∀ l k o m, (s.move l k o m).length = l.length) (hK : 0 < s.K)
    (hb : Fair s.branch) (E : ℝ) (hf : Fits s.pair E E) (hE : Between s E E)
    (numSteps blockSize : ℕ) (period : ℤ) (anchor : Option ℝ) (t0 : ℕ)
    (key : Key) (walkers : List (ℝ × X)) (hne : walkers ≠ []) (hpos : ∀ e ∈ walkers, 0 < e.1)
    (offset target : ℝ) (hth : 0 ≤ s.threshold) (passes : ℕ) (r : Run X Key)
    (hr : r = loop s numSteps blockSize period anchor passes (fresh t0 key walkers offset target E)) :
    r.state.mixed = E ∧ (∀ a ∈ r.log, a.row.isSome) ∧
    ∀ row ∈ rows r.log, row.before = E ∧ row.average = E ∧ row.mixed = E := by
  obtain ⟨h1, h2, h3⟩ := c147_between s hlen hK hb hf hE numSteps blockSize period anchor t0 key walkers hne hpos
    offset target E ⟨le_refl _, le_refl _⟩ passes r hr
  refine ⟨le_antisymm h1.2 h1.1, h3 fun x _ _ => ?_, fun row hrow => ?_⟩
  · rw [sub_self]; exact mul_nonneg hth (abs_nonneg x)
  · obtain ⟨⟨a1, a2⟩, ⟨b1, b2⟩, c1, c2⟩ := h2 row hrow
    exact ⟨le_antisymm a2 a1, le_antisymm b2 b1, le_antisymm c2 c1⟩

/-! ## Weights and population -/

theorem branch_zero (alpha : ℝ) (pair : Option (ℝ × ℝ)) (E : ℝ) (hf : Fits pair E E) (electrons : ℕ)
    (timeStep v vc : ℝ) (ha : alpha < 0 ∨ 0 ≤ alpha) :
    branchVal alpha pair electrons timeStep v vc E E E = 0 := by
  unfold branchVal
  rw [fits_clip hf E (le_refl _) (le_refl _)]
  rcases ha with ha | ha
  · rw [if_pos ha]; simp
  · rw [if_neg (not_lt.2 ha)]; simp

/-- A loop whose every pass counts. -/
theorem loop_counts (s : Setup X Key) (n b : ℕ) (p : ℤ) (a : Option ℝ) (P : Run X Key → Prop)
    (hP : ∀ r, P r → ∃ key st row, iteration s r.t r.key r.state = .succeeded (r.t + 1) key st row ∧
      P ⟨r.t + 1, key, st, r.log ++ [⟨r.state.walkers.map Prod.fst,
        s.move (r.state.walkers.map Prod.snd) (s.split r.key).2 r.state.offset r.state.mixed, some row⟩], false⟩) :
    ∀ fuel r, P r → r.raised = false → P (loop s n b p a fuel r) ∧ (loop s n b p a fuel r).raised = false ∧
      (loop s n b p a fuel r).t = r.t + min fuel (n + b + 1 - r.t) := by
  intro fuel
  induction fuel with
  | zero => intro r h hr; exact ⟨h, hr, by simp [loop]⟩
  | succ k ih =>
    intro r h hr
    unfold loop
    by_cases hc : r.t < n + b + 1 ∧ r.raised = false
    · rw [if_pos hc]
      dsimp only
      obtain ⟨key, st, row, h1, h2⟩ := hP r h
      rw [h1]
      obtain ⟨i1, i2, i3⟩ := ih _ h2 rfl
      refine ⟨i1, i2, ?_⟩
      rw [i3]
      dsimp only
      omega
    · rw [if_neg hc]
      refine ⟨h, hr, ?_⟩
      have : ¬ r.t < n + b + 1 := fun h => hc ⟨h, hr⟩
      omega

/-- What holds after every pass of a run with an exact guide and unit weights. -/
structure Still (s : Setup X Key) (t0 N : ℕ) (E : ℝ) (r : Run X Key) : Prop where
  kept : Kept s t0 E N E E E r
  count : r.state.walkers.length = N
  unit : ∀ e ∈ r.state.walkers, e.1 = 1
  offset : r.state.offset = E
  row : ∀ row ∈ rows r.log, row.offset = E ∧ row.total = N

theorem still_step (s : Setup X Key) (hlen : ∀ l k o m, (s.move l k o m).length = l.length) (hK : 0 < s.K)
    (hb : Fair s.branch) (hi : Idle s.branch) (alpha E : ℝ) (hf : Fits s.pair E E) (hE : ExactGuide s alpha E)
    (hth : 0 ≤ s.threshold) (t0 N : ℕ) (hN : 2 ≤ N) (r : Run X Key) (h : Still s t0 N E r) :
    ∃ key st row, iteration s r.t r.key r.state = .succeeded (r.t + 1) key st row ∧
      Still s t0 N E ⟨r.t + 1, key, st, r.log ++ [⟨r.state.walkers.map Prod.fst,
        s.move (r.state.walkers.map Prod.snd) (s.split r.key).2 r.state.offset r.state.mixed, some row⟩],
        false⟩ := by
  have hB : Between s E E := fun l k o m x hx => ⟨(hE l k o m x hx).1.ge, (hE l k o m x hx).1.le⟩
  have hm : r.state.mixed = E := le_antisymm h.kept.mixed_in.2 h.kept.mixed_in.1
  have ha := h.kept.alive
  have hw : ∀ w ∈ attemptWeights s r.key r.state, w = 1 := by
    intro w hwm
    unfold attemptWeights at hwm
    dsimp only at hwm
    obtain ⟨i, hi, rfl⟩ := List.mem_iff_getElem.1 hwm
    rw [List.getElem_zipWith]
    obtain ⟨-, el, rate, v, vc, v', vc', hd⟩ := hE _ _ _ _ _ (List.getElem_mem (l := s.move
      (r.state.walkers.map Prod.snd) (s.split r.key).2 r.state.offset r.state.mixed)
        (n := i) (by rw [List.length_zipWith] at hi; omega))
    have h0 : ∀ v vc, branchVal alpha s.pair el s.timeStep v vc r.state.offset r.state.mixed E = 0 := by
      intro v vc
      rw [h.offset, hm]
      exact branch_zero alpha s.pair E hf el _ v vc (lt_or_ge _ _)
    rw [h0, h0] at hd
    unfold newWeight
    rw [hd, List.getElem_map, h.unit _ (List.getElem_mem _)]
    simp [weightDeltaLog]
  have hl : (attemptPop s r.key r.state).length = N := by
    unfold attemptPop attemptWeights
    simp [hlen, h.count]
  obtain ⟨p1, p2, p3, p4⟩ := attempt_alive s hlen r.key r.state ha
  have hu : ∀ e ∈ attemptPop s r.key r.state, e.1 = 1 := fun e he => hw _ (List.of_mem_zip he).1
  have hbr := hi (s.split (s.split r.key).1).2 (attemptPop s r.key r.state) (by omega) hu
  have hbe : averageEnergy s.pair ((attemptEnergies s r.key r.state).zip (attemptWeights s r.key r.state)) = E := by
    have := (attempt_between s hlen hb hf hB r.key r.state ha).1
    exact le_antisymm this.2 this.1
  have hno : ¬ isOutlier s.threshold (averageEnergy s.pair ((attemptEnergies s r.key r.state).zip
      (attemptWeights s r.key r.state))) r.state.mixed := by
    rw [DmcEnergy.Props.c88_outlier, hbe, hm, sub_self, abs_zero]
    intro hc
    exact absurd hc.2 (not_lt.2 (mul_nonneg hth (abs_nonneg E)))
  have hit := iteration_eq s r.t r.key r.state
  dsimp only at hit
  rw [if_neg hno, hbr] at hit
  dsimp only at hit
  refine ⟨_, _, _, hit, ?_⟩
  have hk := kept_step s hlen hK hb t0 E N E hf hB _ _ h.kept (Step.ok _ _ _ _ hit)
  have htot : ((attemptPop s r.key r.state).map Prod.fst).sum = N := by
    have : (attemptPop s r.key r.state).map Prod.fst = List.replicate N 1 := by
      rw [List.eq_replicate_iff]
      refine ⟨by rw [List.length_map, hl], ?_⟩
      intro x hx
      obtain ⟨e, he, rfl⟩ := List.mem_map.1 hx
      exact hu e he
    rw [this]
    simp
  have hoff : ∀ x y z : ℝ, x = E → y = N → z = E →
      nextOffset r.t s.interval s.amplitude s.timeStep ((attemptStep s r.key r.state).run s.timeStep) x y
        r.state.target z = E := by
    rintro x y z rfl rfl rfl
    unfold nextOffset updateOffset
    rw [h.kept.inv.target_eq, div_self (by positivity)]
    simp
  have hm' := le_antisymm hk.mixed_in.2 hk.mixed_in.1
  dsimp only at hm'
  have ho' := hoff _ _ _ hm' htot h.offset
  refine ⟨hk, ?_, ?_, ho', ?_⟩
  · dsimp only; rw [List.length_map, hl]
  · dsimp only
    intro e he
    obtain ⟨q, hq, rfl⟩ := List.mem_map.1 he
    exact hu q hq
  · intro row hrow
    rcases mem_rows_append hrow with hold | rfl
    · exact h.row row hold
    · exact ⟨ho', htot⟩

/-- **C147.** A run from the default start with a guide whose local energy is `E` everywhere and two walkers or
more is still: nothing is rejected and nothing raises, so every pass counts until the last step is done; after
each the walkers are as many as at the start, all with weight one, and energy offset and mixed estimator are
`E`. -/
theorem c147_still (s : Setup X Key) (hlen : ∀ l k o m, (s.move l k o m).length = l.length) (hK : 0 < s.K)
    (hb : Fair s.branch) (hi : Idle s.branch) (alpha E : ℝ) (hf : Fits s.pair E E) (hE : ExactGuide s alpha E)
    (hth : 0 ≤ s.threshold) (devices : ℕ) (energy : X → ℝ) (positions : List X) (hN : 2 ≤ positions.length)
    (he : ∀ x ∈ positions, energy x = E) (numSteps blockSize : ℕ) (period : ℤ) (anchor : Option ℝ) (key : Key)
    (passes : ℕ) (r : Run X Key)
    (hr : r = loop s numSteps blockSize period anchor passes
      ⟨0, key, defaultState s.pair devices energy positions, [], false⟩) :
    r.raised = false ∧ r.t = min passes (numSteps + blockSize + 1) ∧ (rows r.log).length = r.t ∧
    r.state.walkers.length = positions.length ∧ (∀ e ∈ r.state.walkers, e.1 = 1) ∧
    r.state.offset = E ∧ r.state.mixed = E ∧
    ∀ row ∈ rows r.log, row.before = E ∧ row.average = E ∧ row.mixed = E ∧ row.offset = E ∧
      row.total = positions.length := by
  obtain ⟨-, -, d3, d4⟩ := c147_start s.pair devices energy positions
  have hne : positions ≠ [] := by rintro rfl; simp at hN
  have hd : (defaultState s.pair devices energy positions).mixed = E := by
    rw [d3]
    have := average_in (lo := E) (hi := E) hf (positions.map fun x => (energy x, (1 : ℝ))) (by simpa using hne)
      (by intro e h; obtain ⟨x, _, rfl⟩ := List.mem_map.1 h; exact one_pos)
      (by intro e h; obtain ⟨x, hx, rfl⟩ := List.mem_map.1 h; exact ⟨(he x hx).ge, (he x hx).le⟩)
    exact le_antisymm this.2 this.1
  have hst : (⟨0, key, defaultState s.pair devices energy positions, [], false⟩ : Run X Key)
      = fresh 0 key (positions.map fun x => (1, x)) E positions.length E := by
    unfold fresh
    rw [← hd]
    rfl
  rw [hst] at hr
  have h0 : Still s 0 positions.length E (fresh 0 key (positions.map fun x => (1, x)) E positions.length E) := by
    refine ⟨⟨inv_fresh s 0 key _ E _ E, ⟨by simpa [fresh] using hne, ?_⟩, ⟨le_refl _, le_refl _⟩, ?_, ?_⟩,
      by simp [fresh], ?_, rfl, ?_⟩
    · intro e h; obtain ⟨x, _, rfl⟩ := List.mem_map.1 h; exact one_pos
    · intro row hrow; simp [fresh, rows] at hrow
    · intro _ a ha; simp [fresh] at ha
    · intro e h; obtain ⟨x, _, rfl⟩ := List.mem_map.1 h; rfl
    · intro row hrow; simp [fresh, rows] at hrow
  obtain ⟨h1, h2, h3⟩ := loop_counts s numSteps blockSize period anchor _
    (still_step s hlen hK hb hi alpha E hf hE hth 0 positions.length hN) passes _ h0 rfl
  rw [← hr] at h1 h2 h3
  refine ⟨h2, by simpa [fresh] using h3, by rw [h1.kept.inv.t_eq]; omega, h1.count, h1.unit, h1.offset,
    le_antisymm h1.kept.mixed_in.2 h1.kept.mixed_in.1, fun row hrow => ?_⟩
  obtain ⟨-, ⟨a1, a2⟩, ⟨b1, b2⟩, c1, c2⟩ := h1.kept.row row hrow
  exact ⟨le_antisymm a2 a1, le_antisymm b2 b1, le_antisymm c2 c1, h1.row row hrow⟩

/-! ## Examples -/

/-- Walkers on a line that drift by their key; every local energy is `-1/2`, as that of the ground state of the
hydrogen atom. -/
noncomputable def hydrogen : Setup ℝ ℕ where
  timeStep := 1 / 100
  ebye := false
  move l k o m := l.map fun x => ⟨x + k, -1 / 2, weightDeltaLog (1 / 3)
    (branchVal (1 / 5) (some (-2, 0)) 1 (1 / 100) 2 1 o m (-1 / 2))
    (branchVal (1 / 5) (some (-2, 0)) 1 (1 / 100) 3 1 o m (-1 / 2)), 1, 1 / 3, 1 / 100⟩
  branch := varBranch (3 / 10) 2 fun k n => 1 / ((k : ℝ) + n + 2)
  pair := some (-2, 0)
  interval := 1
  amplitude := 1
  threshold := 1 / 2
  K := 10
  T := 10
  split k := (k + 1, k)

example (passes : ℕ) (r : Run ℝ ℕ)
    (hr : r = loop hydrogen 100 10 (-1) none passes
      ⟨0, 0, defaultState hydrogen.pair 2 (fun _ => -1 / 2) [0, 1, 2], [], false⟩) :
    r.t = min passes 111 ∧ r.state.walkers.length = 3 ∧ ∀ row ∈ rows r.log, row.mixed = -1 / 2 := by
  have h := c147_still hydrogen (by intro l k o m; exact List.length_map _) (by show 0 < 10; norm_num)
    (c147_fair (Key := ℕ) (3 / 10) 2 fun k n => 1 / ((k : ℝ) + n + 2))
    (c147_idle (Key := ℕ) (3 / 10) 2 (by norm_num) (by norm_num) fun k n => 1 / ((k : ℝ) + n + 2))
    (1 / 5) (-1 / 2)
    (by
      intro a b hab
      have : (some (-2, 0) : Option (ℝ × ℝ)) = some (a, b) := hab
      cases this
      norm_num)
    (by
      intro l k o m x hx
      obtain ⟨y, _, rfl⟩ := List.mem_map.1 hx
      exact ⟨rfl, 1, 1 / 3, 2, 1, 3, 1, rfl⟩)
    (by show (0 : ℝ) ≤ 1 / 2; norm_num) 2 (fun _ => -1 / 2) [0, 1, 2] (by simp) (by intros; rfl)
    100 10 (-1) none 0 passes r hr
  exact ⟨h.2.1, h.2.2.2.1, fun row hrow => (h.2.2.2.2.2.2.2 row hrow).2.2.1⟩

end Jaqmc.DmcRun.Props
