import Verif.Spec.DmcData
import Verif.Lemmas.Checkpoint
import Verif.Lemmas.CheckpointDir
import Mathlib.Data.List.Basic
import Mathlib.Data.List.Induction
import Mathlib.Tactic.Ring
/-! Lemmas about the DMC data keeping. -/
namespace Jaqmc.DmcData
open Jaqmc.Checkpoint (Name pad6 dictSet isDigit)

theorem dataName_inj (pre : Name) {a b : Nat} (h : dataName pre a = dataName pre b) : a = b := by
  unfold dataName at h
  have h2 := List.append_cancel_left h
  simp only [List.cons.injEq, true_and] at h2
  have h3 := List.append_cancel_right h2
  have := congrArg Checkpoint.val h3
  simpa [Checkpoint.val_pad6] using this

theorem isDig_of_isDigit {c : Char} (h : isDigit c) : isDig c = true := by
  obtain ⟨d, hd, rfl⟩ := h
  unfold isDig
  rw [Checkpoint.digitChar_toNat hd]
  simp; omega

theorem takeWhile_digits (l r : List Char) (hl : ∀ c ∈ l, isDig c = true) (c : Char)
    (hc : isDig c = false) : (l ++ c :: r).takeWhile isDig = l := by
  induction l with
  | nil => simp [hc]
  | cons a l ih =>
    have ha := hl a (by simp)
    simp only [List.cons_append, List.takeWhile_cons, ha, if_true]
    rw [ih (fun c hc => hl c (by simp [hc]))]

theorem intOf_eq : intOf = Checkpoint.val := rfl

theorem pad6_ne_nil (n : Nat) : (pad6 n).length ≠ 0 := by
  intro h
  have h0 : pad6 n = [] := List.length_eq_zero_iff.1 h
  unfold pad6 at h0
  simp only [List.append_eq_nil_iff] at h0
  have h1 := h0.2
  have : ∀ n, Checkpoint.decimal n ≠ [] := by
    intro n
    unfold Checkpoint.decimal
    split <;> simp
  exact this n h1

theorem dataIndex_dataName (pre : Name) (n : Nat) : dataIndex pre (dataName pre n) = some n := by
  unfold dataIndex dataName
  have hp : (pre ++ ['_']).isPrefixOf (pre ++ '_' :: (pad6 n ++ dotTgz)) = true := by
    rw [List.isPrefixOf_iff_prefix]
    exact ⟨pad6 n ++ dotTgz, by simp⟩
  rw [if_pos hp]
  have hd : (pre ++ '_' :: (pad6 n ++ dotTgz)).drop (pre.length + 1) = pad6 n ++ dotTgz := by
    rw [← List.drop_drop]; simp
  simp only [hd]
  have ht : (pad6 n ++ dotTgz).takeWhile isDig = pad6 n :=
    takeWhile_digits _ _ (fun c hc => isDig_of_isDigit (Checkpoint.pad6_digits n c hc)) '.' (by decide)
  rw [ht]
  obtain ⟨k, hk⟩ : ∃ k, (pad6 n).length = k + 1 := ⟨_, (Nat.succ_pred (pad6_ne_nil n)).symm⟩
  rw [hk]
  simp only [matchDigits]
  rw [← hk]
  simp [dotTgz, tailOk, intOf_eq, Checkpoint.val_pad6]

variable {σ μ : Type}

/-! ### Directories -/

theorem findLatest_spec (pre : Name) (d : Dir σ μ) :
    match findLatest pre d with
    | none => ∀ e ∈ d, dataIndex pre e.1 = none
    | some (r, f) => (∃ n, (n, f) ∈ d ∧ dataIndex pre n = some r) ∧
        ∀ e ∈ d, ∀ j, dataIndex pre e.1 = some j → j ≤ r := by
  induction d using List.reverseRecOn with
  | nil => simp [findLatest]
  | append_singleton d e ih =>
    unfold findLatest at ih ⊢
    rw [List.foldl_append]
    simp only [List.foldl_cons, List.foldl_nil]
    generalize List.foldl _ none d = best at ih ⊢
    cases hi : dataIndex pre e.1 with
    | none =>
      cases best with
      | none =>
        simp only at ih ⊢
        intro x hx
        rcases List.mem_append.1 hx with h | h
        · exact ih x h
        · simp at h; rw [h]; exact hi
      | some b =>
        obtain ⟨r, f⟩ := b
        simp only at ih ⊢
        obtain ⟨⟨n, hn, hn2⟩, h2⟩ := ih
        refine ⟨⟨n, List.mem_append_left _ hn, hn2⟩, fun x hx j hj => ?_⟩
        rcases List.mem_append.1 hx with h | h
        · exact h2 x h j hj
        · simp at h; rw [h, hi] at hj; cases hj
    | some i =>
      cases best with
      | none =>
        simp only at ih ⊢
        refine ⟨⟨e.1, by simp, hi⟩, fun x hx j hj => ?_⟩
        rcases List.mem_append.1 hx with h | h
        · rw [ih x h] at hj; cases hj
        · simp at h; rw [h, hi] at hj; cases hj; exact le_rfl
      | some b =>
        obtain ⟨r, f⟩ := b
        simp only at ih ⊢
        obtain ⟨⟨n, hn, hn2⟩, h2⟩ := ih
        by_cases hlt : r < i
        · rw [if_pos hlt]
          refine ⟨⟨e.1, by simp, hi⟩, fun x hx j hj => ?_⟩
          rcases List.mem_append.1 hx with h | h
          · exact (h2 x h j hj).trans hlt.le
          · simp at h; rw [h, hi] at hj; cases hj; exact le_rfl
        · rw [if_neg hlt]
          refine ⟨⟨n, List.mem_append_left _ hn, hn2⟩, fun x hx j hj => ?_⟩
          rcases List.mem_append.1 hx with h | h
          · exact h2 x h j hj
          · simp at h; rw [h, hi] at hj; cases hj; omega

theorem lookup_rmFile (d : Dir σ μ) (n n' : Name) (h : n' ≠ n) :
    (rmFile d n).lookup n' = d.lookup n' := by
  unfold rmFile
  induction d with
  | nil => rfl
  | cons a d ih =>
    obtain ⟨x, f⟩ := a
    simp only [List.filter_cons]
    by_cases hx : x = n
    · subst hx
      have : (n' == x) = false := by simpa using h
      simpa [List.lookup_cons, this] using ih
    · simp only [ne_eq, hx, not_false_eq_true, decide_true, if_true, List.lookup_cons, ih]

theorem lookup_dictSet_self (d : Dir σ μ) (n : Name) (f : File σ μ) :
    (dictSet d n f).lookup n = some f := by
  rw [Checkpoint.dictSet_lookup]; simp

theorem lookup_dictSet_ne (d : Dir σ μ) (n n' : Name) (f : File σ μ) (h : n' ≠ n) :
    (dictSet d n f).lookup n' = d.lookup n' := by
  rw [Checkpoint.dictSet_lookup]; simp [h]

/-! ### Trajectories -/

theorem traj_snoc (outs : List (Out σ μ)) (o : Out σ μ) :
    traj (outs ++ [o]) = extend (traj outs) o := by
  simp [traj, List.foldl_append]

theorem rowsOf_append (a b : List (Entry σ μ)) : rowsOf (a ++ b) = rowsOf a ++ rowsOf b := by
  simp [rowsOf]

theorem snapshot_append {log : List (Entry σ μ)} {t : Tar σ μ} (h : Snapshot log t) (e : Entry σ μ)
    (he : t.step < e.1) : Snapshot (log ++ [e]) t := by
  obtain ⟨⟨row, h1⟩, h2⟩ := h
  refine ⟨⟨row, List.mem_append_left _ h1⟩, ?_⟩
  rw [h2, List.filter_append]
  have : ¬ e.1 ≤ t.step := by omega
  simp [this]

theorem snapshot_cut {log : List (Entry σ μ)} {t : Tar σ μ} (h : Snapshot log t) (r : Nat)
    (hr : t.step ≤ r) : Snapshot (log.filter (fun e => e.1 ≤ r)) t := by
  obtain ⟨⟨row, h1⟩, h2⟩ := h
  refine ⟨⟨row, List.mem_filter.2 ⟨h1, by simpa using hr⟩⟩, ?_⟩
  rw [h2, List.filter_filter]
  congr 1
  apply List.filter_congr
  intro e _
  rw [← Bool.decide_and, decide_eq_decide]
  omega

/-- The steps of a trajectory are `a, a+1, ...`. -/
def Consec (a n : Nat) (log : List (Entry σ μ)) : Prop := log.map Prod.fst = List.range' a n

theorem consec_mem {a n : Nat} {log : List (Entry σ μ)} (h : Consec a n log) {e : Entry σ μ}
    (he : e ∈ log) : a ≤ e.1 ∧ e.1 < a + n := by
  have : e.1 ∈ log.map Prod.fst := List.mem_map_of_mem he
  rw [h, List.mem_range'_1] at this
  exact this

theorem consec_append {a n : Nat} {log : List (Entry σ μ)} (h : Consec a n log) (st : σ) (row : μ) :
    Consec a (n + 1) (log ++ [(a + n, st, row)]) := by
  unfold Consec at *
  rw [List.map_append, h, List.range'_concat]
  simp

theorem consec_cut {a n : Nat} {log : List (Entry σ μ)} (h : Consec a n log) (r : Nat)
    (h1 : a ≤ r) (h2 : r < a + n) : Consec a (r + 1 - a) (log.filter (fun e => e.1 ≤ r)) := by
  unfold Consec at *
  have : (log.filter (fun e => decide (e.1 ≤ r))).map Prod.fst =
      (log.map Prod.fst).filter (fun k => decide (k ≤ r)) := by
    rw [List.filter_map]; rfl
  rw [this, h]
  have hs : n = (r + 1 - a) + (n - (r + 1 - a)) := by omega
  conv_lhs => rw [hs]
  rw [← List.range'_append_1, List.filter_append]
  rw [List.filter_eq_self.2, List.filter_eq_nil_iff.2, List.append_nil]
  · intro x hx
    rw [List.mem_range'_1] at hx
    simp; omega
  · intro x hx
    rw [List.mem_range'_1] at hx
    simp; omega

/-! ### The invariant -/

/-- Every data file is named after its index and is incomplete or a snapshot of the trajectory at a
multiple of the block size, written after the following block was completed. -/
def FilesOk (c : Cfg) (outs : List (Out σ μ)) (d : Dir σ μ) : Prop :=
  (d.map Prod.fst).Nodup ∧ ∀ e ∈ d, ∀ i, dataIndex c.pre e.1 = some i →
    e.1 = dataName c.pre i ∧ c.block ∣ i ∧ (∃ st row, Out.done (i + c.block - 1) st row ∈ outs) ∧
    ∀ t, e.2 = .whole t → t.step = i ∧ Snapshot (traj outs) t

/-- The newest data file. -/
def Newest (c : Cfg) (d : Dir σ μ) : Option Nat → Prop
  | none => ∀ e ∈ d, dataIndex c.pre e.1 = none
  | some r => (∃ t, (dataName c.pre r, File.whole t) ∈ d) ∧
      ∀ e ∈ d, ∀ j, dataIndex c.pre e.1 = some j → j ≤ r

/-- All data files are complete, except possibly the one with the largest index. -/
def TornNewest (c : Cfg) (d : Dir σ μ) : Prop :=
  ∀ n i, (n, File.torn) ∈ d → dataIndex c.pre n = some i →
    ∀ e ∈ d, ∀ j, dataIndex c.pre e.1 = some j → j ≤ i

/-- The workspace holds, under step `s`, a snapshot of the trajectory at a multiple of the block. -/
def InWork (c : Cfg) (log : List (Entry σ μ)) (m : Mgr σ μ) (s : Nat) : Prop :=
  ∃ t, m.work.lookup (dataName c.pre s) = some (.whole t) ∧ t.step = s ∧ c.block ∣ s ∧ Snapshot log t

structure UpInv (c : Cfg) (outs : List (Out σ μ)) (p : Proc σ μ) (nw : Option Nat) : Prop where
  files : FilesOk c outs p.mgr.save
  noTorn : ∀ n i, (n, File.torn) ∈ p.mgr.save → dataIndex c.pre n = some i → False
  start : c.tInit ≤ p.t
  consec : Consec c.tInit (p.t - c.tInit) (traj outs)
  rows : p.mgr.disk ++ p.mgr.buf = rowsOf (traj outs)
  newest : Newest c p.mgr.save nw
  safe : ∀ s, p.mgr.safeStep = some s → nw = some s ∧ InWork c (traj outs) p.mgr s
  idle : p.mgr.unsafeStep = none →
    (nw = none → ∀ k, c.tInit ≤ k → k < p.t → ¬ c.block ∣ k) ∧
    (∀ r, nw = some r → c.block ∣ r ∧ c.tInit ≤ r ∧ r + 1 ≤ p.t ∧ p.t ≤ r + c.block)
  busy : ∀ u, p.mgr.unsafeStep = some u →
    InWork c (traj outs) p.mgr u ∧ c.tInit ≤ u ∧ u + 1 ≤ p.t ∧ p.t ≤ u + c.block ∧
    (nw = none → u < c.tInit + c.block) ∧ (∀ r, nw = some r → c.tInit ≤ r ∧ u = r + c.block)

structure DownInv (c : Cfg) (outs : List (Out σ μ)) (d : Dir σ μ) : Prop where
  files : FilesOk c outs d
  torn : TornNewest c d
  consec : ∃ n, Consec c.tInit n (traj outs)

def Inv (c : Cfg) (outs : List (Out σ μ)) : Sys σ μ → Prop
  | .down d => DownInv c outs d
  | .up p => ∃ nw, UpInv c outs p nw

/-- Observations that change neither the trajectory nor forget anything. -/
theorem filesOk_mono {c : Cfg} {outs : List (Out σ μ)} {d : Dir σ μ} (h : FilesOk c outs d)
    (o : Out σ μ) (ho : extend (traj outs) o = traj outs) : FilesOk c (outs ++ [o]) d := by
  refine ⟨h.1, fun e he i hi => ?_⟩
  obtain ⟨a, b, ⟨st, row, h1⟩, h2⟩ := h.2 e he i hi
  refine ⟨a, b, ⟨st, row, List.mem_append_left _ h1⟩, fun t ht => ?_⟩
  rw [traj_snoc, ho]
  exact h2 t ht

theorem up_to_down {c : Cfg} {outs : List (Out σ μ)} {p : Proc σ μ} {nw : Option Nat}
    (h : UpInv c outs p nw) (o : Out σ μ) (ho : extend (traj outs) o = traj outs) :
    DownInv c (outs ++ [o]) p.mgr.save :=
  ⟨filesOk_mono h.files o ho, fun n i hn hi => (h.noTorn n i hn hi).elim,
    ⟨_, by rw [traj_snoc, ho]; exact h.consec⟩⟩

theorem newest_uniq {c : Cfg} {outs : List (Out σ μ)} {p : Proc σ μ} {r : Nat}
    (h : UpInv c outs p (some r)) : ∃ t, (dataName c.pre r, File.whole t) ∈ p.mgr.save ∧
      t.step = r ∧ Snapshot (traj outs) t := by
  obtain ⟨⟨t, ht⟩, _⟩ := h.newest
  exact ⟨t, ht, ((h.files.2 _ ht r (dataIndex_dataName _ _)).2.2.2 t rfl)⟩

/-- Putting the safe file again, or an incomplete version of it. -/
theorem put_safe {c : Cfg} {outs : List (Out σ μ)} {p : Proc σ μ} {nw : Option Nat}
    (h : UpInv c outs p nw) {s : Nat} (hs : p.mgr.safeStep = some s) (f : File σ μ)
    (hf : f = .torn ∨ p.mgr.fileAt c.pre p.mgr.safeStep = some f)
    (o : Out σ μ) (ho : extend (traj outs) o = traj outs) :
    DownInv c (outs ++ [o]) (dictSet p.mgr.save (dataName c.pre s) f) := by
  obtain ⟨hnw, t, ht, hts, hb, hsn⟩ := h.safe s hs
  subst hnw
  have hnd := h.files.1
  obtain ⟨⟨t', ht'⟩, hmax⟩ := h.newest
  have hold := h.files.2 _ ht' s (dataIndex_dataName _ _)
  have hF := filesOk_mono h.files o ho
  refine ⟨⟨Checkpoint.dictSet_keys_nodup _ _ _ hnd, ?_⟩, ?_, ⟨_, by rw [traj_snoc, ho]; exact h.consec⟩⟩
  · intro e he i hi
    rcases (Checkpoint.mem_dictSet _ _ _ hnd e).1 he with rfl | ⟨he, _⟩
    · simp only [dataIndex_dataName, Option.some.injEq] at hi
      subst hi
      have := hF.2 _ ht' s (dataIndex_dataName _ _)
      refine ⟨rfl, hb, this.2.2.1, ?_⟩
      intro t2 ht2
      simp only at ht2
      rcases hf with rfl | hf
      · cases ht2
      · rw [hs] at hf
        simp only [Mgr.fileAt] at hf
        rw [ht, ht2] at hf
        cases hf
        exact ⟨hts, by rw [traj_snoc, ho]; exact hsn⟩
    · exact hF.2 e he i hi
  · intro n i hn hi e he j hj
    have hi' : i = s := by
      rcases (Checkpoint.mem_dictSet _ _ _ hnd _).1 hn with hh | ⟨hh, _⟩
      · rw [Prod.mk.injEq] at hh
        rw [hh.1, dataIndex_dataName] at hi; cases hi; rfl
      · exact (h.noTorn n i hh hi).elim
    subst hi'
    rcases (Checkpoint.mem_dictSet _ _ _ hnd e).1 he with rfl | ⟨he, _⟩
    · rw [dataIndex_dataName] at hj; cases hj; exact le_rfl
    · exact hmax e he j hj

theorem fileAt_flush (pre : Name) (m : Mgr σ μ) (s : Option Nat) :
    m.flush.fileAt pre s = m.fileAt pre s := rfl

theorem exit_down {c : Cfg} {outs : List (Out σ μ)} {p : Proc σ μ} {nw : Option Nat}
    (h : UpInv c outs p nw) (m : Mgr σ μ) (hm : m.save = p.mgr.save) (hm2 : m.safeStep = p.mgr.safeStep)
    (hm3 : m.work = p.mgr.work)
    (o : Out σ μ) (ho : extend (traj outs) o = traj outs) :
    DownInv c (outs ++ [o]) (m.exit c.pre).save := by
  have hfa : ∀ s, m.fileAt c.pre s = p.mgr.fileAt c.pre s := by
    intro s; cases s <;> simp [Mgr.fileAt, hm3]
  unfold Mgr.exit Mgr.upload
  rw [fileAt_flush]
  have : m.flush.safeStep = m.safeStep := rfl
  rw [this]
  split
  next e he =>
    show DownInv c (outs ++ [o]) m.save
    rw [hm]
    exact up_to_down h o ho
  next m' he =>
    split at he
    next s f hs hf =>
      cases he
      show DownInv c (outs ++ [o]) (dictSet m.save _ _)
      rw [hm]
      rw [hm2] at hs
      refine put_safe h hs f (.inr ?_) o ho
      rw [← hfa, ← hm2]; exact hf
    · cases he

theorem exitStages_down {c : Cfg} {outs : List (Out σ μ)} {p : Proc σ μ} {nw : Option Nat}
    (h : UpInv c outs p nw) (k : Nat) (o : Out σ μ) (ho : extend (traj outs) o = traj outs) :
    DownInv c (outs ++ [o]) (((p.mgr.exitStages c.pre)[k]?).getD p.mgr.save) := by
  unfold Mgr.exitStages
  split
  next s f hs hf =>
    unfold putStages
    match k with
    | 0 => exact up_to_down h o ho
    | 1 => exact put_safe h hs .torn (.inl rfl) o ho
    | 2 => exact put_safe h hs f (.inr hf) o ho
    | _ + 3 => exact up_to_down h o ho
  · match k with
    | 0 => exact up_to_down h o ho
    | _ + 1 => exact up_to_down h o ho

theorem mem_traj {outs : List (Out σ μ)} {e : Entry σ μ} (h : e ∈ traj outs) :
    Out.done e.1 e.2.1 e.2.2 ∈ outs := by
  induction outs using List.reverseRecOn with
  | nil => simp [traj] at h
  | append_singleton outs o ih =>
    rw [traj_snoc] at h
    rw [List.mem_append]
    cases o with
    | fresh t => simp [extend] at h
    | resumed r st => simp only [extend, List.mem_filter] at h; exact .inl (ih h.1)
    | rolledBack r st => simp only [extend, List.mem_filter] at h; exact .inl (ih h.1)
    | done t st row =>
      simp only [extend, List.mem_append, List.mem_singleton] at h
      rcases h with h | rfl
      · exact .inl (ih h)
      · exact .inr (by simp)
    | startFailed e' => exact .inl (ih h)
    | rejected t => exact .inl (ih h)
    | aborted e' => exact .inl (ih h)
    | finished => exact .inl (ih h)
    | killed => exact .inl (ih h)
    | nothing => exact .inl (ih h)

end Jaqmc.DmcData
