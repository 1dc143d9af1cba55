import Verif.Lemmas.DmcDataInv
import Mathlib.Tactic.Linarith
/-!
C80-C83: the data files and metrics of a DMC run over any history of successful steps, rejected
outliers, failures with rollback, kills at any point and restarts.
-/
namespace Jaqmc.DmcData.Props
open Jaqmc.DmcData
open Jaqmc.Checkpoint (Name pad6 dictSet)
variable {σ μ : Type}

/-! ### C80: metrics and rollback -/

/-- C80.  At any moment of any history the metric rows (on disk and still buffered) are exactly one
row per step of the trajectory in force, in order, and these steps are `t_init, t_init+1, ...` up to
the last completed one. -/
theorem c80_rows (c : Cfg) (hB : 0 < c.block) (d : Dir σ μ) (hd : NoData c.pre d) (es : List (Ev σ μ))
    (p : Proc σ μ) (hp : (exec c d es).1 = .up p) :
    p.mgr.disk ++ p.mgr.buf = rowsOf (traj (exec c d es).2) ∧
    c.tInit ≤ p.t ∧
    (traj (exec c d es).2).map Prod.fst = List.range' c.tInit (p.t - c.tInit) := by
  have h := exec_inv hB hd es
  rw [hp] at h
  obtain ⟨nw, h⟩ := h
  exact ⟨h.rows, h.start, h.consec⟩

/-- C80: no process is ever rolled back more than `max_restore_nums` times, and once it has been that often the next failure ends it. -/
theorem c80_limit (c : Cfg) (d : Dir σ μ) (es : List (Ev σ μ)) :
    rollbacks (exec c d es).2 ≤ c.maxRestores ∧
    ∀ p, (exec c d es).1 = .up p → p.restores = rollbacks (exec c d es).2 ∧
      (rollbacks (exec c d es).2 = c.maxRestores → p.t < c.numSteps + c.block + 1 → ∃ e, (iterate c p .fail).2 = .aborted e) := by
  suffices H : rollbacks (exec c d es).2 ≤ c.maxRestores ∧ ∀ p, (exec c d es).1 = .up p → p.restores = rollbacks (exec c d es).2 by
    refine ⟨H.1, fun p hp => ⟨H.2 p hp, fun hm hlt => ?_⟩⟩
    have hr := H.2 p hp
    unfold iterate
    rw [if_pos hlt]
    simp only
    split
    · exact ⟨_, rfl⟩
    · rw [if_pos (by omega)]
      exact ⟨_, rfl⟩
  induction es using List.reverseRecOn with
  | nil => exact ⟨Nat.zero_le _, fun p hp => by simp [exec] at hp⟩
  | append_singleton es e ih =>
    rw [exec_snoc]
    simp only
    generalize (exec c d es).2 = outs at ih ⊢
    generalize (exec c d es).1 = s at ih ⊢
    have happ : ∀ o, rollbacks (outs ++ [o]) = match o with
        | .fresh _ => 0
        | .resumed _ _ => 0
        | .rolledBack _ _ => rollbacks outs + 1
        | _ => rollbacks outs := by
      intro o
      unfold rollbacks
      rw [List.foldl_append]
      rfl
    obtain ⟨h1, h2⟩ := ih
    cases s with
    | down d' =>
      cases e with
      | start init =>
        simp only [step]
        unfold startProc
        split
        · rw [happ]; exact ⟨Nat.zero_le _, fun p hp => by cases hp; rfl⟩
        · split
          · rw [happ]; exact ⟨h1, fun p hp => by cases hp⟩
          · rw [happ]; exact ⟨Nat.zero_le _, fun p hp => by cases hp; rfl⟩
      | _ => simp only [step]; rw [happ]; exact ⟨h1, fun p hp => by cases hp⟩
    | up p =>
      have hp := h2 p rfl
      cases e with
      | start init => simp only [step]; rw [happ]; exact ⟨h1, fun p' hp' => by cases hp'; exact hp⟩
      | kill => simp only [step]; rw [happ]; exact ⟨h1, fun p' hp' => by cases hp'⟩
      | killIn i k => simp only [step]; rw [happ]; exact ⟨h1, fun p' hp' => by cases hp'⟩
      | killExit k => simp only [step]; rw [happ]; exact ⟨h1, fun p' hp' => by cases hp'⟩
      | iter i =>
        simp only [step]
        unfold iterate
        split
        · cases i with
          | osFlush n => rw [happ]; exact ⟨h1, fun p' hp' => by cases hp'; exact hp⟩
          | outlier st => rw [happ]; exact ⟨h1, fun p' hp' => by cases hp'; exact hp⟩
          | ok st row =>
            simp only
            split
            · unfold abort; rw [happ]; exact ⟨h1, fun p' hp' => by cases hp'⟩
            · rw [happ]; exact ⟨h1, fun p' hp' => by cases hp'; exact hp⟩
          | fail =>
            simp only
            split
            · unfold abort; rw [happ]; exact ⟨h1, fun p' hp' => by cases hp'⟩
            · split
              · unfold abort; rw [happ]; exact ⟨h1, fun p' hp' => by cases hp'⟩
              · split
                · unfold abort; rw [happ]; exact ⟨h1, fun p' hp' => by cases hp'⟩
                · rw [happ]; exact ⟨by simp only; omega, fun p' hp' => by cases hp'; simp only; omega⟩
        · rw [happ]; exact ⟨h1, fun p' hp' => by cases hp'⟩

/-- C80.  Whenever the run is rolled back to, or resumed from, step `r`, the state it continues with
is the state after step `r` of the trajectory in force just before. -/
theorem c80_back (c : Cfg) (hB : 0 < c.block) (d : Dir σ μ) (hd : NoData c.pre d) (es : List (Ev σ μ))
    (before after : List (Out σ μ)) (o : Out σ μ) (r : Nat) (st : σ)
    (ho : (exec c d es).2 = before ++ o :: after) (hr : o = .rolledBack r st ∨ o = .resumed r st) :
    ∃ row, (r, st, row) ∈ traj before := by
  induction es using List.reverseRecOn generalizing after with
  | nil => simp [exec] at ho
  | append_singleton es e ih =>
    rw [exec_snoc] at ho
    simp only at ho
    rcases List.eq_nil_or_concat after with rfl | ⟨a', x, rfl⟩
    · have := List.append_inj' ho rfl
      obtain ⟨h1, h2⟩ := this
      simp only [List.cons.injEq, and_true] at h2
      rw [← h1]
      refine (step_inv hB (exec_inv hB hd es) e).2 r st ?_
      rw [h2]; exact hr
    · rw [show before ++ o :: (a'.concat x) = (before ++ o :: a') ++ [x] by simp] at ho
      have := List.append_inj' ho rfl
      exact ih a' this.1

/-- After a rollback or resumption the process continues with that state and the following step. -/
theorem c80_continue (c : Cfg) (d : Dir σ μ) (es : List (Ev σ μ)) (e : Ev σ μ) (r : Nat) (st : σ)
    (ho : (step c (exec c d es).1 e).2 = .rolledBack r st ∨ (step c (exec c d es).1 e).2 = .resumed r st) :
    ∃ p, (exec c d (es ++ [e])).1 = .up p ∧ p.t = r + 1 ∧ p.state = st := by
  rw [exec_snoc]
  generalize (exec c d es).1 = s at ho ⊢
  cases s with
  | down d' =>
    cases e with
    | start init =>
      simp only [step] at ho ⊢
      unfold startProc at ho ⊢
      cases hf : findLatest c.pre d' with
      | none => rw [hf] at ho; rcases ho with ho | ho <;> cases ho
      | some rf =>
        obtain ⟨r', f⟩ := rf
        rw [hf] at ho
        simp only at ho ⊢
        cases hopen : openData r' f with
        | error e => rw [hopen] at ho; rcases ho with ho | ho <;> cases ho
        | ok t =>
          rw [hopen] at ho
          rcases ho with ho | ho
          · cases ho
          · cases ho; exact ⟨_, rfl, rfl, rfl⟩
    | iter i => rcases ho with ho | ho <;> cases ho
    | kill => rcases ho with ho | ho <;> cases ho
    | killIn i k => rcases ho with ho | ho <;> cases ho
    | killExit k => rcases ho with ho | ho <;> cases ho
  | up p =>
    cases e with
    | start init => rcases ho with ho | ho <;> cases ho
    | kill => rcases ho with ho | ho <;> cases ho
    | killIn i k => rcases ho with ho | ho <;> cases ho
    | killExit k => rcases ho with ho | ho <;> cases ho
    | iter i =>
      simp only [step] at ho ⊢
      unfold iterate abort at ho ⊢
      split at ho
      next hlt =>
        rw [if_pos hlt]
        cases i with
        | osFlush n => rcases ho with ho | ho <;> cases ho
        | outlier st' => rcases ho with ho | ho <;> cases ho
        | ok st' row =>
          simp only at ho
          split at ho <;> rcases ho with ho | ho <;> cases ho
        | fail =>
          simp only at ho ⊢
          split at ho
          · rcases ho with ho | ho <;> cases ho
          next h1 =>
            rw [if_neg h1]
            split at ho
            · rcases ho with ho | ho <;> cases ho
            next h2 =>
              rw [if_neg h2]
              cases hr : p.mgr.rollback c.pre with
              | error e => rw [hr] at ho; rcases ho with ho | ho <;> cases ho
              | ok x =>
                obtain ⟨r', st', m⟩ := x
                rw [hr] at ho
                rcases ho with ho | ho
                · cases ho; exact ⟨_, rfl, rfl, rfl⟩
                · cases ho
      next => rcases ho with ho | ho <;> cases ho

/-! When is a failure recoverable? -/

theorem firstStep_snoc (outs : List (Out σ μ)) (o : Out σ μ) :
    firstStep (outs ++ [o]) = firstOf (firstStep outs) o := by
  unfold firstStep; rw [List.foldl_append]; rfl

/-- The step after the newest data file, or `t_init`. -/
def nextOf (c : Cfg) : Option Nat → Nat
  | none => c.tInit
  | some r => r + 1

theorem newest_det {c : Cfg} {d : Dir σ μ} {a b : Option Nat} (ha : Newest c d a) (hb : Newest c d b) :
    a = b := by
  cases a with
  | none =>
    cases b with
    | none => rfl
    | some r =>
      obtain ⟨⟨t, ht⟩, _⟩ := hb
      have := ha _ ht
      rw [dataIndex_dataName] at this; cases this
  | some q =>
    cases b with
    | none =>
      obtain ⟨⟨t, ht⟩, _⟩ := ha
      have := hb _ ht
      rw [dataIndex_dataName] at this; cases this
    | some r =>
      obtain ⟨⟨t, ht⟩, h1⟩ := ha
      obtain ⟨⟨t', ht'⟩, h2⟩ := hb
      have := h1 _ ht' r (dataIndex_dataName _ _)
      have := h2 _ ht q (dataIndex_dataName _ _)
      congr 1; omega

theorem run_safe_none {c : Cfg} {m m' : Mgr σ μ} {t : Nat} {st : σ} {row : μ}
    (h : m.run c.pre c.block t st row = .ok m') (hs : m'.safeStep = none) :
    m.safeStep = none ∧ m'.save = m.save := by
  unfold Mgr.run at h
  simp only at h
  split at h
  · unfold Mgr.commit at h
    simp only at h
    split at h
    next hsome =>
      exfalso
      split at h
      · cases h
      next m2 hup =>
        cases h
        have hss : m2.safeStep = (m.write t row).unsafeStep := by
          unfold Mgr.upload at hup
          split at hup
          · cases hup; rfl
          · cases hup
        have : (m2.rmWork c.pre (m.write t row).safeStep).safeStep = m2.safeStep := by
          unfold Mgr.rmWork; split <;> rfl
        rw [this, hss] at hs
        rw [hs] at hsome
        simp [Mgr.fileAt] at hsome
    · cases h; exact ⟨hs, rfl⟩
  · cases h; exact ⟨hs, rfl⟩

/-- While a process has no safe data, the newest file in the save path is the one it started from. -/
theorem start_newest (c : Cfg) (hB : 0 < c.block) (d : Dir σ μ) (hd : NoData c.pre d) (es : List (Ev σ μ))
    (p : Proc σ μ) (hp : (exec c d es).1 = .up p) (hs : p.mgr.safeStep = none) :
    ∀ nw, Newest c p.mgr.save nw →
      firstStep (exec c d es).2 = some (nextOf c nw) := by
  induction es using List.reverseRecOn generalizing p with
  | nil => simp [exec] at hp
  | append_singleton es e ih =>
    intro nw hnw
    rw [exec_snoc] at hp ⊢
    simp only at hp ⊢
    have hinv := exec_inv hB hd es
    generalize hsys : (exec c d es).1 = s at hp hinv ih
    rw [firstStep_snoc]
    cases s with
    | down d' =>
      cases e with
      | start init =>
        simp only [step] at hp ⊢
        have hspec := findLatest_spec c.pre d'
        unfold startProc at hp ⊢
        cases hf : findLatest c.pre d' with
        | none =>
          rw [hf] at hspec
          rw [hf] at hp
          simp only at hp hspec ⊢
          cases hp
          have : nw = none := newest_det hnw (show Newest c _ none from hspec)
          subst this; rfl
        | some rf =>
          obtain ⟨r, f⟩ := rf
          rw [hf] at hspec hp
          simp only at hp hspec ⊢
          cases f with
          | torn => simp [openData] at hp
          | whole t =>
            simp only [openData] at hp ⊢
            by_cases hst : t.step = r
            · rw [if_pos hst] at hp ⊢
              cases hp
              obtain ⟨⟨n, hn, hni⟩, hmax⟩ := hspec
              have h3 : DownInv c (exec c d es).2 d' := hinv
              have hname := (h3.files.2 _ hn r hni).1
              simp only at hname
              have : nw = some r := newest_det hnw ⟨⟨t, by rw [← hname]; exact hn⟩, hmax⟩
              subst this; rfl
            · rw [if_neg hst] at hp
              cases hp
      | iter i => cases hp
      | kill => cases hp
      | killIn i k => cases hp
      | killExit k => cases hp
    | up q =>
      have key : ∀ o : Out σ μ, firstOf (firstStep (exec c d es).2) o = firstStep (exec c d es).2 →
          q.mgr.safeStep = none → p.mgr.save = q.mgr.save →
          firstOf (firstStep (exec c d es).2) o = some (nextOf c nw) := by
        intro o h1 h3 h4
        rw [h1]
        exact ih q rfl h3 nw (by rw [← h4]; exact hnw)
      cases e with
      | start init =>
        cases hp
        exact key _ rfl hs rfl
      | kill => cases hp
      | killIn i k => cases hp
      | killExit k => cases hp
      | iter i =>
        simp only [step] at hp ⊢
        unfold iterate abort at hp ⊢
        split at hp
        next hlt =>
          rw [if_pos hlt]
          cases i with
          | osFlush n => cases hp; exact key _ rfl hs rfl
          | outlier st' => cases hp; exact key _ rfl hs rfl
          | ok st' row =>
            simp only at hp ⊢
            cases hr : q.mgr.run c.pre c.block q.t st' row with
            | error e => rw [hr] at hp; cases hp
            | ok m =>
              rw [hr] at hp
              cases hp
              obtain ⟨h1, h2⟩ := run_safe_none hr hs
              exact key _ rfl h1 h2
          | fail =>
            simp only at hp
            split at hp
            · cases hp
            split at hp
            · cases hp
            split at hp
            · cases hp
            next r st m hr =>
              exfalso
              cases hp
              unfold Mgr.rollback at hr
              simp only at hr
              split at hr
              next s' f hs' hf' =>
                split at hr
                · cases hr
                · cases hr
                  have : ∀ dk x, (Mgr.rmWork c.pre { q.mgr.flush with disk := dk, buf := [] } x).safeStep =
                      q.mgr.flush.safeStep := by
                    intro dk x; unfold Mgr.rmWork; split <;> rfl
                  simp only [this] at hs
                  rw [hs] at hs'; cases hs'
              · cases hr
        next => cases hp

/-- C80.  A failing iteration is recovered from as soon as the process has worked through two blocks
(and the number of restores allowed is not used up); the run then continues after the newest data
file in the save path. -/
theorem c80_recover (c : Cfg) (hB : 0 < c.block) (d : Dir σ μ) (hd : NoData c.pre d) (es : List (Ev σ μ))
    (p : Proc σ μ) (hp : (exec c d es).1 = .up p) (a : Nat) (ha : firstStep (exec c d es).2 = some a)
    (h2 : a + 2 * c.block ≤ p.t) (hlt : p.t < c.numSteps + c.block + 1) (hr : p.restores < c.maxRestores) :
    ∃ r t, (iterate c p .fail).2 = .rolledBack r t.state ∧ p.t ≤ r + 2 * c.block ∧
      (dataName c.pre r, File.whole t) ∈ p.mgr.save ∧
      ∀ e ∈ p.mgr.save, ∀ j, dataIndex c.pre e.1 = some j → j ≤ r := by
  have h := exec_inv hB hd es
  rw [hp] at h
  obtain ⟨nw, h⟩ := h
  have hsafe : p.mgr.safeStep ≠ none := by
    intro hs
    have hst := start_newest c hB d hd es p hp hs nw h.newest
    rw [ha] at hst
    simp only [Option.some.injEq] at hst
    cases hu : p.mgr.unsafeStep with
    | none =>
      obtain ⟨i1, i2⟩ := h.idle hu
      cases nw with
      | none =>
        simp only [nextOf] at hst
        have : ¬ c.block ∣ (p.t - 1) / c.block * c.block := by
          refine i1 rfl _ ?_ ?_
          · have h1 := Nat.div_add_mod (p.t - 1) c.block
            have h2 := Nat.mod_lt (p.t - 1) hB
            rw [Nat.mul_comm] at h1
            omega
          · have := Nat.div_mul_le_self (p.t - 1) c.block
            omega
        exact this (Dvd.intro_left _ rfl)
      | some r =>
        have := i2 r rfl
        simp only [nextOf] at hst
        omega
    | some u =>
      obtain ⟨_, _, b2, b3, b4, b5⟩ := h.busy u hu
      cases nw with
      | none => have := b4 rfl; simp only [nextOf] at hst; omega
      | some r => have := (b5 r rfl).2; simp only [nextOf] at hst; omega
  cases hs : p.mgr.safeStep with
  | none => exact absurd hs hsafe
  | some s =>
    obtain ⟨hnw, t, w1, w2, w3, w4⟩ := h.safe s hs
    have hnew := h.newest
    rw [hnw] at hnew
    obtain ⟨⟨t', ht'⟩, hmax⟩ := hnew
    have hrb : ∃ m, p.mgr.rollback c.pre = .ok (s, t.state, m) := by
      unfold Mgr.rollback
      have h1 : p.mgr.flush.safeStep = some s := hs
      have h2 : p.mgr.flush.fileAt c.pre (some s) = some (.whole t) := w1
      simp only [h1, h2, openData, w2, if_true]
      exact ⟨_, rfl⟩
    obtain ⟨m, hm⟩ := hrb
    have hsnap := (h.files.2 _ ht' s (dataIndex_dataName _ _)).2.2.2 t' rfl
    have heq : t' = t := by
      obtain ⟨e1, ⟨row1, f1⟩, g1⟩ := hsnap
      obtain ⟨⟨row2, f2⟩, g2⟩ := w4
      have hnd : (traj (exec c d es).2).map Prod.fst = List.range' c.tInit (p.t - c.tInit) := h.consec
      have hst : ∀ (l : List (Entry σ μ)), (l.map Prod.fst).Nodup → ∀ k x y, (k, x) ∈ l → (k, y) ∈ l → x = y := by
        intro l hl k x y hx hy
        induction l with
        | nil => cases hx
        | cons e l ih =>
          simp only [List.map_cons, List.nodup_cons] at hl
          rcases List.mem_cons.1 hx with hx | hx <;> rcases List.mem_cons.1 hy with hy | hy
          · rw [← hx] at hy; cases hy; rfl
          · exact absurd (List.mem_map_of_mem (f := Prod.fst) hy) (by rw [← hx] at hl; exact hl.1)
          · exact absurd (List.mem_map_of_mem (f := Prod.fst) hx) (by rw [← hy] at hl; exact hl.1)
          · exact ih hl.2 hx hy
      rw [e1] at f1 g1
      rw [w2] at f2 g2
      have h5 := hst _ (by rw [hnd]; exact List.nodup_range') _ _ _ f1 f2
      cases t; cases t'
      simp only at *
      simp only [Prod.mk.injEq] at h5
      rw [g1, g2, e1, w2, h5.1]
    refine ⟨s, t, ?_, ?_, by rw [← heq]; exact ht', hmax⟩
    · unfold iterate
      rw [if_pos hlt]
      simp only
      rw [if_neg (by omega), if_neg (by omega), hm]
    · cases hu : p.mgr.unsafeStep with
      | none => have := (h.idle hu).2 s hnw; omega
      | some u =>
        obtain ⟨_, _, b2, b3, b4, b5⟩ := h.busy u hu
        have := (b5 s hnw).2; omega

/-! ### C81: data files -/

/-- C81.  At any moment of any history every data file in the save path is named after a multiple of
the block size, was put there only after the following block had been worked through, and, if
complete, holds exactly the state after that step of the trajectory in force, with all metric rows
up to it. -/
theorem c81_files (c : Cfg) (hB : 0 < c.block) (d : Dir σ μ) (hd : NoData c.pre d) (es : List (Ev σ μ))
    (n : Name) (f : File σ μ) (i : Nat) (hf : (n, f) ∈ (exec c d es).1.save) (hi : dataIndex c.pre n = some i) :
    n = dataName c.pre i ∧ c.block ∣ i ∧
    (∃ st row, Out.done (i + c.block - 1) st row ∈ (exec c d es).2) ∧
    ∀ t, f = .whole t → t.step = i ∧ Snapshot (traj (exec c d es).2) t := by
  have h := exec_inv hB hd es
  generalize (exec c d es).1 = s at h hf
  cases s with
  | down d' => exact DownInv.files h |>.2 _ hf i hi
  | up p => obtain ⟨nw, h⟩ := h; exact h.files.2 _ hf i hi

/-- C81.  While a process runs, the newest data file is a complete snapshot less than two blocks
behind the last completed step; if there is none, fewer than two blocks have been done. -/
theorem c81_loss (c : Cfg) (hB : 0 < c.block) (d : Dir σ μ) (hd : NoData c.pre d) (es : List (Ev σ μ))
    (p : Proc σ μ) (hp : (exec c d es).1 = .up p) :
    (∃ r t, (dataName c.pre r, File.whole t) ∈ p.mgr.save ∧ t.step = r ∧
      Snapshot (traj (exec c d es).2) t ∧ r < p.t ∧ p.t ≤ r + 2 * c.block ∧
      ∀ e ∈ p.mgr.save, ∀ j, dataIndex c.pre e.1 = some j → j ≤ r) ∨
    ((∀ e ∈ p.mgr.save, dataIndex c.pre e.1 = none) ∧ p.t < c.tInit + 2 * c.block) := by
  have h := exec_inv hB hd es
  rw [hp] at h
  obtain ⟨nw, h⟩ := h
  cases nw with
  | none =>
    right
    refine ⟨h.newest, ?_⟩
    cases hu : p.mgr.unsafeStep with
    | none =>
      by_contra hge
      have : ¬ c.block ∣ (p.t - 1) / c.block * c.block := by
        refine (h.idle hu).1 rfl _ ?_ ?_
        · have h1 := Nat.div_add_mod (p.t - 1) c.block
          have h2 := Nat.mod_lt (p.t - 1) hB
          rw [Nat.mul_comm] at h1
          omega
        · have := Nat.div_mul_le_self (p.t - 1) c.block
          omega
      exact this (Dvd.intro_left _ rfl)
    | some u =>
      obtain ⟨_, _, b2, b3, b4, b5⟩ := h.busy u hu
      have := b4 rfl; omega
  | some r =>
    left
    obtain ⟨t, h1, h2, h3⟩ := newest_uniq h
    refine ⟨r, t, h1, h2, h3, ?_, ?_, h.newest.2⟩
    · obtain ⟨⟨row, hr⟩, _⟩ := h3
      have := consec_mem h.consec hr
      have := h.start
      simp only [h2] at *
      omega
    · cases hu : p.mgr.unsafeStep with
      | none => have := (h.idle hu).2 r rfl; omega
      | some u =>
        obtain ⟨_, _, b2, b3, b4, b5⟩ := h.busy u hu
        have := (b5 r rfl).2; omega

/-- C81.  If the process is killed between two operations and started again, it resumes at most two
blocks back, with a state of the trajectory it was on (or starts afresh if it had not yet done two
blocks and nothing had been saved). -/
theorem c81_restart (c : Cfg) (hB : 0 < c.block) (d : Dir σ μ) (hd : NoData c.pre d) (es : List (Ev σ μ))
    (p : Proc σ μ) (hp : (exec c d es).1 = .up p) (init : σ) :
    (∃ r st row, (step c (.down p.mgr.save) (.start init)).2 = .resumed r st ∧
      (r, st, row) ∈ traj (exec c d es).2 ∧ p.t ≤ r + 2 * c.block) ∨
    ((step c (.down p.mgr.save) (.start init)).2 = .fresh c.tInit ∧ p.t < c.tInit + 2 * c.block) := by
  have hspec := findLatest_spec c.pre p.mgr.save
  simp only [step, startProc]
  rcases c81_loss c hB d hd es p hp with ⟨r, t, h1, h2, h3, h4, h5, h6⟩ | ⟨h1, h2⟩
  · left
    cases hf : findLatest c.pre p.mgr.save with
    | none =>
      rw [hf] at hspec
      have := hspec _ h1
      rw [dataIndex_dataName] at this; cases this
    | some rf =>
      obtain ⟨q, f⟩ := rf
      rw [hf] at hspec
      obtain ⟨⟨n, hn, hni⟩, hmax⟩ := hspec
      have e1 := hmax _ h1 r (dataIndex_dataName _ _)
      have e2 := h6 _ hn q hni
      have e3 : q = r := by omega
      subst e3
      have hup := exec_inv hB hd es
      rw [hp] at hup
      obtain ⟨nw, hup⟩ := hup
      cases f with
      | torn => exact (hup.noTorn _ _ hn hni).elim
      | whole t' =>
        obtain ⟨k1, k2⟩ := (hup.files.2 _ hn q hni).2.2.2 t' rfl
        obtain ⟨⟨row, k3⟩, _⟩ := k2
        simp only [openData, k1, if_true]
        exact ⟨q, t'.state, row, rfl, by rw [k1] at k3; exact k3, h5⟩
  · right
    cases hf : findLatest c.pre p.mgr.save with
    | none => exact ⟨rfl, h2⟩
    | some rf =>
      obtain ⟨q, f⟩ := rf
      rw [hf] at hspec
      obtain ⟨⟨n, hn, hni⟩, hmax⟩ := hspec
      have := h1 _ hn
      rw [this] at hni; cases hni

/-- C81.  When a run that started at step 0 ends normally, the save path holds a complete data file
for the last multiple of the block size not above `num_steps`, or a later one. -/
theorem c81_finish (c : Cfg) (hB : 0 < c.block) (h0 : c.tInit = 0) (d : Dir σ μ) (hd : NoData c.pre d)
    (es : List (Ev σ μ)) (i : Iter σ μ) (p : Proc σ μ) (hp : (exec c d es).1 = .up p)
    (hfin : (iterate c p i).2 = .finished) :
    ∃ r t, (dataName c.pre r, File.whole t) ∈ (iterate c p i).1.save ∧ t.step = r ∧
      Snapshot (traj (exec c d es).2) t ∧ c.numSteps / c.block * c.block ≤ r := by
  have hge : ¬ p.t < c.numSteps + c.block + 1 := by
    intro hlt
    unfold iterate abort at hfin
    rw [if_pos hlt] at hfin
    cases i with
    | osFlush n => cases hfin
    | outlier st => cases hfin
    | ok st row => simp only at hfin; split at hfin <;> cases hfin
    | fail =>
      simp only at hfin
      split at hfin
      · cases hfin
      split at hfin
      · cases hfin
      split at hfin <;> cases hfin
  have h := exec_inv hB hd es
  rw [hp] at h
  obtain ⟨nw, h⟩ := h
  cases nw with
  | none =>
    exfalso
    cases hu : p.mgr.unsafeStep with
    | none => exact (h.idle hu).1 rfl 0 (by omega) (by omega) (dvd_zero _)
    | some u =>
      obtain ⟨⟨_, _, _, w3, _⟩, b1, b2, b3, b4, b5⟩ := h.busy u hu
      have := b4 rfl
      have : u = 0 := Nat.eq_zero_of_dvd_of_lt w3 (by omega)
      omega
  | some r =>
    obtain ⟨t, h1, h2, h3⟩ := newest_uniq h
    have hr2 : c.block ∣ r := (h.files.2 _ h1 r (dataIndex_dataName _ _)).2.1
    have hb : p.t ≤ r + 2 * c.block := by
      cases hu : p.mgr.unsafeStep with
      | none => have := (h.idle hu).2 r rfl; omega
      | some u =>
        obtain ⟨_, _, b2, b3, b4, b5⟩ := h.busy u hu
        have := (b5 r rfl).2; omega
    have hle : c.numSteps / c.block * c.block ≤ r := by
      obtain ⟨k, rfl⟩ := hr2
      rw [Nat.mul_comm c.block k]
      refine Nat.mul_le_mul_right _ ?_
      have : c.numSteps < (k + 1) * c.block := by nlinarith
      have := (Nat.div_lt_iff_lt_mul hB).2 this
      omega
    have hsave : (iterate c p i).1.save = (p.mgr.exit c.pre).save := by
      unfold iterate; rw [if_neg hge]; rfl
    rw [hsave]
    unfold Mgr.exit Mgr.upload
    rw [fileAt_flush]
    have hfl : p.mgr.flush.safeStep = p.mgr.safeStep := rfl
    rw [hfl]
    split
    · exact ⟨r, t, h1, h2, h3, hle⟩
    next m' he =>
      split at he
      next s f hs hf =>
        cases he
        obtain ⟨hnw, ts, w1, w2, w3, w4⟩ := h.safe s hs
        cases hnw
        rw [hs] at hf
        have hf2 : f = .whole ts := by
          simp only [Mgr.fileAt] at hf
          rw [w1] at hf; cases hf; rfl
        subst hf2
        exact ⟨r, ts, (Checkpoint.mem_dictSet _ _ _ h.files.1 _).2 (.inl rfl), w2, w4, hle⟩
      · cases he

/-! ### C82: incomplete data files -/

/-- No incomplete data file. -/
def NoTorn (pre : Name) (d : Dir σ μ) : Prop := ∀ n i, (n, File.torn) ∈ d → dataIndex pre n = some i → False

theorem noTorn_put {c : Cfg} {outs : List (Out σ μ)} {p : Proc σ μ} {nw : Option Nat}
    (h : UpInv c outs p nw) (n : Name) (t : Tar σ μ) :
    NoTorn c.pre (dictSet p.mgr.save n (.whole t)) := by
  intro n' i hn hi
  rcases (Checkpoint.mem_dictSet _ _ _ h.files.1 _).1 hn with hh | ⟨hh, _⟩
  · cases hh
  · exact h.noTorn _ _ hh hi

theorem safe_whole {c : Cfg} {outs : List (Out σ μ)} {p : Proc σ μ} {nw : Option Nat}
    (h : UpInv c outs p nw) {s : Nat} {f : File σ μ} (hs : p.mgr.safeStep = some s)
    (hf : p.mgr.fileAt c.pre p.mgr.safeStep = some f) : ∃ t, f = .whole t := by
  obtain ⟨_, t, w1, _⟩ := h.safe s hs
  rw [hs] at hf
  simp only [Mgr.fileAt] at hf
  rw [w1] at hf; cases hf; exact ⟨t, rfl⟩

theorem noTorn_exit {c : Cfg} {outs : List (Out σ μ)} {p : Proc σ μ} {nw : Option Nat}
    (h : UpInv c outs p nw) (m : Mgr σ μ) (hm : m.save = p.mgr.save) (hm2 : m.safeStep = p.mgr.safeStep)
    (hm3 : m.work = p.mgr.work) : NoTorn c.pre (m.exit c.pre).save := by
  have hfa : ∀ s, m.fileAt c.pre s = p.mgr.fileAt c.pre s := by
    intro s; cases s <;> simp [Mgr.fileAt, hm3]
  unfold Mgr.exit Mgr.upload
  rw [fileAt_flush]
  have : m.flush.safeStep = m.safeStep := rfl
  rw [this]
  split
  · show NoTorn c.pre m.save
    rw [hm]; exact h.noTorn
  next m' he =>
    split at he
    next s f hs hf =>
      cases he
      rw [hfa, hm2] at hf
      rw [hm2] at hs
      obtain ⟨t, rfl⟩ := safe_whole h hs hf
      show NoTorn c.pre (dictSet m.save _ _)
      rw [hm]; exact noTorn_put h _ t
    · cases he

theorem noTorn_exitStages {c : Cfg} {outs : List (Out σ μ)} {p : Proc σ μ} {nw : Option Nat}
    (h : UpInv c outs p nw) (k : Nat) (hk : k ≠ 1) :
    NoTorn c.pre (((p.mgr.exitStages c.pre)[k]?).getD p.mgr.save) := by
  unfold Mgr.exitStages
  split
  next s f hs hf =>
    obtain ⟨t, rfl⟩ := safe_whole h hs hf
    match k, hk with
    | 0, _ => exact h.noTorn
    | 2, _ => exact noTorn_put h _ t
    | _ + 3, _ => exact h.noTorn
  · match k with
    | 0 => exact h.noTorn
    | _ + 1 => exact h.noTorn

theorem noTorn_iterStages {c : Cfg} (hB : 0 < c.block) {outs : List (Out σ μ)} {p : Proc σ μ} {nw : Option Nat}
    (h : UpInv c outs p nw) (i : Iter σ μ) (k : Nat) (hk : k ≠ 1) :
    NoTorn c.pre (((iterStages c p i)[k]?).getD p.mgr.save) := by
  have triv : ∀ k : Nat, NoTorn c.pre (([p.mgr.save][k]?).getD p.mgr.save) := by
    intro k
    match k with
    | 0 => exact h.noTorn
    | _ + 1 => exact h.noTorn
  unfold iterStages
  split
  · cases i with
    | outlier st => exact triv k
    | fail => exact triv k
    | osFlush n => exact triv k
    | ok st row =>
      simp only
      unfold Mgr.runStages
      split
      next hm =>
        split
        next u f hu hf =>
          split
          · obtain ⟨hw, b1, b2, b3, b4, b5⟩ := h.busy u hu
            obtain ⟨tu, w1, w2, w3, w4⟩ := hw
            have hdt : c.block ∣ p.t := Nat.dvd_of_mod_eq_zero hm
            have htu : p.t = u + c.block := dvd_between w3 hdt b2 b3
            have hne : dataName c.pre u ≠ dataName c.pre p.t := fun hh => by
              have := dataName_inj _ hh; omega
            have hfe : f = .whole tu := by
              rw [hu] at hf
              simp only [Mgr.fileAt, Mgr.saveUnsafe, Mgr.flush, Mgr.write] at hf
              rw [lookup_dictSet_ne _ _ _ _ hne, w1] at hf
              cases hf; rfl
            subst hfe
            match k, hk with
            | 0, _ => exact h.noTorn
            | 2, _ => exact noTorn_put h _ tu
            | _ + 3, _ => exact h.noTorn
          · exact triv k
        · exact triv k
      · exact triv k
  · exact noTorn_exitStages h k hk

theorem noTorn_step {c : Cfg} (hB : 0 < c.block) {outs : List (Out σ μ)} {s : Sys σ μ} (h : Inv c outs s)
    (ht : NoTorn c.pre s.save) (e : Ev σ μ) (he : ¬ MidCopy e) : NoTorn c.pre (step c s e).1.save := by
  have hnext := (step_inv hB h e).1
  cases s with
  | down d' =>
    cases e with
    | start init =>
      simp only [step, startProc]
      split
      · exact ht
      · split
        · exact ht
        · exact ht
    | iter i => exact ht
    | kill => exact ht
    | killIn i k => exact ht
    | killExit k => exact ht
  | up p =>
    obtain ⟨nw, hu⟩ := h
    cases e with
    | start init => exact ht
    | kill => exact ht
    | killIn i k => exact noTorn_iterStages hB hu i k he
    | killExit k => exact noTorn_exitStages hu k he
    | iter i =>
      simp only [step] at hnext ⊢
      cases hs : (iterate c p i).1 with
      | up q =>
        rw [hs] at hnext
        obtain ⟨nw', hq⟩ := hnext
        exact hq.noTorn
      | down d' =>
        have : d' = (p.mgr.exit c.pre).save ∨ d' = (p.mgr.flush.exit c.pre).save := by
          obtain ⟨m, nw', hr, _⟩ : ∃ m nw', (∀ st row, i = .ok st row → p.mgr.run c.pre c.block p.t st row = .ok m) ∧
              (nw' : Option Nat) = none := by
            cases i with
            | ok st row =>
              obtain ⟨m, _, h1, _⟩ := run_inv hB hu st row
              exact ⟨m, none, fun st' row' hh => by cases hh; exact h1, rfl⟩
            | _ => exact ⟨p.mgr, none, fun st' row' hh => (by cases hh), rfl⟩
          unfold iterate abort at hs
          split at hs
          · cases i with
            | osFlush n => cases hs
            | outlier st => cases hs
            | ok st row => simp only [hr st row rfl] at hs; cases hs
            | fail =>
              simp only at hs
              split at hs
              · cases hs; exact .inl rfl
              split at hs
              · cases hs; exact .inl rfl
              split at hs
              · cases hs; exact .inr rfl
              · cases hs
          · cases hs; exact .inl rfl
        rcases this with rfl | rfl
        · exact noTorn_exit hu p.mgr rfl rfl rfl
        · exact noTorn_exit hu p.mgr.flush rfl rfl rfl

/-- C82 (partial).  In any history in which no kill hits a copy into the save path half way, every
start succeeds.  Missing from the full property: a kill in the middle of a copy, see
`c82_stuck`. -/
theorem c82_start_partial (c : Cfg) (hB : 0 < c.block) (d : Dir σ μ) (hd : NoData c.pre d) (es : List (Ev σ μ))
    (hes : ∀ e ∈ es, ¬ MidCopy e) (e : Err) : Out.startFailed e ∉ (exec c d es).2 := by
  have main : NoTorn c.pre (exec c d es).1.save ∧ Out.startFailed e ∉ (exec c d es).2 := by
    induction es using List.reverseRecOn with
    | nil =>
      refine ⟨fun n i hn hi => ?_, by simp [exec]⟩
      have := hd.1 _ hn
      rw [this] at hi; cases hi
    | append_singleton es ev ih =>
      have hes' := fun e he => hes e (List.mem_append_left _ he)
      obtain ⟨i1, i2⟩ := ih hes'
      have hinv := exec_inv hB hd es
      have hev := hes ev (by simp)
      rw [exec_snoc]
      refine ⟨noTorn_step hB hinv i1 ev hev, ?_⟩
      simp only [List.mem_append, List.mem_singleton, not_or]
      refine ⟨i2, fun hh => ?_⟩
      generalize (exec c d es).1 = s at hinv i1 hh
      cases s with
      | down d' =>
        cases ev with
        | start init =>
          simp only [step, startProc] at hh
          have hspec := findLatest_spec c.pre d'
          cases hf : findLatest c.pre d' with
          | none => rw [hf] at hh; cases hh
          | some rf =>
            obtain ⟨r, f⟩ := rf
            rw [hf] at hh hspec
            obtain ⟨⟨n, hn, hni⟩, hmax⟩ := hspec
            cases f with
            | torn => exact i1 _ _ hn hni
            | whole t =>
              have hdown : DownInv c (exec c d es).2 d' := hinv
              have := ((hdown.files.2 _ hn r hni).2.2.2 t rfl).1
              simp [openData, this] at hh
        | iter i => cases hh
        | kill => cases hh
        | killIn i k => cases hh
        | killExit k => cases hh
      | up p =>
        cases ev with
        | start init => cases hh
        | kill => cases hh
        | killIn i k => cases hh
        | killExit k => cases hh
        | iter i =>
          simp only [step] at hh
          unfold iterate abort at hh
          split at hh
          · cases i with
            | osFlush n => cases hh
            | outlier st => cases hh
            | ok st row => simp only at hh; split at hh <;> cases hh
            | fail =>
              simp only at hh
              split at hh
              · cases hh
              split at hh
              · cases hh
              split at hh <;> cases hh
          · cases hh
  exact main.2

/-- The other side of C82: once a kill has left an incomplete data file, every later start fails,
whatever complete data files there are, and nothing changes any more. -/
theorem c82_stuck (c : Cfg) (hB : 0 < c.block) (d : Dir σ μ) (hd : NoData c.pre d) (es : List (Ev σ μ))
    (n : Name) (i : Nat) (hn : (n, File.torn) ∈ (exec c d es).1.save) (hi : dataIndex c.pre n = some i)
    (es' : List (Ev σ μ)) :
    (exec c d (es ++ es')).1 = .down (exec c d es).1.save ∧
    ∀ o ∈ (exec c d (es ++ es')).2.drop es.length, o = .startFailed .unreadable ∨ o = .nothing := by
  have hinv := exec_inv hB hd es
  have hdown : ∃ d', (exec c d es).1 = .down d' := by
    cases hs : (exec c d es).1 with
    | down d' => exact ⟨d', rfl⟩
    | up p =>
      rw [hs] at hinv hn
      obtain ⟨nw, h⟩ := hinv
      exact (h.noTorn n i hn hi).elim
  obtain ⟨d', hd'⟩ := hdown
  rw [hd'] at hinv hn ⊢
  have hdi : DownInv c (exec c d es).2 d' := hinv
  have hlatest : findLatest c.pre d' = some (i, .torn) := by
    have hspec := findLatest_spec c.pre d'
    cases hf : findLatest c.pre d' with
    | none => rw [hf] at hspec; have := hspec _ hn; rw [hi] at this; cases this
    | some rf =>
      obtain ⟨r, f⟩ := rf
      rw [hf] at hspec
      obtain ⟨⟨m, hm, hmi⟩, hmax⟩ := hspec
      have e1 := hmax _ hn i hi
      have e2 := hdi.torn n i hn hi _ hm r hmi
      have e3 : r = i := by omega
      subst e3
      have n1 := (hdi.files.2 _ hn r hi).1
      have n2 := (hdi.files.2 _ hm r hmi).1
      simp only at n1 n2
      subst n1
      subst n2
      have h9 : ∀ (l : Dir σ μ), (l.map Prod.fst).Nodup → ∀ x y z, (x, y) ∈ l → (x, z) ∈ l → y = z := by
        intro l hl x y z hy hz
        induction l with
        | nil => cases hy
        | cons e l ih =>
          simp only [List.map_cons, List.nodup_cons] at hl
          rcases List.mem_cons.1 hy with hy | hy <;> rcases List.mem_cons.1 hz with hz | hz
          · rw [← hy] at hz; cases hz; rfl
          · exact absurd (List.mem_map_of_mem (f := Prod.fst) hz) (by rw [← hy] at hl; exact hl.1)
          · exact absurd (List.mem_map_of_mem (f := Prod.fst) hy) (by rw [← hz] at hl; exact hl.1)
          · exact ih hl.2 hy hz
      rw [h9 d' hdi.files.1 _ _ _ hm hn]
  induction es' using List.reverseRecOn with
  | nil =>
    rw [List.append_nil, hd']
    refine ⟨rfl, fun o ho => ?_⟩
    rw [List.drop_eq_nil_of_le (by rw [exec_length])] at ho
    cases ho
  | append_singleton es' e ih =>
    rw [← List.append_assoc, exec_snoc]
    obtain ⟨i1, i2⟩ := ih
    rw [i1]
    have hst : ∀ e : Ev σ μ, (step c (.down d') e).1 = .down d' ∧
        ((step c (.down d') e).2 = .startFailed .unreadable ∨ (step c (.down d') e).2 = .nothing) := by
      intro e
      cases e with
      | start init => simp [step, startProc, hlatest, openData]
      | iter i => exact ⟨rfl, .inr rfl⟩
      | kill => exact ⟨rfl, .inr rfl⟩
      | killIn i k => exact ⟨rfl, .inr rfl⟩
      | killExit k => exact ⟨rfl, .inr rfl⟩
    refine ⟨(hst e).1, fun o ho => ?_⟩
    rw [List.drop_append_of_le_length (by rw [exec_length]; simp)] at ho
    rcases List.mem_append.1 ho with ho | ho
    · exact i2 o ho
    · simp only [List.mem_singleton] at ho
      rw [ho]; exact (hst e).2

/-! ### C83: cleaning up -/

/-- C83 (partial).  `clean_up_save_path` never deletes a data file, so in particular not one a
restart needs.  Missing from the full property: it does not delete the files it documents to
delete, see `c83_keeps_old`. -/
theorem c83_cleanup_partial (pre : Name) (save : Dir σ μ) (keep every : Nat) :
    cleanUp pre save keep every = save := by
  simp [cleanUp, toRemove, indexed, selectOld]

/-- The documented deletion does not happen: a file that should be removed is still there. -/
theorem c83_keeps_old (pre : Name) (save : Dir σ μ) (keep every : Nat) (n : Name)
    (h : ShouldRemove pre (save.map Prod.fst) keep every n) :
    n ∈ (cleanUp pre save keep every).map Prod.fst := by
  rw [c83_cleanup_partial]; exact h.1

/-! ### Concrete cases -/

/-- Block size 2, three restores. -/
def cfg0 : Cfg := ⟨['d'], 2, 4, 0, 3⟩

/-- Steps 0..4, then a failure, and steps 3 to 5 again. -/
def hist0 : List (Ev Nat Nat) :=
  [.start 100, .iter (.ok 0 10), .iter (.ok 1 11), .iter (.outlier 77), .iter (.ok 2 12), .iter (.ok 3 13),
   .iter (.osFlush 1), .iter (.ok 4 14), .iter .fail, .iter (.ok 53 63), .iter (.ok 54 64), .iter (.ok 55 65)]

example : NoData cfg0.pre ([(['x'], .torn)] : Dir Nat Nat) := by
  refine ⟨?_, by simp⟩
  intro e he
  simp only [List.mem_singleton] at he
  subst he; decide

example : ((exec cfg0 [] hist0).1.save.map Prod.fst) =
    [['d', '_', '0', '0', '0', '0', '0', '0', '.', 't', 'g', 'z'],
     ['d', '_', '0', '0', '0', '0', '0', '2', '.', 't', 'g', 'z']] := by decide +kernel

/-- Next step and metric rows of the running process. -/
def look : Sys Nat Nat → Option (Nat × List (Nat × Nat))
  | .down _ => none
  | .up p => some (p.t, p.mgr.disk ++ p.mgr.buf)

example : look (exec cfg0 [] hist0).1 =
    some (6, [(0, 10), (1, 11), (2, 12), (3, 63), (4, 64), (5, 65)]) := by decide +kernel
example : (exec cfg0 [] hist0).2[8]? = some (.rolledBack 2 2) := by decide +kernel
example : firstStep (exec cfg0 [] hist0).2 = some 0 := by decide +kernel

/-- A kill in the middle of copying the data of step 2 leaves the complete data of step 0 unused. -/
def hist1 : List (Ev Nat Nat) :=
  [.start 100, .iter (.ok 0 10), .iter (.ok 1 11), .iter (.ok 2 12), .iter (.ok 3 13), .killIn (.ok 4 14) 1,
   .start 100]

example : (exec cfg0 [] hist1).2.getLast? = some (.startFailed .unreadable) := by decide +kernel
example : (dataName cfg0.pre 0, File.whole ⟨0, 0, [(0, 10)]⟩) ∈ (exec cfg0 [] hist1).1.save := by decide +kernel

example : ShouldRemove ['d'] [dataName ['d'] 3, dataName ['d'] 5] 1 10 (dataName ['d'] 3) := by
  refine ⟨by simp, 3, dataIndex_dataName _ _, by decide +kernel, by decide +kernel⟩

end Jaqmc.DmcData.Props
