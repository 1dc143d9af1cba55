import Verif.Lemmas.DmcData
/-! The invariant of the DMC data keeping is preserved by every event. -/
namespace Jaqmc.DmcData
open Jaqmc.Checkpoint (Name pad6 dictSet isDigit)
variable {σ μ : Type}

theorem filesOk_append {c : Cfg} {outs : List (Out σ μ)} {d : Dir σ μ} {n : Nat} (h : FilesOk c outs d)
    (hc : Consec c.tInit n (traj outs)) (st : σ) (row : μ) :
    FilesOk c (outs ++ [.done (c.tInit + n) st row]) d := by
  refine ⟨h.1, fun e he i hi => ?_⟩
  obtain ⟨a, b, ⟨st', row', h1⟩, h2⟩ := h.2 e he i hi
  refine ⟨a, b, ⟨st', row', List.mem_append_left _ h1⟩, fun t ht => ?_⟩
  obtain ⟨h3, h4⟩ := h2 t ht
  refine ⟨h3, ?_⟩
  rw [traj_snoc]
  refine snapshot_append h4 _ ?_
  obtain ⟨⟨row2, h5⟩, _⟩ := h4
  exact (consec_mem hc h5).2

theorem inWork_append {c : Cfg} {outs : List (Out σ μ)} {m m' : Mgr σ μ} {n s : Nat}
    (h : InWork c (traj outs) m s) (hc : Consec c.tInit n (traj outs)) (st : σ) (row : μ)
    (hw : m'.work.lookup (dataName c.pre s) = m.work.lookup (dataName c.pre s)) :
    InWork c (traj (outs ++ [.done (c.tInit + n) st row])) m' s := by
  obtain ⟨t, h1, h2, h3, h4⟩ := h
  refine ⟨t, by rw [hw]; exact h1, h2, h3, ?_⟩
  rw [traj_snoc]
  refine snapshot_append h4 _ ?_
  obtain ⟨⟨row2, h5⟩, _⟩ := h4
  exact (consec_mem hc h5).2

theorem inWork_lt {c : Cfg} {log : List (Entry σ μ)} {m : Mgr σ μ} {n s : Nat}
    (h : InWork c log m s) (hc : Consec c.tInit n log) : c.tInit ≤ s ∧ s < c.tInit + n := by
  obtain ⟨t, h1, h2, h3, ⟨⟨row2, h5⟩, _⟩⟩ := h
  have := consec_mem hc h5
  simp only [h2] at this
  exact this

/-- The new tarball is a snapshot. -/
theorem snapshot_new {c : Cfg} {outs : List (Out σ μ)} {n : Nat} (hc : Consec c.tInit n (traj outs))
    (st : σ) (row : μ) (rows : List (Nat × μ)) (hr : rows = rowsOf (traj outs)) :
    Snapshot (traj (outs ++ [.done (c.tInit + n) st row]))
      ⟨c.tInit + n, st, rows ++ [(c.tInit + n, row)]⟩ := by
  rw [traj_snoc]
  refine ⟨⟨row, by simp [extend]⟩, ?_⟩
  simp only [extend]
  have : ((traj outs) ++ [(c.tInit + n, st, row)]).filter (fun e => decide (e.1 ≤ c.tInit + n)) =
      (traj outs) ++ [(c.tInit + n, st, row)] := by
    rw [List.filter_eq_self]
    intro e he
    rcases List.mem_append.1 he with h | h
    · have := consec_mem hc h; simp; omega
    · simp at h; simp [h]
  rw [this, rowsOf_append, hr]
  rfl

theorem dvd_between {B u t : Nat} (hu : B ∣ u) (ht : B ∣ t) (h1 : u + 1 ≤ t) (h2 : t ≤ u + B) :
    t = u + B := by
  have h3 : B ∣ t - u := Nat.dvd_sub ht hu
  have := Nat.le_of_dvd (by omega) h3
  omega

theorem run_inv {c : Cfg} (hB : 0 < c.block) {outs : List (Out σ μ)} {p : Proc σ μ} {nw : Option Nat}
    (h : UpInv c outs p nw) (st : σ) (row : μ) :
    ∃ m nw', p.mgr.run c.pre c.block p.t st row = .ok m ∧
      UpInv c (outs ++ [.done p.t st row]) { p with mgr := m, t := p.t + 1, state := st } nw' := by
  obtain ⟨n, hn⟩ : ∃ n, p.t = c.tInit + n := ⟨p.t - c.tInit, by have := h.start; omega⟩
  have hc : Consec c.tInit n (traj outs) := by
    have := h.consec; rwa [show p.t - c.tInit = n by omega] at this
  have hc' : Consec c.tInit (n + 1) (traj (outs ++ [.done (c.tInit + n) st row])) := by
    rw [traj_snoc]; exact consec_append hc st row
  have hrows' : ∀ a b : List (Nat × μ), a ++ b = p.mgr.disk ++ p.mgr.buf ++ [(c.tInit + n, row)] →
      a ++ b = rowsOf (traj (outs ++ [.done (c.tInit + n) st row])) := by
    intro a b hab
    rw [hab, traj_snoc, h.rows]; simp [extend, rowsOf_append, rowsOf]
  by_cases hm : p.t % c.block = 0
  · have hdt : c.block ∣ p.t := Nat.dvd_of_mod_eq_zero hm
    cases hu : p.mgr.unsafeStep with
    | none =>
      refine ⟨((p.mgr.write p.t row).saveUnsafe c.pre p.t st), nw, ?_, ?_⟩
      · simp only [Mgr.run, hm, if_true, Mgr.commit]
        have : (p.mgr.write p.t row).unsafeStep = none := hu
        simp [this, Mgr.fileAt]
      obtain ⟨i1, i2⟩ := h.idle hu
      rw [hn]
      refine ⟨filesOk_append h.files hc st row, h.noTorn, by simp; omega, ?_, ?_, h.newest, ?_, ?_, ?_⟩
      · simpa [show c.tInit + n + 1 - c.tInit = n + 1 by omega] using hc'
      · apply hrows'; simp [Mgr.write, Mgr.saveUnsafe, Mgr.flush]
      · intro s hs
        obtain ⟨j1, j2⟩ := h.safe s hs
        have := (inWork_lt j2 hc).2
        refine ⟨j1, inWork_append j2 hc st row ?_⟩
        exact lookup_dictSet_ne _ _ _ _ (fun hh => by have := dataName_inj _ hh; omega)
      · intro hh; cases hh
      · intro u hu'
        cases hu'
        refine ⟨⟨_, lookup_dictSet_self _ _ _, rfl, hn ▸ hdt, ?_⟩, by omega, le_rfl,
          by simp only; omega, ?_, ?_⟩
        · have := snapshot_new hc st row _ h.rows
          simpa [Mgr.write, Mgr.flush] using this
        · intro hnw
          by_contra hlt
          refine i1 hnw (p.t - c.block) (by omega) (by omega) (Nat.dvd_sub hdt (dvd_refl _))
        · intro r hr
          obtain ⟨k1, k2, k3, k4⟩ := i2 r hr
          refine ⟨k2, ?_⟩
          rw [← hn]; exact dvd_between k1 hdt k3 k4
    | some u =>
      obtain ⟨hw, b1, b2, b3, b4, b5⟩ := h.busy u hu
      have hwu := hw
      obtain ⟨tu, w1, w2, w3, w4⟩ := hw
      have htu : p.t = u + c.block := dvd_between w3 hdt b2 b3
      have hne : dataName c.pre u ≠ dataName c.pre p.t := fun hh => by
        have := dataName_inj _ hh; omega
      -- the state before removing the old safe data
      let m1 := (p.mgr.write p.t row).saveUnsafe c.pre p.t st
      have hl1 : m1.work.lookup (dataName c.pre u) = some (.whole tu) := by
        show (dictSet p.mgr.work _ _).lookup _ = _
        rw [lookup_dictSet_ne _ _ _ _ hne]; exact w1
      let m2 : Mgr σ μ := { m1 with safeStep := some u, save := dictSet p.mgr.save (dataName c.pre u) (.whole tu) }
      refine ⟨m2.rmWork c.pre p.mgr.safeStep, some u, ?_, ?_⟩
      · simp only [Mgr.run, hm, if_true, Mgr.commit]
        have hu' : (p.mgr.write p.t row).unsafeStep = some u := hu
        have hl0 : (p.mgr.write p.t row).fileAt c.pre (some u) = some (.whole tu) := w1
        have hl2 : Mgr.fileAt c.pre { m1 with safeStep := some u } (some u) = some (.whole tu) := hl1
        rw [hu', hl0]
        simp only [Option.isSome_some, if_true]
        have : Mgr.upload c.pre { m1 with safeStep := some u } = .ok m2 := by
          unfold Mgr.upload
          simp only [hl2]
          rfl
        change (match Mgr.upload c.pre { m1 with safeStep := some u } with
          | .error e => Except.error e
          | .ok m2 => .ok (m2.rmWork c.pre p.mgr.safeStep)) = _
        rw [this]
      · have hsave : (m2.rmWork c.pre p.mgr.safeStep).save = dictSet p.mgr.save (dataName c.pre u) (.whole tu) := by
          unfold Mgr.rmWork; split <;> rfl
        have hdisk : (m2.rmWork c.pre p.mgr.safeStep).disk = p.mgr.disk ++ (p.mgr.buf ++ [(p.t, row)]) := by
          unfold Mgr.rmWork; split <;> rfl
        have hbuf : (m2.rmWork c.pre p.mgr.safeStep).buf = [] := by
          unfold Mgr.rmWork; split <;> rfl
        have hss : (m2.rmWork c.pre p.mgr.safeStep).safeStep = some u := by
          unfold Mgr.rmWork; split <;> rfl
        have hus : (m2.rmWork c.pre p.mgr.safeStep).unsafeStep = some p.t := by
          unfold Mgr.rmWork; split <;> rfl
        have hold : ∀ s, p.mgr.safeStep = some s → s < u := fun s hs => by
          have := (b5 s (h.safe s hs).1).2; omega
        have hlk : ∀ s, u ≤ s → (m2.rmWork c.pre p.mgr.safeStep).work.lookup (dataName c.pre s) =
            m1.work.lookup (dataName c.pre s) := by
          intro s hs
          unfold Mgr.rmWork
          split
          · rfl
          next s0 hs0 =>
            exact lookup_rmFile _ _ _ (fun hh => by have := dataName_inj _ hh; have := hold s0 hs0; omega)
        have hnd := h.files.1
        have hF := filesOk_append h.files hc st row
        have hWu : InWork c (traj (outs ++ [.done (c.tInit + n) st row]))
            (m2.rmWork c.pre p.mgr.safeStep) u :=
          inWork_append hwu hc st row (by rw [hlk u le_rfl, hl1, w1])
        -- newest index before
        have hle : ∀ e ∈ p.mgr.save, ∀ j, dataIndex c.pre e.1 = some j → j ≤ u := by
          intro e he j hj
          have hnew := h.newest
          cases hnw : nw with
          | none =>
            rw [hnw] at hnew
            rw [hnew e he] at hj; cases hj
          | some r =>
            rw [hnw] at hnew
            have := hnew.2 e he j hj
            have := (b5 r hnw).2
            omega
        have htm1 : ∃ st' row', Out.done (u + c.block - 1) st' row' ∈ outs := by
          have h0 : u + c.block - 1 ∈ (traj outs).map Prod.fst := by
            rw [hc, List.mem_range'_1]; omega
          obtain ⟨e, he, hee⟩ := List.mem_map.1 h0
          have := mem_traj he
          rw [hee] at this
          exact ⟨_, _, this⟩
        rw [hn]
        refine ⟨?_, ?_, by simp; omega, ?_, ?_, ?_, ?_, ?_, ?_⟩
        · show FilesOk _ _ (m2.rmWork c.pre p.mgr.safeStep).save
          rw [hsave]
          refine ⟨Checkpoint.dictSet_keys_nodup _ _ _ hnd, fun e he i hi => ?_⟩
          rcases (Checkpoint.mem_dictSet _ _ _ hnd e).1 he with rfl | ⟨he, _⟩
          · simp only [dataIndex_dataName, Option.some.injEq] at hi
            subst hi
            obtain ⟨st', row', hd⟩ := htm1
            refine ⟨rfl, w3, ⟨st', row', List.mem_append_left _ hd⟩, ?_⟩
            intro t ht
            cases ht
            obtain ⟨t', q1, q2, q3, q4⟩ := hWu
            rw [hlk u le_rfl, hl1] at q1
            cases q1
            exact ⟨w2, q4⟩
          · exact hF.2 e he i hi
        · show ∀ n i, (n, File.torn) ∈ (m2.rmWork c.pre p.mgr.safeStep).save → _
          rw [hsave]
          intro nm i hnm hi
          rcases (Checkpoint.mem_dictSet _ _ _ hnd _).1 hnm with hh | ⟨hh, _⟩
          · cases hh
          · exact h.noTorn nm i hh hi
        · simpa [show c.tInit + n + 1 - c.tInit = n + 1 by omega] using hc'
        · apply hrows'
          show (m2.rmWork c.pre p.mgr.safeStep).disk ++ (m2.rmWork c.pre p.mgr.safeStep).buf = _
          rw [hdisk, hbuf, hn]; simp
        · show Newest c (m2.rmWork c.pre p.mgr.safeStep).save _
          rw [hsave]
          refine ⟨⟨tu, (Checkpoint.mem_dictSet _ _ _ hnd _).2 (.inl rfl)⟩, fun e he j hj => ?_⟩
          rcases (Checkpoint.mem_dictSet _ _ _ hnd e).1 he with rfl | ⟨he, _⟩
          · rw [dataIndex_dataName] at hj; cases hj; exact le_rfl
          · exact hle e he j hj
        · intro s hs
          change (m2.rmWork c.pre p.mgr.safeStep).safeStep = some s at hs
          rw [hss] at hs
          cases hs
          exact ⟨rfl, hWu⟩
        · intro hh
          change (m2.rmWork c.pre p.mgr.safeStep).unsafeStep = none at hh
          rw [hus] at hh; cases hh
        · intro v hv
          change (m2.rmWork c.pre p.mgr.safeStep).unsafeStep = some v at hv
          rw [hus] at hv
          cases hv
          refine ⟨⟨⟨p.t, st, p.mgr.disk ++ (p.mgr.buf ++ [(p.t, row)])⟩, ?_, rfl, hdt, ?_⟩, by omega, by simp; omega,
            by simp; omega, fun hh => (by cases hh), ?_⟩
          · show (m2.rmWork c.pre p.mgr.safeStep).work.lookup _ = _
            rw [hlk p.t (by omega)]
            exact lookup_dictSet_self _ _ _
          · have := snapshot_new hc st row _ h.rows
            rw [hn]
            simpa using this
          · intro r hr
            cases hr
            exact ⟨b1, htu⟩
  · refine ⟨p.mgr.write p.t row, nw, by simp [Mgr.run, hm], ?_⟩
    rw [hn]
    have hnd : ¬ c.block ∣ c.tInit + n := by
      rw [← hn]; exact fun hh => hm (Nat.mod_eq_zero_of_dvd hh)
    refine ⟨filesOk_append h.files hc st row, h.noTorn, by simp; omega, ?_, ?_, h.newest, ?_, ?_, ?_⟩
    · simpa [show c.tInit + n + 1 - c.tInit = n + 1 by omega] using hc'
    · apply hrows'; simp [Mgr.write]
    · intro s hs
      obtain ⟨j1, j2⟩ := h.safe s hs
      exact ⟨j1, inWork_append j2 hc st row rfl⟩
    · intro hu
      obtain ⟨i1, i2⟩ := h.idle hu
      refine ⟨fun hnw k k1 k2 => ?_, fun r hr => ?_⟩
      · simp only at k2
        rcases Nat.lt_succ_iff_lt_or_eq.1 k2 with k3 | rfl
        · exact i1 hnw k k1 (by omega)
        · exact hnd
      · obtain ⟨k1, k2, k3, k4⟩ := i2 r hr
        refine ⟨k1, k2, by simp; omega, ?_⟩
        simp only
        rcases Nat.lt_or_ge (c.tInit + n) (r + c.block) with k5 | k5
        · omega
        · exact absurd (by rw [show c.tInit + n = r + c.block by omega]; exact Nat.dvd_add k1 (dvd_refl _)) hnd
    · intro u hu
      obtain ⟨k1, k2, k3, k4, k5, k6⟩ := h.busy u hu
      refine ⟨inWork_append k1 hc st row rfl, k2, by simp; omega, ?_, k5, k6⟩
      simp only
      rcases Nat.lt_or_ge (c.tInit + n) (u + c.block) with k7 | k7
      · omega
      · obtain ⟨t, w1, w2, w3, w4⟩ := k1
        exact absurd (by rw [show c.tInit + n = u + c.block by omega]; exact Nat.dvd_add w3 (dvd_refl _)) hnd

/-- Killed while the unsafe data is being committed. -/
theorem runStages_down {c : Cfg} (hB : 0 < c.block) {outs : List (Out σ μ)} {p : Proc σ μ} {nw : Option Nat}
    (h : UpInv c outs p nw) (st : σ) (row : μ) (k : Nat) (o : Out σ μ)
    (ho : extend (traj outs) o = traj outs) :
    DownInv c (outs ++ [o]) (((p.mgr.runStages c.pre c.block p.t st row)[k]?).getD p.mgr.save) := by
  have triv : ∀ k : Nat, DownInv c (outs ++ [o]) (([p.mgr.save][k]?).getD p.mgr.save) := by
    intro k
    match k with
    | 0 => exact up_to_down h o ho
    | _ + 1 => exact up_to_down h o ho
  unfold Mgr.runStages
  split
  next hm =>
    split
    next u f hu hf =>
      split
      next hsome =>
        obtain ⟨hw, b1, b2, b3, b4, b5⟩ := h.busy u hu
        obtain ⟨tu, w1, w2, w3, w4⟩ := hw
        have hdt : c.block ∣ p.t := Nat.dvd_of_mod_eq_zero hm
        have htu : p.t = u + c.block := dvd_between w3 hdt b2 b3
        have hne : dataName c.pre u ≠ dataName c.pre p.t := fun hh => by
          have := dataName_inj _ hh; omega
        have hfe : f = .whole tu := by
          rw [hu] at hf
          simp only [Mgr.fileAt, Mgr.saveUnsafe, Mgr.flush, Mgr.write] at hf
          rw [lookup_dictSet_ne _ _ _ _ hne, w1] at hf
          cases hf; rfl
        have hnd := h.files.1
        have hF := filesOk_mono h.files o ho
        have hle : ∀ e ∈ p.mgr.save, ∀ j, dataIndex c.pre e.1 = some j → j < u := by
          intro e he j hj
          have hnew := h.newest
          cases hnw : nw with
          | none =>
            rw [hnw] at hnew
            rw [hnew e he] at hj; cases hj
          | some r =>
            rw [hnw] at hnew
            have := hnew.2 e he j hj
            have := (b5 r hnw).2
            omega
        have hc := h.consec
        have htm1 : ∃ st' row', Out.done (u + c.block - 1) st' row' ∈ outs := by
          have h0 : u + c.block - 1 ∈ (traj outs).map Prod.fst := by
            rw [hc, List.mem_range'_1]; omega
          obtain ⟨e, he, hee⟩ := List.mem_map.1 h0
          have := mem_traj he
          rw [hee] at this
          exact ⟨_, _, this⟩
        have gen : ∀ g : File σ μ, g = .torn ∨ g = .whole tu →
            DownInv c (outs ++ [o]) (dictSet p.mgr.save (dataName c.pre u) g) := by
          intro g hg
          refine ⟨⟨Checkpoint.dictSet_keys_nodup _ _ _ hnd, ?_⟩, ?_,
            ⟨_, by rw [traj_snoc, ho]; exact h.consec⟩⟩
          · intro e he i hi
            rcases (Checkpoint.mem_dictSet _ _ _ hnd e).1 he with rfl | ⟨he, _⟩
            · simp only [dataIndex_dataName, Option.some.injEq] at hi
              subst hi
              obtain ⟨st', row', hd⟩ := htm1
              refine ⟨rfl, w3, ⟨st', row', List.mem_append_left _ hd⟩, ?_⟩
              intro t ht
              rcases hg with rfl | rfl
              · cases ht
              · cases ht; exact ⟨w2, by rw [traj_snoc, ho]; exact w4⟩
            · exact hF.2 e he i hi
          · intro n i hn hi e he j hj
            have hi' : i = u := by
              rcases (Checkpoint.mem_dictSet _ _ _ hnd _).1 hn with hh | ⟨hh, _⟩
              · rw [Prod.mk.injEq] at hh
                rw [hh.1, dataIndex_dataName] at hi; cases hi; rfl
              · exact (h.noTorn n i hh hi).elim
            subst hi'
            rcases (Checkpoint.mem_dictSet _ _ _ hnd e).1 he with rfl | ⟨he, _⟩
            · rw [dataIndex_dataName] at hj; cases hj; exact le_rfl
            · exact (hle e he j hj).le
        unfold putStages
        match k with
        | 0 => exact up_to_down h o ho
        | 1 => exact gen .torn (.inl rfl)
        | 2 => exact gen f (.inr hfe)
        | _ + 3 => exact up_to_down h o ho
      next => exact triv k
    · exact triv k
  · exact triv k

theorem iterStages_down {c : Cfg} (hB : 0 < c.block) {outs : List (Out σ μ)} {p : Proc σ μ} {nw : Option Nat}
    (h : UpInv c outs p nw) (i : Iter σ μ) (k : Nat) (o : Out σ μ)
    (ho : extend (traj outs) o = traj outs) :
    DownInv c (outs ++ [o]) (((iterStages c p i)[k]?).getD p.mgr.save) := by
  have triv : ∀ k : Nat, DownInv c (outs ++ [o]) (([p.mgr.save][k]?).getD p.mgr.save) := by
    intro k
    match k with
    | 0 => exact up_to_down h o ho
    | _ + 1 => exact up_to_down h o ho
  unfold iterStages
  split
  · cases i with
    | ok st row => exact runStages_down hB h st row k o ho
    | outlier st => exact triv k
    | fail => exact triv k
    | osFlush n => exact triv k
  · exact exitStages_down h k o ho

/-- Nothing but the state, the number of restores or the place of the buffered rows changes. -/
theorem up_same {c : Cfg} {outs : List (Out σ μ)} {p : Proc σ μ} {nw : Option Nat}
    (h : UpInv c outs p nw) (o : Out σ μ) (ho : extend (traj outs) o = traj outs) (q : Proc σ μ)
    (hq : q.t = p.t) (h1 : q.mgr.unsafeStep = p.mgr.unsafeStep) (h2 : q.mgr.safeStep = p.mgr.safeStep)
    (h3 : q.mgr.work = p.mgr.work) (h4 : q.mgr.save = p.mgr.save)
    (h5 : q.mgr.disk ++ q.mgr.buf = p.mgr.disk ++ p.mgr.buf) : UpInv c (outs ++ [o]) q nw := by
  have hl : traj (outs ++ [o]) = traj outs := by rw [traj_snoc, ho]
  have hw : ∀ s, InWork c (traj outs) p.mgr s → InWork c (traj (outs ++ [o])) q.mgr s := by
    intro s hs
    unfold InWork
    rw [hl, h3]; exact hs
  refine ⟨by rw [h4]; exact filesOk_mono h.files o ho, by rw [h4]; exact h.noTorn, by rw [hq]; exact h.start,
    by rw [hq, hl]; exact h.consec, by rw [h5, hl]; exact h.rows, by rw [h4]; exact h.newest, ?_, ?_, ?_⟩
  · intro s hs
    rw [h2] at hs
    exact ⟨(h.safe s hs).1, hw s (h.safe s hs).2⟩
  · intro hu
    rw [h1] at hu
    rw [hq]; exact h.idle hu
  · intro u hu
    rw [h1] at hu
    rw [hq]
    obtain ⟨a, b⟩ := h.busy u hu
    exact ⟨hw u a, b⟩

theorem rollback_inv {c : Cfg} {outs : List (Out σ μ)} {p : Proc σ μ} {nw : Option Nat}
    (hB : 0 < c.block) (h : UpInv c outs p nw) :
    match p.mgr.rollback c.pre with
    | .error e => p.mgr.safeStep = none ∧ e = .noSafeData
    | .ok (r, st, m) => (∃ row, (r, st, row) ∈ traj outs) ∧
        UpInv c (outs ++ [.rolledBack r st]) ⟨m, r + 1, st, p.restores + 1⟩ nw := by
  unfold Mgr.rollback
  simp only [fileAt_flush]
  have hs' : p.mgr.flush.safeStep = p.mgr.safeStep := rfl
  rw [hs']
  cases hs : p.mgr.safeStep with
  | none => exact ⟨rfl, rfl⟩
  | some s =>
    obtain ⟨hnw, hw⟩ := h.safe s hs
    have hlt := inWork_lt hw h.consec
    obtain ⟨t, w1, w2, w3, w4⟩ := hw
    have hf : p.mgr.fileAt c.pre (some s) = some (.whole t) := w1
    simp only [hf, openData, w2, if_true]
    have hst := h.start
    obtain ⟨⟨row, hrow⟩, hrows⟩ := id w4
    rw [w2] at hrow hrows
    refine ⟨⟨row, hrow⟩, ?_⟩
    -- the workspace keeps the safe file
    have hne : ∀ u, p.mgr.unsafeStep = some u → dataName c.pre s ≠ dataName c.pre u := by
      intro u hu hh
      have := dataName_inj _ hh
      have := ((h.busy u hu).2.2.2.2.2 s hnw).2
      omega
    let m1 : Mgr σ μ := { p.mgr.flush with safeStep := some s, disk := t.rows, buf := [] }
    let m2 := m1.rmWork c.pre m1.unsafeStep
    have hsave : m2.save = p.mgr.save := by show (Mgr.rmWork _ _ _).save = _; unfold Mgr.rmWork; split <;> rfl
    have hdisk : m2.disk = t.rows := by show (Mgr.rmWork _ _ _).disk = _; unfold Mgr.rmWork; split <;> rfl
    have hbuf : m2.buf = [] := by show (Mgr.rmWork _ _ _).buf = _; unfold Mgr.rmWork; split <;> rfl
    have hsafe : m2.safeStep = some s := by
      show (Mgr.rmWork _ _ _).safeStep = _; unfold Mgr.rmWork; split <;> rfl
    have hwork : m2.work.lookup (dataName c.pre s) = some (.whole t) := by
      show (Mgr.rmWork _ _ _).work.lookup _ = _
      unfold Mgr.rmWork
      split
      · exact w1
      next u hu =>
        have : p.mgr.unsafeStep = some u := hu
        show (rmFile p.mgr.work _).lookup _ = _
        rw [lookup_rmFile _ _ _ (hne u this)]; exact w1
    have hl : traj (outs ++ [.rolledBack s t.state]) = (traj outs).filter (fun e => e.1 ≤ s) := by
      rw [traj_snoc]; rfl
    have hnewest := h.newest
    rw [hnw] at hnewest
    show UpInv c _ ⟨{ m2 with unsafeStep := none }, s + 1, t.state, p.restores + 1⟩ nw
    refine ⟨?_, ?_, by simp; omega, ?_, ?_, ?_, ?_, ?_, ?_⟩
    · show FilesOk _ _ m2.save
      rw [hsave]
      refine ⟨h.files.1, fun e he i hi => ?_⟩
      obtain ⟨a, b, ⟨st', row', h1⟩, h2⟩ := h.files.2 e he i hi
      refine ⟨a, b, ⟨st', row', List.mem_append_left _ h1⟩, fun t2 ht2 => ?_⟩
      obtain ⟨q1, q2⟩ := h2 t2 ht2
      refine ⟨q1, ?_⟩
      rw [hl]
      exact snapshot_cut q2 s (by rw [q1]; exact hnewest.2 e he i hi)
    · show ∀ n i, (n, File.torn) ∈ m2.save → _
      rw [hsave]; exact h.noTorn
    · rw [hl]
      exact consec_cut h.consec s hlt.1 hlt.2
    · show m2.disk ++ m2.buf = _
      rw [hdisk, hbuf, hl, hrows]; simp
    · show Newest c m2.save nw
      rw [hsave]; exact h.newest
    · intro s' hs'
      change m2.safeStep = some s' at hs'
      rw [hsafe] at hs'
      cases hs'
      refine ⟨hnw, t, hwork, w2, w3, ?_⟩
      rw [hl]; exact snapshot_cut w4 s (by omega)
    · intro _
      refine ⟨fun hh => ?_, fun r hr => ?_⟩
      · rw [hnw] at hh; cases hh
      · rw [hnw] at hr
        cases hr
        exact ⟨w3, hlt.1, le_rfl, by simp only; omega⟩
    · intro u hu
      cases hu

theorem start_inv {c : Cfg} (hB : 0 < c.block) {outs : List (Out σ μ)} {d : Dir σ μ} (h : DownInv c outs d)
    (init : σ) :
    Inv c (outs ++ [(startProc c d init).2]) (startProc c d init).1 ∧
    (∀ r st, (startProc c d init).2 = .resumed r st → ∃ row, (r, st, row) ∈ traj outs) := by
  have hspec := findLatest_spec c.pre d
  unfold startProc
  cases hfl : findLatest c.pre d with
  | none =>
    rw [hfl] at hspec
    simp only at hspec ⊢
    refine ⟨⟨none, ?_⟩, fun r st hh => by cases hh⟩
    have hl : traj (outs ++ [Out.fresh c.tInit]) = [] := by rw [traj_snoc]; rfl
    refine ⟨⟨h.files.1, fun e he i hi => ?_⟩, ?_, le_rfl, ?_, ?_, hspec, ?_, ?_, ?_⟩
    · rw [hspec e he] at hi; cases hi
    · intro n i hn hi
      rw [hspec _ hn] at hi; cases hi
    · rw [hl]; simp [Consec]
    · rw [hl]; rfl
    · intro s hs; cases hs
    · intro _
      exact ⟨fun _ k h1 h2 => by simp only at h2; omega, fun r hr => by cases hr⟩
    · intro u hu; cases hu
  | some rf =>
    obtain ⟨r, f⟩ := rf
    rw [hfl] at hspec
    simp only at hspec ⊢
    obtain ⟨⟨n, hn, hni⟩, hmax⟩ := hspec
    obtain ⟨a, b, hd, h2⟩ := h.files.2 _ hn r hni
    cases f with
    | torn =>
      simp only [openData]
      refine ⟨⟨filesOk_mono h.files _ rfl, h.torn, ?_⟩, fun r st hh => by cases hh⟩
      obtain ⟨k, hk⟩ := h.consec
      exact ⟨k, by rw [traj_snoc]; exact hk⟩
    | whole t =>
      obtain ⟨q1, q2⟩ := h2 t rfl
      simp only [openData, q1, if_true]
      obtain ⟨⟨row, hrow⟩, hrows⟩ := id q2
      rw [q1] at hrow hrows
      refine ⟨⟨some r, ?_⟩, fun r' st hh => by cases hh; exact ⟨row, hrow⟩⟩
      obtain ⟨k, hk⟩ := h.consec
      have hrk := consec_mem hk hrow
      simp only at hrk
      have hl : traj (outs ++ [Out.resumed r t.state]) = (traj outs).filter (fun e => e.1 ≤ r) := by
        rw [traj_snoc]; rfl
      simp only at a
      refine ⟨⟨h.files.1, fun e he i hi => ?_⟩, ?_, by simp only; omega, ?_, ?_, ?_, ?_, ?_, ?_⟩
      · obtain ⟨a', b', ⟨st', row', h1'⟩, h2'⟩ := h.files.2 e he i hi
        refine ⟨a', b', ⟨st', row', List.mem_append_left _ h1'⟩, fun t2 ht2 => ?_⟩
        obtain ⟨q1', q2'⟩ := h2' t2 ht2
        refine ⟨q1', ?_⟩
        rw [hl]
        exact snapshot_cut q2' r (by rw [q1']; exact hmax e he i hi)
      · intro n' i hn' hi
        have h6 := h.torn n' i hn' hi _ hn r hni
        have h7 := hmax _ hn' i hi
        have h8 : i = r := by omega
        obtain ⟨a', -⟩ := h.files.2 _ hn' i hi
        simp only at a'
        rw [a', h8] at hn'
        rw [a] at hn
        have := h.files.1
        have h9 : ∀ (l : Dir σ μ), (l.map Prod.fst).Nodup → ∀ x y z, (x, y) ∈ l → (x, z) ∈ l → y = z := by
          intro l hl x y z hy hz
          induction l with
          | nil => cases hy
          | cons e l ih =>
            simp only [List.map_cons, List.nodup_cons] at hl
            rcases List.mem_cons.1 hy with hy | hy <;> rcases List.mem_cons.1 hz with hz | hz
            · rw [← hy] at hz; cases hz; rfl
            · exact absurd (List.mem_map_of_mem (f := Prod.fst) hz) (by rw [← hy] at hl; exact hl.1)
            · exact absurd (List.mem_map_of_mem (f := Prod.fst) hy) (by rw [← hz] at hl; exact hl.1)
            · exact ih hl.2 hy hz
        cases h9 d this _ _ _ hn' hn
      · rw [hl]
        exact consec_cut hk r hrk.1 hrk.2
      · show t.rows ++ [] = _
        rw [hl, List.append_nil]; exact hrows
      · exact ⟨⟨t, by rw [← a]; exact hn⟩, hmax⟩
      · intro s hs; cases hs
      · intro _
        refine ⟨fun hh => (by cases hh), fun r' hr' => ?_⟩
        cases hr'
        exact ⟨b, hrk.1, le_rfl, by simp only; omega⟩
      · intro u hu; cases hu

theorem iterate_inv {c : Cfg} (hB : 0 < c.block) {outs : List (Out σ μ)} {p : Proc σ μ} {nw : Option Nat}
    (h : UpInv c outs p nw) (i : Iter σ μ) :
    Inv c (outs ++ [(iterate c p i).2]) (iterate c p i).1 ∧
    (∀ r st, (iterate c p i).2 = .rolledBack r st → ∃ row, (r, st, row) ∈ traj outs) := by
  unfold iterate
  split
  next hlt =>
    cases i with
    | osFlush n =>
      refine ⟨⟨nw, up_same h _ rfl _ rfl rfl rfl rfl rfl ?_⟩, fun r st hh => by cases hh⟩
      simp [Mgr.osFlush]
    | outlier st =>
      exact ⟨⟨nw, up_same h _ rfl _ rfl rfl rfl rfl rfl rfl⟩, fun r st hh => by cases hh⟩
    | ok st row =>
      obtain ⟨m, nw', h1, h2⟩ := run_inv hB h st row
      simp only [h1]
      exact ⟨⟨nw', h2⟩, fun r st hh => by cases hh⟩
    | fail =>
      simp only
      split
      · exact ⟨exit_down h _ rfl rfl rfl _ rfl, fun r st hh => by cases hh⟩
      split
      · exact ⟨exit_down h _ rfl rfl rfl _ rfl, fun r st hh => by cases hh⟩
      have hr := rollback_inv hB h
      split
      next e he =>
        exact ⟨exit_down h p.mgr.flush rfl rfl rfl _ rfl, fun r st hh => by cases hh⟩
      next r st m he =>
        rw [he] at hr
        exact ⟨⟨nw, hr.2⟩, fun r' st' hh => by cases hh; exact hr.1⟩
  next =>
    exact ⟨exit_down h _ rfl rfl rfl _ rfl, fun r st hh => by cases hh⟩

theorem down_same {c : Cfg} {outs : List (Out σ μ)} {d : Dir σ μ} (h : DownInv c outs d)
    (o : Out σ μ) (ho : extend (traj outs) o = traj outs) : DownInv c (outs ++ [o]) d := by
  obtain ⟨k, hk⟩ := h.consec
  exact ⟨filesOk_mono h.files o ho, h.torn, ⟨k, by rw [traj_snoc, ho]; exact hk⟩⟩

theorem step_inv {c : Cfg} (hB : 0 < c.block) {outs : List (Out σ μ)} {s : Sys σ μ} (h : Inv c outs s)
    (e : Ev σ μ) :
    Inv c (outs ++ [(step c s e).2]) (step c s e).1 ∧
    (∀ r st, ((step c s e).2 = .rolledBack r st ∨ (step c s e).2 = .resumed r st) →
      ∃ row, (r, st, row) ∈ traj outs) := by
  cases s with
  | down d =>
    have hd : DownInv c outs d := h
    cases e with
    | start init =>
      obtain ⟨a, b⟩ := start_inv hB hd init
      refine ⟨a, fun r st hh => ?_⟩
      rcases hh with hh | hh
      · exfalso
        change (startProc c d init).2 = _ at hh
        unfold startProc at hh
        split at hh
        · cases hh
        · split at hh <;> cases hh
      · exact b r st hh
    | iter i => exact ⟨down_same hd _ rfl, fun r st hh => by rcases hh with hh | hh <;> cases hh⟩
    | kill => exact ⟨down_same hd _ rfl, fun r st hh => by rcases hh with hh | hh <;> cases hh⟩
    | killIn i k => exact ⟨down_same hd _ rfl, fun r st hh => by rcases hh with hh | hh <;> cases hh⟩
    | killExit k => exact ⟨down_same hd _ rfl, fun r st hh => by rcases hh with hh | hh <;> cases hh⟩
  | up p =>
    obtain ⟨nw, hu⟩ := h
    cases e with
    | start init =>
      exact ⟨⟨nw, up_same hu _ rfl _ rfl rfl rfl rfl rfl rfl⟩, fun r st hh => by rcases hh with hh | hh <;> cases hh⟩
    | iter i =>
      obtain ⟨a, b⟩ := iterate_inv hB hu i
      refine ⟨a, fun r st hh => ?_⟩
      rcases hh with hh | hh
      · exact b r st hh
      · exfalso
        change (iterate c p i).2 = _ at hh
        unfold iterate abort at hh
        split at hh
        · cases i with
          | ok st row => simp only at hh; split at hh <;> cases hh
          | outlier st => cases hh
          | osFlush n => cases hh
          | fail =>
            simp only at hh
            split at hh
            · cases hh
            split at hh
            · cases hh
            split at hh <;> cases hh
        · cases hh
    | kill => exact ⟨up_to_down hu _ rfl, fun r st hh => by rcases hh with hh | hh <;> cases hh⟩
    | killIn i k =>
      exact ⟨iterStages_down hB hu i k _ rfl, fun r st hh => by rcases hh with hh | hh <;> cases hh⟩
    | killExit k =>
      exact ⟨exitStages_down hu k _ rfl, fun r st hh => by rcases hh with hh | hh <;> cases hh⟩

theorem exec_snoc (c : Cfg) (d : Dir σ μ) (es : List (Ev σ μ)) (e : Ev σ μ) :
    exec c d (es ++ [e]) =
      ((step c (exec c d es).1 e).1, (exec c d es).2 ++ [(step c (exec c d es).1 e).2]) := by
  simp [exec, List.foldl_append]

theorem init_inv {c : Cfg} {d : Dir σ μ} (hd : NoData c.pre d) : Inv c [] (.down d : Sys σ μ) :=
  ⟨⟨hd.2, fun e he i hi => (by rw [hd.1 e he] at hi; cases hi)⟩,
    fun n i hn hi => (by rw [hd.1 _ hn] at hi; cases hi), ⟨0, by simp [Consec, traj]⟩⟩

theorem exec_inv {c : Cfg} (hB : 0 < c.block) {d : Dir σ μ} (hd : NoData c.pre d) (es : List (Ev σ μ)) :
    Inv c (exec c d es).2 (exec c d es).1 := by
  induction es using List.reverseRecOn with
  | nil => exact init_inv hd
  | append_singleton es e ih =>
    rw [exec_snoc]
    exact (step_inv hB ih e).1

theorem exec_length (c : Cfg) (d : Dir σ μ) (es : List (Ev σ μ)) : (exec c d es).2.length = es.length := by
  induction es using List.reverseRecOn with
  | nil => rfl
  | append_singleton es e ih => rw [exec_snoc]; simp [ih]

end Jaqmc.DmcData
