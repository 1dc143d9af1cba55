import Verif.Lemmas.RunLoopMore
/-! # The run loop: C07–C10, C51 -/
namespace Jaqmc.RunLoop.Props
open Jaqmc.RunLoop Jaqmc.RunLoop.Spec

variable {S K R : Type}

/-- The loop a launch runs, when it runs one. -/
theorem run_eq (cfg : Config) (st : Stage S K R) (env : Env) (s0 : S) (key : K)
    (cs : List (Nat × S)) (h : resume cs < cfg.iterations) :
    ∃ s k, (run cfg st env s0 key cs).effects
        = (loop cfg st env (cfg.iterations - resume cs) (resume cs) s k env.startTime).1 ∧
      (run cfg st env s0 key cs).outcome
        = (loop cfg st env (cfg.iterations - resume cs) (resume cs) s k env.startTime).2 ∧
      (run cfg st env s0 key cs).opened = some (resume cs) ∧
      (latest cs = none → (s, k) = st.burnIn s0 key) ∧
      (∀ c, latest cs = some c → (s, k) = (c.2, key)) := by
  unfold run
  unfold resume at h ⊢
  cases hl : latest cs with
  | none =>
    rw [hl] at h
    dsimp only at h ⊢
    rw [if_neg (by omega)]
    exact ⟨_, _, rfl, rfl, rfl, fun _ => rfl, by simp⟩
  | some c =>
    rw [hl] at h
    dsimp only at h ⊢
    rw [if_neg (by omega)]
    refine ⟨c.2, key, rfl, rfl, rfl, by simp, ?_⟩
    intro d hd; simp at hd; subst hd; rfl

/-- **C07** A process saves a checkpoint after a step `i` that neither produced NaN statistics nor
met a termination signal exactly when `i` is the last step, or the save interval divides `i + 1` and
more than the configured time has passed since the process's last save (or its start). -/
theorem c07_schedule (cfg : Config) (st : Stage S K R) (env : Env) (s0 : S) (key : K)
    (cs : List (Nat × S)) (hs : cfg.saveStep ≠ 0) (i : Nat) (r : R)
    (hrow : Effect.row i r ∈ (run cfg st env s0 key cs).effects)
    (hnan : st.hasNan r = false) (hsig : env.signal i = false) (L : Int)
    (hL : lastSaveBefore env.startTime env.clock
      (fun j => ∃ s, Effect.ckpt j s ∈ (run cfg st env s0 key cs).effects) i L) :
    (∃ s, Effect.ckpt i s ∈ (run cfg st env s0 key cs).effects) ↔
      i + 1 = cfg.iterations ∨ (cfg.saveStep ∣ i + 1 ∧ env.clock i - L > cfg.saveTime) := by
  rcases run_opened cfg st env s0 key cs with ⟨_, _, h3⟩ | ⟨h1, _, _⟩
  · rw [h3] at hrow; simp at hrow
  · obtain ⟨s, k, he, _⟩ := run_eq cfg st env s0 key cs h1
    rw [he] at hrow hL ⊢
    exact loop_schedule cfg st env hs _ _ s k _ i r hrow hnan hsig L hL

/-- C07: a process with a positive save interval that is not killed ends with a checkpoint of the
last step it executed; if it ended normally that is step `iterations - 1` and the checkpoint is the
state it returns. -/
theorem c07_ends_saved (cfg : Config) (st : Stage S K R) (env : Env) (s0 : S) (key : K)
    (cs : List (Nat × S)) (hs : cfg.saveStep ≠ 0) (h : resume cs < cfg.iterations) :
    ∃ pre i s, (run cfg st env s0 key cs).effects = pre ++ [.ckpt i s] ∧
      i + 1 = resume cs + (rowsOf (run cfg st env s0 key cs).effects).length ∧
      (∀ s', (run cfg st env s0 key cs).outcome = .done s' → i + 1 = cfg.iterations ∧ s = s') := by
  obtain ⟨s, k, he, ho, _⟩ := run_eq cfg st env s0 key cs h
  rw [he, ho]
  obtain ⟨pre, s', h1, h2, h3, h4, _⟩ := loop_last_saved cfg st env hs
    (cfg.iterations - resume cs) (resume cs) s k env.startTime (by omega) (by omega)
  refine ⟨pre, _, s', h1, by omega, ?_⟩
  intro s'' h''
  have := h4 s'' h''
  exact ⟨by omega, this.2.symm⟩

/-- C07: with a save interval of 0 the process dies after its first step without saving (unless
that step is aborted). -/
theorem c07_zero_interval (cfg : Config) (st : Stage S K R) (env : Env) (s0 : S) (key : K)
    (cs : List (Nat × S)) (hs : cfg.saveStep = 0) (h : resume cs < cfg.iterations)
    (hsig : ∀ i, env.signal i = false) (hnan : ∀ r, st.hasNan r = false) :
    ckptsOf (run cfg st env s0 key cs).effects = [] ∧
    (rowsOf (run cfg st env s0 key cs).effects).length = 1 ∧
    (run cfg st env s0 key cs).outcome = .zeroDiv := by
  obtain ⟨s, k, he, ho, _⟩ := run_eq cfg st env s0 key cs h
  rw [he, ho]
  obtain ⟨n, hn⟩ : ∃ n, cfg.iterations - resume cs = n + 1 := ⟨cfg.iterations - resume cs - 1, by omega⟩
  rw [hn, loop_succ cfg st env n _ s k _ _ _ rfl]
  simp [hnan, hsig, hs, ckptsOf, rowsOf]

/-! ### C08 -/

theorem history_graceful (cfg : Config) (st : Stage S K R) (s0 : S) (hs : cfg.saveStep ≠ 0)
    (ls : List (Launch K)) (hk : ∀ l ∈ ls, l.kill = none) (cs : List (Nat × S))
    (hcs : resume cs ≤ cfg.iterations) :
    ((history cfg st s0 cs ls).2.map Session.rows).flatten.map Prod.fst
      = List.range' (resume cs) (resume (history cfg st s0 cs ls).1 - resume cs) ∧
    resume cs ≤ resume (history cfg st s0 cs ls).1 ∧
    resume (history cfg st s0 cs ls).1 ≤ cfg.iterations ∧
    (resume (history cfg st s0 cs ls).1 = cfg.iterations ∨
      resume cs + ls.length ≤ resume (history cfg st s0 cs ls).1) := by
  induction ls generalizing cs with
  | nil => simp [history, hcs]
  | cons l ls ih =>
    have hkl : l.kill = none := hk l (by simp)
    simp only [history]
    rcases run_opened cfg st l.env s0 l.key cs with ⟨h1, h2, h3⟩ | ⟨h1, h2, h3⟩
    · have he : happened (run cfg st l.env s0 l.key cs) l.kill = [] := by
        unfold happened; rw [h3, hkl]
      rw [h2, he]
      simp only [ckptsOf, List.append_nil]
      have := ih (fun l hl => hk l (by simp [hl])) cs hcs
      refine ⟨this.1, this.2.1, this.2.2.1, .inl ?_⟩
      have := this.2.1; have := (ih (fun l hl => hk l (by simp [hl])) cs hcs).2.2.1; omega
    · have hh : happened (run cfg st l.env s0 l.key cs) l.kill
          = (run cfg st l.env s0 l.key cs).effects := by unfold happened; rw [hkl]
      rw [h2, hh]
      obtain ⟨pre, i, s, e1, e2, e3⟩ := c07_ends_saved cfg st l.env s0 l.key cs hs h1
      have hrows := chain_rows h3
      have hck := (chain_ckpts h3).2
      obtain ⟨s', k', he, ho, _⟩ := run_eq cfg st l.env s0 l.key cs h1
      obtain ⟨_, _, _, q2, q3, _⟩ := loop_last_saved cfg st l.env hs (cfg.iterations - resume cs)
        (resume cs) s' k' l.env.startTime (by omega) (by omega)
      rw [← he] at q2 q3
      -- the new resume point
      have hres : resume (cs ++ ckptsOf (run cfg st l.env s0 l.key cs).effects)
          = resume cs + (rowsOf (run cfg st l.env s0 l.key cs).effects).length := by
        apply Nat.le_antisymm
        · exact resume_append_le _ (by omega) (fun c hc => by have := hck c hc; omega)
        · have hm : (i, s) ∈ cs ++ ckptsOf (run cfg st l.env s0 l.key cs).effects := by
            rw [e1]; simp [ckptsOf]
          have := resume_gt _ hm
          dsimp only at this; omega
      have := ih (fun l hl => hk l (by simp [hl]))
        (cs ++ ckptsOf (run cfg st l.env s0 l.key cs).effects) (by omega)
      obtain ⟨t1, t2, t3, t4⟩ := this
      rw [hres] at t1 t2 t4
      refine ⟨?_, by dsimp only; omega, t3, ?_⟩
      · dsimp only
        simp only [List.map_cons, List.flatten_cons, List.map_append]
        rw [hrows, t1, List.range'_append_1]
        congr 1; omega
      · dsimp only
        rcases t4 with t4 | t4
        · left; exact t4
        · right; simp only [List.length_cons]; omega

/-- **C08** Let the program be launched any number of times on one directory, each launch ending by
itself: normally, by a termination signal at any step, or by a NaN abort.  Then the steps executed
over all launches, in order, are exactly `0, 1, …, m-1`, once each; the newest checkpoint is that of
step `m-1`, so that the next launch starts at `m`; and every launch advances until all iterations
are done. -/
theorem c08_interrupts (cfg : Config) (st : Stage S K R) (s0 : S) (hs : cfg.saveStep ≠ 0)
    (launches : List (Launch K)) (hk : ∀ l ∈ launches, l.kill = none) :
    let h := history cfg st s0 [] launches
    ∃ m, (h.2.map Session.rows).flatten.map Prod.fst = List.range m ∧ m ≤ cfg.iterations ∧
      (latest h.1).map Prod.fst = (if m = 0 then none else some (m - 1)) ∧
      (m = cfg.iterations ∨ launches.length ≤ m) := by
  intro h
  have := history_graceful cfg st s0 hs launches hk [] (by simp [resume, latest])
  refine ⟨resume h.1, ?_, this.2.2.1, ?_, ?_⟩
  · rw [this.1]; simp [resume, latest, List.range_eq_range', h]
  · unfold resume
    cases latest h.1 <;> simp
  · have := this.2.2.2
    simpa [resume, latest] using this

/-- C08 is not vacuous: three launches, the first two interrupted after one and two steps. -/
example :
    let st : Stage Nat Unit Nat := ⟨fun k => (k, k), fun s _ => (s, s + 1), fun s k => (s, k), fun _ => false⟩
    let env (i : Nat) : Env := ⟨0, fun _ => 0, fun j => decide (j = i)⟩
    history ⟨5, 600, 1⟩ st 0 [] [⟨env 0, (), none⟩, ⟨env 2, (), none⟩, ⟨env 9, (), none⟩]
      = ([(0, 1), (2, 3), (4, 5)], [⟨0, [(0, 0)]⟩, ⟨1, [(1, 1), (2, 2)]⟩, ⟨3, [(3, 3), (4, 4)]⟩]) := by
  intro st env
  decide

/-! ### C09 -/

theorem history_states (cfg : Config) (st : Stage S K R) (s0 : S) (f : S → S) (b : S)
    (hf : ∀ s k, (st.compute s k).2 = f s) (hb : ∀ k, (st.burnIn s0 k).1 = b)
    (ls : List (Launch K)) (cs : List (Nat × S))
    (hcs : ∀ c ∈ cs, c.2 = iterate f (c.1 + 1) b ∧ c.1 < cfg.iterations) :
    ∀ c ∈ (history cfg st s0 cs ls).1, c.2 = iterate f (c.1 + 1) b ∧ c.1 < cfg.iterations := by
  induction ls generalizing cs with
  | nil => exact hcs
  | cons l ls ih =>
    have key : ∀ c ∈ cs ++ ckptsOf (happened (run cfg st l.env s0 l.key cs) l.kill),
        c.2 = iterate f (c.1 + 1) b ∧ c.1 < cfg.iterations := by
      intro c hc
      rcases List.mem_append.1 hc with hc | hc
      · exact hcs c hc
      have hsub : c ∈ ckptsOf (run cfg st l.env s0 l.key cs).effects := by
        unfold happened at hc
        cases hkill : l.kill with
        | none => rw [hkill] at hc; exact hc
        | some n =>
          rw [hkill] at hc
          have : (run cfg st l.env s0 l.key cs).effects
            = (run cfg st l.env s0 l.key cs).effects.take n ++ (run cfg st l.env s0 l.key cs).effects.drop n := by simp
          rw [this, ckptsOf_append]
          exact List.mem_append_left _ hc
      rcases run_opened cfg st l.env s0 l.key cs with ⟨_, _, h3⟩ | ⟨h1, _, h3⟩
      · rw [h3] at hsub; simp [ckptsOf] at hsub
      · obtain ⟨s, k, he, ho, _, hn, hc'⟩ := run_eq cfg st l.env s0 l.key cs h1
        have hstate : s = iterate f (resume cs) b := by
          unfold resume
          cases hl : latest cs with
          | none => have := hn hl; dsimp only; show s = b; rw [← hb l.key, ← this]
          | some d =>
            have := hc' d hl
            have hd := (hcs d (latest_mem hl)).1
            dsimp only; rw [← hd]; exact congrArg Prod.fst this
        have := (loop_states cfg st l.env f hf b (cfg.iterations - resume cs) (resume cs) s k
          l.env.startTime hstate).1 c (by rw [← he]; exact hsub)
        refine ⟨this, ?_⟩
        have hlen := loop_rows_le cfg st l.env (cfg.iterations - resume cs) (resume cs) s k l.env.startTime
        have := (chain_ckpts h3).2 c hsub
        rw [he] at this
        omega
    simp only [history]
    cases (run cfg st l.env s0 l.key cs).opened <;> exact ih _ key

/-- **C09** Suppose a step and the burn-in depend on the state only.  After *any* history of
launches on one directory (killed at any point, interrupted, aborted), every completed checkpoint
holds the state an uninterrupted run has after that step, and a further launch that runs to its end
returns the final state of the uninterrupted run. -/
theorem c09_replay (cfg : Config) (st : Stage S K R) (s0 : S) (f : S → S) (b : S)
    (hf : ∀ s k, (st.compute s k).2 = f s) (hb : ∀ k, (st.burnIn s0 k).1 = b)
    (hpos : 0 < cfg.iterations) (launches : List (Launch K)) (env : Env) (key : K) :
    let cs := (history cfg st s0 [] launches).1
    (∀ c ∈ cs, c.2 = iterate f (c.1 + 1) b) ∧
    (∀ s, (run cfg st env s0 key cs).outcome = .done s → s = iterate f cfg.iterations b) := by
  intro cs
  have hcs := history_states cfg st s0 f b hf hb launches [] (by simp)
  refine ⟨fun c hc => (hcs c hc).1, ?_⟩
  intro s hdone
  by_cases h : resume cs < cfg.iterations
  · obtain ⟨s1, k, he, ho, _, hn, hc'⟩ := run_eq cfg st env s0 key cs h
    have hstate : s1 = iterate f (resume cs) b := by
      unfold resume
      cases hl : latest cs with
      | none => have := hn hl; dsimp only; show s1 = b; rw [← hb key, ← this]
      | some d =>
        have := hc' d hl
        have hd := (hcs d (latest_mem hl)).1
        dsimp only; rw [← hd]; exact congrArg Prod.fst this
    rw [ho] at hdone
    have := (loop_states cfg st env f hf b _ (resume cs) s1 k env.startTime hstate).2 s hdone
    rw [this]; congr 1; omega
  · unfold resume at h
    cases hl : latest cs with
    | none => rw [hl] at h; dsimp only at h; omega
    | some d =>
      rw [hl] at h; dsimp only at h
      have hd := hcs d (latest_mem hl)
      unfold run at hdone
      rw [hl] at hdone
      dsimp only at hdone
      rw [if_pos (by omega)] at hdone
      simp at hdone
      rw [← hdone, hd.1]; congr 1; omega

/-- C09: a launch that meets neither a signal nor NaN does run to its end. -/
theorem c09_finishes (cfg : Config) (st : Stage S K R) (s0 : S) (hs : cfg.saveStep ≠ 0)
    (env : Env) (key : K) (cs : List (Nat × S))
    (hsig : ∀ i, env.signal i = false) (hnan : ∀ r, st.hasNan r = false) :
    ∃ s, (run cfg st env s0 key cs).outcome = .done s := by
  by_cases h : resume cs < cfg.iterations
  · obtain ⟨s1, k, he, ho, _⟩ := run_eq cfg st env s0 key cs h
    rw [ho]; exact loop_done cfg st env hs hsig hnan _ _ _ _ _
  · unfold resume at h
    unfold run
    cases hl : latest cs with
    | none => rw [hl] at h; dsimp only at h ⊢; rw [if_pos (by omega)]; exact ⟨_, rfl⟩
    | some d => rw [hl] at h; dsimp only at h ⊢; rw [if_pos (by omega)]; exact ⟨_, rfl⟩

/-- C09: a killed launch loses only the rows after its last completed checkpoint: the next launch
opens its writers at the step after that checkpoint. -/
theorem c09_resume_point (cfg : Config) (st : Stage S K R) (s0 : S) (env : Env) (key : K)
    (cs : List (Nat × S)) (i : Nat) (s : S) (hmax : ∀ c ∈ cs, c.1 ≤ i) (hlast : i + 1 < cfg.iterations) :
    (run cfg st env s0 key (cs ++ [(i, s)])).opened = some (i + 1) := by
  have hl := latest_snoc cs (i, s) hmax
  have hr : resume (cs ++ [(i, s)]) = i + 1 := by unfold resume; rw [hl]
  obtain ⟨_, _, _, _, ho, _⟩ := run_eq cfg st env s0 key (cs ++ [(i, s)]) (by omega)
  rw [ho, hr]

/-- The hypotheses of C09 are met: a counter, killed after 4 disk effects and then restarted. -/
example :
    let st : Stage Nat Unit Nat := ⟨fun k => (k, k), fun s _ => (s, s + 1), fun s k => (s, k), fun _ => false⟩
    let env : Env := ⟨0, fun i => 1000 * i, fun _ => false⟩
    (history ⟨5, 600, 2⟩ st 0 [] [⟨env, (), some 4⟩]).1 = [(1, 2)] ∧
    (run ⟨5, 600, 2⟩ st env 0 () [(1, 2)]).opened = some 2 ∧
    iterate (fun s => s + 1) 5 0 = 5 := by
  decide

/-! ### C10 -/

/-- C10 fails: when a step's statistics contain NaN, the process stops and saves the state that step
produced, and that checkpoint becomes the newest one, from which the next launch resumes. -/
theorem c10_poisoned (cfg : Config) (st : Stage S K R) (env : Env) (s0 : S) (key : K)
    (cs : List (Nat × S)) (i : Nat) (r : R)
    (hrow : Effect.row i r ∈ (run cfg st env s0 key cs).effects) (hnan : st.hasNan r = true) :
    ∃ s k, (st.compute s k).1 = r ∧
      latest (cs ++ ckptsOf (run cfg st env s0 key cs).effects) = some (i, (st.compute s k).2) ∧
      (run cfg st env s0 key cs).outcome = .abort := by
  rcases run_opened cfg st env s0 key cs with ⟨_, _, h3⟩ | ⟨h1, _, hch⟩
  · rw [h3] at hrow; simp at hrow
  obtain ⟨s1, k1, he, ho, _⟩ := run_eq cfg st env s0 key cs h1
  rw [he] at hrow
  obtain ⟨pre, s, k, e1, e2, e3⟩ := loop_nan cfg st env _ _ _ _ _ i r hrow hnan
  refine ⟨s, k, by rw [e1], ?_, by rw [ho, e3]⟩
  rw [he, e2]
  rw [he, e2] at hch
  simp only [ckptsOf_append, ckptsOf]
  rw [← List.append_assoc]
  apply latest_snoc
  have hck := chain_ckpts hch
  intro d hd
  have hi : resume cs ≤ i := by
    have := hck.2 (i, (st.compute s k).2) (by simp [ckptsOf])
    exact this.1
  rcases List.mem_append.1 hd with hd | hd
  · have := resume_gt d hd; dsimp only; omega
  · have hp := hck.1
    simp only [ckptsOf_append, ckptsOf, List.map_append, List.map_cons, List.map_nil] at hp
    have := (List.pairwise_append.1 hp).2.2 d.1 (List.mem_map_of_mem hd) i (by simp)
    dsimp only; omega

/-- C10 fails for good: if a poisoned state stays poisoned (NaN parameters give NaN statistics),
every later launch on this directory, however often it is repeated, stops at its first step. -/
theorem c10_stuck (cfg : Config) (st : Stage S K R) (bad : S → Prop)
    (hbad : ∀ s k, bad s → st.hasNan (st.compute s k).1 = true ∧ bad (st.compute s k).2)
    (s0 : S) (launches : List (Launch K)) (cs : List (Nat × S)) (c : Nat × S)
    (hc : latest cs = some c) (hb : bad c.2) (hk : ∀ l ∈ launches, l.kill = none) :
    ∀ sess ∈ (history cfg st s0 cs launches).2, ∃ i r, sess.rows = [(i, r)] ∧ st.hasNan r = true := by
  induction launches generalizing cs c with
  | nil => simp [history]
  | cons l ls ih =>
    have hkl : l.kill = none := hk l (by simp)
    have hk' : ∀ l ∈ ls, l.kill = none := fun l hl => hk l (by simp [hl])
    simp only [history]
    rcases run_opened cfg st l.env s0 l.key cs with ⟨h1, h2, h3⟩ | ⟨h1, h2, h3⟩
    · have he : happened (run cfg st l.env s0 l.key cs) l.kill = [] := by
        unfold happened; rw [h3, hkl]
      rw [h2, he]
      simp only [ckptsOf, List.append_nil]
      exact ih cs c hc hb hk'
    · have hh : happened (run cfg st l.env s0 l.key cs) l.kill
          = (run cfg st l.env s0 l.key cs).effects := by unfold happened; rw [hkl]
      rw [h2, hh]
      obtain ⟨s, k, he, ho, _, _, hs⟩ := run_eq cfg st l.env s0 l.key cs h1
      have hs' := hs c hc
      obtain ⟨n, hn⟩ : ∃ n, cfg.iterations - resume cs = n + 1 :=
        ⟨cfg.iterations - resume cs - 1, by omega⟩
      have hbs : bad s := by
        have : s = c.2 := congrArg Prod.fst hs'
        rw [this]; exact hb
      obtain ⟨hn1, hn2⟩ := hbad s (st.split k).2 hbs
      have heff : (run cfg st l.env s0 l.key cs).effects
          = [.row (resume cs) (st.compute s (st.split k).2).1,
             .ckpt (resume cs) (st.compute s (st.split k).2).2] := by
        rw [he, hn, loop_succ cfg st l.env n _ s k _ _ _ rfl, if_pos hn1]
      rw [heff]
      simp only [ckptsOf, rowsOf]
      intro sess hsess
      rcases List.mem_cons.1 hsess with rfl | hsess
      · exact ⟨_, _, rfl, hn1⟩
      · refine ih _ (resume cs, (st.compute s (st.split k).2).2) ?_ hn2 hk' sess hsess
        apply latest_snoc
        intro d hd; have := resume_gt d hd; dsimp only; omega

/-- The situation of `c10_stuck` is reachable: a training that reaches NaN at its third step. -/
example :
    let st : Stage (Option Nat) Unit (Option Nat) :=
      ⟨fun k => (k, k), fun s _ => (s.bind (fun n => if n < 2 then some n else none),
        s.bind (fun n => if n < 2 then some (n + 1) else none)), fun s k => (s, k), Option.isNone⟩
    let env : Env := ⟨0, fun i => 1000 * i, fun _ => false⟩
    (∀ s k, s = none → st.hasNan (st.compute s k).1 = true ∧ (st.compute s k).2 = none) ∧
    history ⟨9, 600, 1⟩ st (some 0) [] [⟨env, (), none⟩, ⟨env, (), none⟩, ⟨env, (), none⟩]
      = ([(1, some 2), (2, none), (3, none), (4, none)],
         [⟨0, [(0, some 0), (1, some 1), (2, none)]⟩, ⟨3, [(3, none)]⟩, ⟨4, [(4, none)]⟩]) := by
  refine ⟨?_, by decide⟩
  intro s k h
  subst h
  exact ⟨rfl, rfl⟩

/-- C10, the part that holds: a NaN abort removes nothing: the checkpoints already in the directory
are still there, followed by the checkpoints of this process, of which only the very last one can
come from a step with NaN statistics. -/
theorem c10_older_kept_partial (cfg : Config) (st : Stage S K R) (env : Env) (s0 : S) (key : K)
    (cs : List (Nat × S)) (a : List (Effect S R)) (i : Nat) (s : S) (c : List (Effect S R))
    (h : (run cfg st env s0 key cs).effects = a ++ .ckpt i s :: c) (hc : c ≠ []) :
    ∃ r, Effect.row i r ∈ a ∧ st.hasNan r = false := by
  rcases run_opened cfg st env s0 key cs with ⟨_, _, h3⟩ | ⟨h1, _, hch⟩
  · rw [h3] at h; simp at h
  rw [h] at hch
  have : ∀ (es : List (Effect S R)) (m : Nat), Chain m es → ∀ a c, es = a ++ .ckpt i s :: c →
      ∃ r, Effect.row i r ∈ a := by
    intro es m hch
    induction hch with
    | nil => intro a c he; simp at he
    | row m r es _ ih =>
      intro a c he
      cases a with
      | nil => simp at he
      | cons x a =>
        simp at he
        obtain ⟨r', hr'⟩ := ih a c he.2
        exact ⟨r', by simp [hr']⟩
    | save m r x es _ ih =>
      intro a c he
      cases a with
      | nil => simp at he
      | cons y a =>
        simp at he
        cases a with
        | nil =>
          simp at he
          exact ⟨r, by simp [← he.1, he.2.1]⟩
        | cons z a =>
          simp at he
          obtain ⟨r', hr'⟩ := ih a c he.2.2
          exact ⟨r', by simp [hr']⟩
  obtain ⟨r, hr⟩ := this _ _ hch a c rfl
  refine ⟨r, hr, ?_⟩
  cases hn : st.hasNan r with
  | false => rfl
  | true =>
    exfalso
    obtain ⟨s1, k1, he, _⟩ := run_eq cfg st env s0 key cs h1
    have hrow : Effect.row i r ∈ (run cfg st env s0 key cs).effects := by
      rw [h]; exact List.mem_append_left _ hr
    rw [he] at hrow
    obtain ⟨pre, s', k', _, e2, _⟩ := loop_nan cfg st env _ _ _ _ _ i r hrow hn
    rw [← he, h] at e2
    -- two rows or checkpoints of step i: positions must agree
    have hp := (chain_ckpts hch).1
    obtain ⟨c', x, hx⟩ : ∃ c' x, c = c' ++ [x] := ⟨c.dropLast, c.getLast hc, (List.dropLast_concat_getLast hc).symm⟩
    have e3 : (a ++ Effect.ckpt i s :: c') ++ [x]
        = (pre ++ [Effect.row i r]) ++ [Effect.ckpt i (st.compute s' k').2] := by
      rw [hx] at e2; simpa using e2
    have := (List.append_inj_right' e3 rfl)
    simp at this
    rw [hx, this] at hp
    simp only [ckptsOf_append, ckptsOf, List.map_append, List.map_cons, List.map_nil] at hp
    have := (List.pairwise_append.1 hp).2.1
    rw [List.pairwise_cons] at this
    have := this.1 i (by simp)
    omega

/-! ### C51 -/

/-- C51 fails: the random keys of a resumed process are not a continuation of the interrupted one.
With a fixed seed and no burn-in, a process that resumes at *any* step uses for its `j`-th step the
very key the first process used for step `j`. -/
theorem c51_keys_reused (cfg : Config) (split : K → K × K) (hs : cfg.saveStep ≠ 0)
    (env env' : Env) (hsig : ∀ i, env.signal i = false) (hsig' : ∀ i, env'.signal i = false)
    (s0 : S) (key : K) (cs : List (Nat × S)) (h : resume cs < cfg.iterations) :
    let st : Stage S K K := ⟨split, fun s k => (k, s), fun s k => (s, k), fun _ => false⟩
    (rowsOf (run cfg st env' s0 key cs).effects).map Prod.snd
      = ((rowsOf (run cfg st env s0 key []).effects).map Prod.snd).take (cfg.iterations - resume cs) := by
  intro st
  obtain ⟨s, k, he, _, _, hn, hc⟩ := run_eq cfg st env' s0 key cs h
  obtain ⟨s', k', he', _, _, hn', _⟩ := run_eq cfg st env s0 key [] (by simp [resume, latest]; omega)
  have hk' : k' = key := by
    have := hn' (by simp [latest]); exact congrArg Prod.snd this
  have hk : k = key := by
    cases hl : latest cs with
    | none => have := hn hl; exact congrArg Prod.snd this
    | some d => have := hc d hl; exact congrArg Prod.snd this
  rw [he, he', hk, hk']
  exact loop_keys cfg split _ env env' hs hsig hsig' _ _ _ _ s' s key _ _ (by simp [resume, latest])

end Jaqmc.RunLoop.Props
