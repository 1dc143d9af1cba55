import Verif.Lemmas.RunLoop
namespace Jaqmc.RunLoop
open Spec

variable {S K R : Type}

theorem loop_succ (cfg : Config) (st : Stage S K R) (env : Env) (n step : Nat) (s : S) (k : K)
    (ls : Int) (r : R) (s1 : S) (h : st.compute s (st.split k).2 = (r, s1)) :
    loop cfg st env (n + 1) step s k ls =
      if st.hasNan r then ([.row step r, .ckpt step s1], .abort)
      else if env.signal step then ([.row step r, .ckpt step s1], .abort)
      else if cfg.saveStep = 0 then ([.row step r], .zeroDiv)
      else if (decide (step + 1 = cfg.iterations) ||
        (decide (env.clock step - ls > cfg.saveTime) && decide ((step + 1) % cfg.saveStep = 0))) then
        (.row step r :: .ckpt step s1 ::
          (loop cfg st env n (step + 1) s1 (st.split k).1 (env.clock step)).1,
          (loop cfg st env n (step + 1) s1 (st.split k).1 (env.clock step)).2)
      else
        (.row step r :: (loop cfg st env n (step + 1) s1 (st.split k).1 ls).1,
          (loop cfg st env n (step + 1) s1 (st.split k).1 ls).2) := by
  have h1 : (st.compute s (st.split k).2).1 = r := by rw [h]
  have h2 : (st.compute s (st.split k).2).2 = s1 := by rw [h]
  subst h1; subst h2
  rfl

/-- With a positive save interval, a process that is not killed ends with a checkpoint of the last
step it executed; a normal end means all steps were executed. -/
theorem loop_last_saved (cfg : Config) (st : Stage S K R) (env : Env) (hs : cfg.saveStep ≠ 0)
    (n step : Nat) (s : S) (k : K) (ls : Int) (hn : step + n = cfg.iterations) (hpos : 0 < n) :
    ∃ pre s', (loop cfg st env n step s k ls).1
        = pre ++ [.ckpt (step + (rowsOf (loop cfg st env n step s k ls).1).length - 1) s'] ∧
      0 < (rowsOf (loop cfg st env n step s k ls).1).length ∧
      (rowsOf (loop cfg st env n step s k ls).1).length ≤ n ∧
      (∀ s'', (loop cfg st env n step s k ls).2 = .done s'' →
        (rowsOf (loop cfg st env n step s k ls).1).length = n ∧ s'' = s') ∧
      ((loop cfg st env n step s k ls).2 ≠ .zeroDiv) := by
  induction n generalizing step s k ls with
  | zero => omega
  | succ n ih =>
    obtain ⟨r, s1, hq⟩ : ∃ r s1, st.compute s (st.split k).2 = (r, s1) := ⟨_, _, rfl⟩
    simp only [loop_succ cfg st env n step s k ls r s1 hq, if_neg hs]
    by_cases c1 : st.hasNan r = true
    · simp only [if_pos c1]
      exact ⟨[.row step r], s1, by simp [rowsOf], by simp [rowsOf], by simp [rowsOf], by simp, by simp⟩
    by_cases c2 : env.signal step = true
    · simp only [if_neg c1, if_pos c2]
      exact ⟨[.row step r], s1, by simp [rowsOf], by simp [rowsOf], by simp [rowsOf], by simp, by simp⟩
    simp only [if_neg c1, if_neg c2]
    by_cases c3 : (decide (step + 1 = cfg.iterations) ||
        (decide (env.clock step - ls > cfg.saveTime) && decide ((step + 1) % cfg.saveStep = 0))) = true
    · simp only [if_pos c3]
      cases n with
      | zero =>
        refine ⟨[.row step r], s1, by simp [rowsOf, loop], by simp [rowsOf, loop],
          by simp [rowsOf, loop], ?_, by simp [loop]⟩
        intro s'' h; simp [loop] at h; simp [rowsOf, loop, h]
      | succ n =>
        obtain ⟨pre, s', h1, h2, h3, h4, h5⟩ := ih (step + 1) s1 (st.split k).1 (env.clock step)
          (by omega) (by omega)
        generalize loop cfg st env (n + 1) (step + 1) s1 (st.split k).1 (env.clock step) = q at *
        obtain ⟨es, o⟩ := q
        dsimp only at *
        refine ⟨.row step r :: .ckpt step s1 :: pre, s', ?_, ?_, ?_, ?_, h5⟩
        · have e : step + (rowsOf (Effect.row step r :: Effect.ckpt step s1 :: es)).length - 1
              = step + 1 + (rowsOf es).length - 1 := by simp only [rowsOf, List.length_cons]; omega
          rw [e, List.cons_append, List.cons_append, ← h1]
        · simp [rowsOf]
        · simp [rowsOf]; omega
        · intro s'' h; have := h4 s'' h; simp [rowsOf, this]
    · simp only [if_neg c3]
      cases n with
      | zero => exfalso; simp at c3; omega
      | succ n =>
        obtain ⟨pre, s', h1, h2, h3, h4, h5⟩ := ih (step + 1) s1 (st.split k).1 ls
          (by omega) (by omega)
        generalize loop cfg st env (n + 1) (step + 1) s1 (st.split k).1 ls = q at *
        obtain ⟨es, o⟩ := q
        dsimp only at *
        refine ⟨.row step r :: pre, s', ?_, ?_, ?_, ?_, h5⟩
        · have e : step + (rowsOf (Effect.row step r :: es)).length - 1
              = step + 1 + (rowsOf es).length - 1 := by simp only [rowsOf, List.length_cons]; omega
          rw [e, List.cons_append, ← h1]
        · simp [rowsOf]
        · simp [rowsOf]; omega
        · intro s'' h; have := h4 s'' h; simp [rowsOf, this]

theorem loop_rows_le (cfg : Config) (st : Stage S K R) (env : Env)
    (n step : Nat) (s : S) (k : K) (ls : Int) :
    (rowsOf (loop cfg st env n step s k ls).1).length ≤ n := by
  induction n generalizing step s k ls with
  | zero => simp [loop, rowsOf]
  | succ n ih =>
    rw [loop_succ cfg st env n step s k ls _ _ rfl]
    split
    · simp [rowsOf]
    split
    · simp [rowsOf]
    split
    · simp [rowsOf]
    split <;> simp [rowsOf, ih]

/-- Without signal and NaN a process with a positive save interval ends normally. -/
theorem loop_done (cfg : Config) (st : Stage S K R) (env : Env) (hs : cfg.saveStep ≠ 0)
    (hsig : ∀ i, env.signal i = false) (hnan : ∀ r, st.hasNan r = false)
    (n step : Nat) (s : S) (k : K) (ls : Int) :
    ∃ s', (loop cfg st env n step s k ls).2 = .done s' := by
  induction n generalizing step s k ls with
  | zero => exact ⟨s, rfl⟩
  | succ n ih =>
    simp only [loop, hnan, hsig, Bool.false_eq_true, if_false, if_neg hs]
    split
    · exact ih _ _ _ _
    · exact ih _ _ _ _

/-- State reached when steps do not depend on the random key. -/
theorem loop_states (cfg : Config) (st : Stage S K R) (env : Env) (f : S → S)
    (hf : ∀ s k, (st.compute s k).2 = f s) (b : S)
    (n step : Nat) (s : S) (k : K) (ls : Int) (hb : s = iterate f step b) :
    (∀ c ∈ ckptsOf (loop cfg st env n step s k ls).1, c.2 = iterate f (c.1 + 1) b) ∧
    (∀ s', (loop cfg st env n step s k ls).2 = .done s' → s' = iterate f (step + n) b) := by
  have iter_succ : ∀ m x, iterate f (m + 1) x = f (iterate f m x) := by
    intro m
    induction m with
    | zero => intro x; rfl
    | succ m ih => intro x; exact ih (f x)
  induction n generalizing step s k ls with
  | zero =>
    refine ⟨by simp [loop, ckptsOf], ?_⟩
    intro s' h; simp [loop] at h; rw [← h, hb]; rfl
  | succ n ih =>
    have hs' : (st.compute s (st.split k).2).2 = iterate f (step + 1) b := by
      rw [hf, hb, iter_succ]
    have e : step + (n + 1) = step + 1 + n := by omega
    simp only [loop, e]
    split
    · simp [ckptsOf, hs']
    split
    · simp [ckptsOf, hs']
    split
    · simp [ckptsOf]
    split
    · have := ih (step + 1) _ (st.split k).1 (env.clock step) hs'
      refine ⟨?_, this.2⟩
      intro c hc
      simp only [ckptsOf, List.mem_cons] at hc
      rcases hc with rfl | hc
      · exact hs'
      · exact this.1 c hc
    · have := ih (step + 1) _ (st.split k).1 ls hs'
      exact ⟨fun c hc => this.1 c (by simpa [ckptsOf] using hc), this.2⟩

/-- Rows when each step reports its random key and leaves the state alone. -/
theorem loop_keys (cfg : Config) (split : K → K × K) (burn : S → K → S × K)
    (env env' : Env) (hs : cfg.saveStep ≠ 0) (hsig : ∀ i, env.signal i = false)
    (hsig' : ∀ i, env'.signal i = false)
    (n m step step' : Nat) (s s' : S) (k : K) (ls ls' : Int) (hm : m ≤ n) :
    (rowsOf (loop cfg ⟨split, fun s k => (k, s), burn, fun _ => false⟩ env' m step' s' k ls').1).map Prod.snd
      = ((rowsOf (loop cfg ⟨split, fun s k => (k, s), burn, fun _ => false⟩ env n step s k ls).1).map
          Prod.snd).take m := by
  induction n generalizing m step step' s s' k ls ls' with
  | zero =>
    have : m = 0 := by omega
    subst this; simp [loop, rowsOf]
  | succ n ih =>
    cases m with
    | zero => simp [loop, rowsOf]
    | succ m =>
      have ih' := fun a b c d e g h => ih m a b c d e g h (by omega)
      simp only [loop, hsig, hsig', Bool.false_eq_true, if_false, if_neg hs]
      split <;> split <;> simp [rowsOf, ih' (step + 1) (step' + 1) s s' (split k).1 _ _] <;>
        first
        | exact ih' ..
        | skip

theorem loop_schedule (cfg : Config) (st : Stage S K R) (env : Env) (hs : cfg.saveStep ≠ 0)
    (n step : Nat) (s : S) (k : K) (ls : Int) (i : Nat) (r : R)
    (hr : Effect.row i r ∈ (loop cfg st env n step s k ls).1) (hnan : st.hasNan r = false)
    (hsig : env.signal i = false) (L : Int)
    (hL : lastSaveBefore ls env.clock
      (fun j => ∃ s', Effect.ckpt j s' ∈ (loop cfg st env n step s k ls).1) i L) :
    (∃ s', Effect.ckpt i s' ∈ (loop cfg st env n step s k ls).1) ↔
      (i + 1 = cfg.iterations ∨ (cfg.saveStep ∣ i + 1 ∧ env.clock i - L > cfg.saveTime)) := by
  induction n generalizing step s k ls with
  | zero => simp [loop] at hr
  | succ n ih =>
    -- every effect of the rest of the loop concerns a later step
    have later : ∀ (s1 : S) (k1 : K) (l1 : Int),
        (∀ j s', Effect.ckpt j s' ∈ (loop cfg st env n (step + 1) s1 k1 l1).1 → step + 1 ≤ j) ∧
        (∀ j r', Effect.row j r' ∈ (loop cfg st env n (step + 1) s1 k1 l1).1 → step + 1 ≤ j) := by
      intro s1 k1 l1
      have hc := loop_chain cfg st env n (step + 1) s1 k1 l1
      have : ∀ (m : Nat) (es : List (Effect S R)), Chain m es →
          (∀ j s', Effect.ckpt j s' ∈ es → m ≤ j) ∧ (∀ j r', Effect.row j r' ∈ es → m ≤ j) := by
        intro m es h
        induction h with
        | nil => simp
        | row m r es _ ih =>
          refine ⟨fun j s' h => ?_, fun j r' h => ?_⟩
          · simp at h; have := ih.1 j s' h; omega
          · simp at h
            rcases h with ⟨rfl, _⟩ | h
            · omega
            · have := ih.2 j r' h; omega
        | save m r x es _ ih =>
          refine ⟨fun j s' h => ?_, fun j r' h => ?_⟩
          · simp at h
            rcases h with ⟨rfl, _⟩ | h
            · omega
            · have := ih.1 j s' h; omega
          · simp at h
            rcases h with ⟨rfl, _⟩ | h
            · omega
            · have := ih.2 j r' h; omega
      exact this _ _ hc
    simp only [loop] at hr hL ⊢
    by_cases hn' : st.hasNan (st.compute s (st.split k).2).1 = true
    · simp only [hn', if_true] at hr
      simp at hr
      rw [hr.2, hn'] at hnan; exact absurd hnan (by simp)
    · by_cases hsg : env.signal step = true
      · simp only [hn', hsg, if_true] at hr
        simp at hr
        rw [hr.1, hsg] at hsig; exact absurd hsig (by simp)
      · simp only [hn', hsg, hs, if_false, Bool.false_eq_true] at hr hL ⊢
        by_cases hcond : (decide (step + 1 = cfg.iterations) ||
            (decide (env.clock step - ls > cfg.saveTime) &&
             decide ((step + 1) % cfg.saveStep = 0))) = true
        · simp only [hcond, if_true] at hr hL ⊢
          have lt := later (st.compute s (st.split k).2).2 (st.split k).1 (env.clock step)
          by_cases hi : i = step
          · subst hi
            constructor
            · intro _
              have hLs : L = ls := by
                rcases hL with ⟨j, hj, ⟨s', hs'⟩, _, _⟩ | ⟨_, h⟩
                · simp at hs'
                  rcases hs' with ⟨rfl, _⟩ | hs'
                  · omega
                  · have := lt.1 j s' hs'; omega
                · exact h
              rw [hLs]
              simp only [Bool.or_eq_true, Bool.and_eq_true, decide_eq_true_eq] at hcond
              rcases hcond with h | ⟨h1, h2⟩
              · left; exact h
              · right; exact ⟨Nat.dvd_of_mod_eq_zero h2, h1⟩
            · intro _; exact ⟨_, by simp; left; rfl⟩
          · have hr' : Effect.row i r ∈ (loop cfg st env n (step + 1)
                (st.compute s (st.split k).2).2 (st.split k).1 (env.clock step)).1 := by
              simp at hr
              rcases hr with ⟨h, _⟩ | hr
              · exact absurd h hi
              · exact hr
            have hgt := lt.2 i r hr'
            have := ih (step + 1) (st.compute s (st.split k).2).2 (st.split k).1 (env.clock step) hr' ?_
            · rw [← this]
              constructor
              · rintro ⟨s', h⟩
                simp at h
                rcases h with ⟨h, _⟩ | h
                · exact absurd h hi
                · exact ⟨s', h⟩
              · rintro ⟨s', h⟩; exact ⟨s', by simp [h]⟩
            · rcases hL with ⟨j, hj, ⟨s', hs'⟩, hLj, hmax⟩ | ⟨hno, _⟩
              · simp at hs'
                rcases hs' with ⟨rfl, _⟩ | hs'
                · right
                  refine ⟨?_, hLj⟩
                  rintro j' ⟨s'', h''⟩ hlt
                  have h1 := lt.1 j' s'' h''
                  have := hmax j' ⟨s'', by simp [h'']⟩ hlt
                  omega
                · left
                  refine ⟨j, hj, ⟨s', hs'⟩, hLj, ?_⟩
                  rintro j' ⟨s'', h''⟩ hlt
                  exact hmax j' ⟨s'', by simp [h'']⟩ hlt
              · exact absurd (show step < i by omega) (hno step ⟨_, by simp; left; rfl⟩)
        · simp only [hcond, if_false] at hr hL ⊢
          have lt := later (st.compute s (st.split k).2).2 (st.split k).1 ls
          by_cases hi : i = step
          · subst hi
            constructor
            · rintro ⟨s', h⟩
              simp at h
              have := lt.1 _ s' h; omega
            · intro h
              exfalso
              apply hcond
              have hLs : L = ls := by
                rcases hL with ⟨j, hj, ⟨s', hs'⟩, _, _⟩ | ⟨_, h⟩
                · simp at hs'
                  have := lt.1 j s' hs'; omega
                · exact h
              rw [hLs] at h
              simp only [Bool.or_eq_true, Bool.and_eq_true, decide_eq_true_eq]
              rcases h with h | ⟨h1, h2⟩
              · left; exact h
              · right; exact ⟨h2, Nat.mod_eq_zero_of_dvd h1⟩
          · have hr' : Effect.row i r ∈ (loop cfg st env n (step + 1)
                (st.compute s (st.split k).2).2 (st.split k).1 ls).1 := by
              simp at hr
              rcases hr with ⟨h, _⟩ | hr
              · exact absurd h hi
              · exact hr
            have := ih (step + 1) (st.compute s (st.split k).2).2 (st.split k).1 ls hr' ?_
            · rw [← this]
              constructor
              · rintro ⟨s', h⟩; simp at h; exact ⟨s', h⟩
              · rintro ⟨s', h⟩; exact ⟨s', by simp [h]⟩
            · rcases hL with ⟨j, hj, ⟨s', hs'⟩, hLj, hmax⟩ | ⟨hno, hl⟩
              · left
                simp at hs'
                refine ⟨j, hj, ⟨s', hs'⟩, hLj, ?_⟩
                rintro j' ⟨s'', h''⟩ hlt
                exact hmax j' ⟨s'', by simp [h'']⟩ hlt
              · right
                refine ⟨?_, hl⟩
                rintro j' ⟨s'', h''⟩ hlt
                exact hno j' ⟨s'', by simp [h'']⟩ hlt

/-- After a NaN in the statistics of step `i` the process stops and its last effect is a checkpoint
of the state produced by that step. -/
theorem loop_nan (cfg : Config) (st : Stage S K R) (env : Env) (n step : Nat) (s : S) (k : K)
    (ls : Int) (i : Nat) (r : R) (hr : Effect.row i r ∈ (loop cfg st env n step s k ls).1)
    (hnan : st.hasNan r = true) :
    ∃ pre s1 k1, st.compute s1 k1 = (r, (st.compute s1 k1).2) ∧
      (loop cfg st env n step s k ls).1 = pre ++ [.row i r, .ckpt i (st.compute s1 k1).2] ∧
      (loop cfg st env n step s k ls).2 = .abort := by
  induction n generalizing step s k ls with
  | zero => simp [loop] at hr
  | succ n ih =>
    obtain ⟨r0, s0, hq⟩ : ∃ r s1, st.compute s (st.split k).2 = (r, s1) := ⟨_, _, rfl⟩
    simp only [loop_succ cfg st env n step s k ls r0 s0 hq] at hr ⊢
    by_cases hn' : st.hasNan r0 = true
    · simp only [if_pos hn'] at hr ⊢
      simp at hr
      obtain ⟨rfl, rfl⟩ := hr
      exact ⟨[], s, (st.split k).2, by rw [hq], by simp [hq], trivial⟩
    have hne : r ≠ r0 := fun h => hn' (h ▸ hnan)
    simp only [if_neg hn'] at hr ⊢
    by_cases c1 : env.signal step = true
    · simp only [if_pos c1] at hr
      simp at hr; exact (hne hr.2).elim
    by_cases c2 : cfg.saveStep = 0
    · simp only [if_neg c1, if_pos c2] at hr
      simp at hr; exact (hne hr.2).elim
    simp only [if_neg c1, if_neg c2] at hr ⊢
    by_cases c3 : (decide (step + 1 = cfg.iterations) ||
        (decide (env.clock step - ls > cfg.saveTime) && decide ((step + 1) % cfg.saveStep = 0))) = true
    · simp only [if_pos c3] at hr ⊢
      simp at hr
      rcases hr with hr | hr
      · exact (hne hr.2).elim
      · obtain ⟨pre, s1, k1, e1, e2, e3⟩ := ih _ _ _ _ hr
        exact ⟨.row step r0 :: .ckpt step s0 :: pre, s1, k1, e1, by rw [e2]; rfl, e3⟩
    · simp only [if_neg c3] at hr ⊢
      simp at hr
      rcases hr with hr | hr
      · exact (hne hr.2).elim
      · obtain ⟨pre, s1, k1, e1, e2, e3⟩ := ih _ _ _ _ hr
        exact ⟨.row step r0 :: pre, s1, k1, e1, by rw [e2]; rfl, e3⟩

/-- Every row of a loop is the first component of some `compute`. -/
theorem loop_rows (cfg : Config) (st : Stage S K R) (env : Env) (n step : Nat) (s : S) (k : K)
    (ls : Int) (i : Nat) (r : R) (h : Effect.row i r ∈ (loop cfg st env n step s k ls).1) :
    ∃ s1 k1, r = (st.compute s1 k1).1 := by
  induction n generalizing step s k ls with
  | zero => simp [loop] at h
  | succ n ih =>
    rw [loop_succ cfg st env n step s k ls _ _ rfl] at h
    split at h
    · simp at h; exact ⟨_, _, h.2⟩
    split at h
    · simp at h; exact ⟨_, _, h.2⟩
    split at h
    · simp at h; exact ⟨_, _, h.2⟩
    split at h
    · simp at h
      rcases h with h | h
      · exact ⟨_, _, h.2⟩
      · exact ih _ _ _ _ h
    · simp at h
      rcases h with h | h
      · exact ⟨_, _, h.2⟩
      · exact ih _ _ _ _ h

theorem mem_rowsOf {es : List (Effect S R)} {i : Nat} {r : R} (h : (i, r) ∈ rowsOf es) :
    Effect.row i r ∈ es := by
  induction es with
  | nil => simp [rowsOf] at h
  | cons e es ih =>
    cases e with
    | row j q =>
      simp only [rowsOf, List.mem_cons, Prod.mk.injEq] at h
      rcases h with ⟨rfl, rfl⟩ | h
      · simp
      · simp [ih h]
    | ckpt j q => simp only [rowsOf] at h; simp [ih h]

theorem history_rows (cfg : Config) (st : Stage S K R) (s0 : S) (ls : List (Launch K))
    (cs : List (Nat × S)) : ∀ sess ∈ (history cfg st s0 cs ls).2, ∀ r ∈ sess.rows,
      ∃ s1 k1, r.2 = (st.compute s1 k1).1 := by
  induction ls generalizing cs with
  | nil => simp [history]
  | cons l ls ih =>
    simp only [history]
    have hrow : ∀ r ∈ rowsOf (happened (run cfg st l.env s0 l.key cs) l.kill),
        ∃ s1 k1, r.2 = (st.compute s1 k1).1 := by
      intro r hr
      have h1 := mem_rowsOf hr
      have h2 : Effect.row r.1 r.2 ∈ (run cfg st l.env s0 l.key cs).effects := by
        unfold happened at h1
        cases hk : l.kill with
        | none => rw [hk] at h1; exact h1
        | some n => rw [hk] at h1; exact List.mem_of_mem_take h1
      unfold run at h2
      dsimp only at h2
      split at h2
      all_goals
        split at h2
        · simp at h2
        · exact loop_rows _ _ _ _ _ _ _ _ _ _ h2
    cases (run cfg st l.env s0 l.key cs).opened with
    | none => exact ih _
    | some k =>
      intro sess hs r hr
      rcases List.mem_cons.1 hs with rfl | hs
      · exact hrow r hr
      · exact ih _ sess hs r hr

end Jaqmc.RunLoop
