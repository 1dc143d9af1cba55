import Verif.Spec.Cli
import Verif.Props.Config
/-! # C150: a launch from the command line, and what a dry run tells about it -/

namespace Jaqmc.Cli.Props
open Jaqmc.Config Jaqmc.Config.Spec Jaqmc.Config.Props Jaqmc.Cli Jaqmc.Cli.Spec

variable {V W : Type}

theorem joinDot_name (q : List Str) (hq : q ≠ []) (h : joinDot q = distributedName) : q = [distributedName] := by
  match q, hq, h with
  | [k], _, h => rw [← h]; rfl
  | k :: k' :: r, _, h =>
    exfalso
    have : '.' ∈ distributedName := by rw [← h]; simp [joinDot]
    revert this
    decide

/-! ### The search for unused options does not see names that are nowhere in the options -/

mutual
theorem unused_congr : (d : Entries V) → (N : Str → Prop) → (v v' : List Str) →
    (∀ x, ¬ N x → (x ∈ v ↔ x ∈ v')) → (∀ p ∈ optionPaths d, ∀ q, q ≠ [] → q <+: p → ¬ N (joinDot q)) →
    findUnused v d = findUnused v' d
  | .nil, _, _, _, _, _ => rfl
  | .cons k c r, N, v, v', hv, hp => by
    simp only [findUnused]
    rw [unusedAt_congr c k N v v' hv (fun p h => hp p (by simp [optionPaths, h])),
      unused_congr r N v v' hv (fun p h => hp p (by simp [optionPaths, h]))]
theorem unusedAt_congr : (c : Cfg V) → (k : Str) → (N : Str → Prop) → (v v' : List Str) →
    (∀ x, ¬ N x → (x ∈ v ↔ x ∈ v')) → (∀ p ∈ optionPathsAt k c, ∀ q, q ≠ [] → q <+: p → ¬ N (joinDot q)) →
    unusedAt v k c = unusedAt v' k c
  | .leaf _, k, N, v, v', hv, hp => by
    simp only [unusedAt]
    have := hv k (by simpa [joinDot] using hp [k] (by simp [optionPathsAt]) [k] (by simp) (List.prefix_refl _))
    by_cases h : k ∈ v
    · rw [if_pos h, if_pos (this.1 h)]
    · rw [if_neg h, if_neg (fun h' => h (this.2 h'))]
  | .dict sub, k, N, v, v', hv, hp => by
    simp only [unusedAt]
    have hs : findUnused (v.filterMap (dropPrefix k)) sub = findUnused (v'.filterMap (dropPrefix k)) sub := by
      refine unused_congr sub (fun x => N (k ++ '.' :: x)) _ _ ?_ ?_
      · intro x hx
        simp only [List.mem_filterMap, dropPrefix_iff]
        constructor
        · rintro ⟨a, ha, rfl⟩; exact ⟨_, (hv _ hx).1 ha, rfl⟩
        · rintro ⟨a, ha, rfl⟩; exact ⟨_, (hv _ hx).2 ha, rfl⟩
      · intro p h q hq hpre
        have := hp (k :: p) (by simp only [optionPathsAt, List.mem_map]; exact ⟨p, h, rfl⟩) (k :: q) (by simp)
          (by simpa using hpre)
        rwa [joinDot_cons k q hq] at this
    cases hsub : optionPaths sub with
    | nil =>
      have e : ∀ v, findUnused v sub = [] := by
        intro v
        rw [List.eq_nil_iff_forall_not_mem]
        intro s hs
        obtain ⟨p, hp, -⟩ := (mem_findUnused sub v s).1 hs
        rw [hsub] at hp
        simp at hp
      rw [e, e]
      simp
    | cons p ps =>
      have := hv k (by
        have := hp (k :: p) (by simp only [optionPathsAt, List.mem_map]; exact ⟨p, by simp [hsub], rfl⟩) [k] (by simp)
          (by simp)
        simpa [joinDot] using this)
      by_cases h : k ∈ v
      · rw [if_pos h, if_pos (this.1 h)]
      · rw [if_neg h, if_neg (fun h' => h (this.2 h')), hs]
end

/-! ### Two sessions that differ by the section `distributed` only -/

/-- `s'` has perhaps read the section `distributed`, `s` has not. -/
structure Sim (s s' : Session V) : Prop where
  presets : s.manager.presets = s'.manager.presets
  user : s.manager.user = s'.manager.user
  cli : s.manager.cli = s'.manager.cli
  visited : ∀ x, ¬ x = distributedName → (x ∈ s.manager.visited ↔ x ∈ s'.manager.visited)
  resolved : ∀ k, k ≠ distributedName → s.resolved.lookup k = s'.resolved.lookup k

theorem setPath_sim (c : Cfg V) (p : List Str) (hp : p.head? ≠ some distributedName) (d d' : Entries V)
    (h : ∀ k, k ≠ distributedName → d.lookup k = d'.lookup k) :
    (∀ e, setPath c p d = .error e → setPath c p d' = .error e) ∧
    ∀ r, setPath c p d = .ok r → r.lookup distributedName = d.lookup distributedName ∧
      ∃ r', setPath c p d' = .ok r' ∧ r'.lookup distributedName = d'.lookup distributedName ∧
      ∀ k, k ≠ distributedName → r.lookup k = r'.lookup k := by
  have set : ∀ k, k ≠ distributedName → ∀ x, (d.set k x).lookup distributedName = d.lookup distributedName ∧
      (d'.set k x).lookup distributedName = d'.lookup distributedName ∧
      ∀ j, j ≠ distributedName → (d.set k x).lookup j = (d'.set k x).lookup j := by
    intro k hk x
    refine ⟨by rw [lookup_set, if_neg hk], by rw [lookup_set, if_neg hk], ?_⟩
    intro j hj
    rw [lookup_set, lookup_set, h j hj]
  match p, hp with
  | [], _ =>
    refine ⟨by intro e he; simp [setPath] at he, ?_⟩
    intro r hr
    simp only [setPath, Except.ok.injEq] at hr
    subst hr
    exact ⟨rfl, d', rfl, rfl, h⟩
  | [k], hp =>
    have hk : k ≠ distributedName := by simpa using hp
    refine ⟨by intro e he; simp [setPath] at he, ?_⟩
    intro r hr
    simp only [setPath, Except.ok.injEq] at hr
    subst hr
    exact ⟨(set k hk _).1, _, rfl, (set k hk _).2.1, (set k hk _).2.2⟩
  | k :: k' :: p, hp =>
    have hk : k ≠ distributedName := by simpa using hp
    simp only [setPath]
    rw [← h k hk]
    cases d.lookup k with
    | none =>
      dsimp only
      cases setPath c (k' :: p) .nil with
      | error e => exact ⟨fun _ h => h, by intro r hr; simp at hr⟩
      | ok sub =>
        refine ⟨by intro e he; simp at he, ?_⟩
        intro r hr
        simp only [Except.ok.injEq] at hr
        subst hr
        exact ⟨(set k hk _).1, _, rfl, (set k hk _).2.1, (set k hk _).2.2⟩
    | some x =>
      cases x with
      | leaf w => exact ⟨fun _ h => h, by intro r hr; simp at hr⟩
      | dict sub =>
        dsimp only
        cases setPath c (k' :: p) sub with
        | error e => exact ⟨fun _ h => h, by intro r hr; simp at hr⟩
        | ok sub =>
          refine ⟨by intro e he; simp at he, ?_⟩
          intro r hr
          simp only [Except.ok.injEq] at hr
          subst hr
          exact ⟨(set k hk _).1, _, rfl, (set k hk _).2.1, (set k hk _).2.2⟩

/-- What a session that read on from `s` has kept of it. -/
structure After (s t : Session V) : Prop where
  user : t.manager.user = s.manager.user
  cli : t.manager.cli = s.manager.cli
  visited : ∀ x ∈ t.manager.visited, x ∈ s.manager.visited ∨ (splitDot x).head? ≠ some distributedName
  resolved : t.resolved.lookup distributedName = s.resolved.lookup distributedName

theorem readOne_sim (name : Str) (value : Option (Cfg V) → Except Err (Cfg V))
    (hn : (splitDot name).head? ≠ some distributedName) (s s' : Session V) (h : Sim s s') :
    (∀ e, readOne name value s = .error e → readOne name value s' = .error e) ∧
    ∀ c t, readOne name value s = .ok (c, t) → After s t ∧
      ∃ t', readOne name value s' = .ok (c, t') ∧ Sim t t' ∧ After s' t' := by
  have hm : s.manager.merged = s'.manager.merged := by
    unfold Manager.merged; rw [h.presets, h.user, h.cli]
  unfold readOne Manager.extract
  dsimp only
  rw [← hm]
  cases value (getPath (splitDot name) s.manager.merged) with
  | error e => exact ⟨fun _ h => h, by intro c t ht; simp at ht⟩
  | ok c =>
    obtain ⟨h1, h2⟩ := setPath_sim c (splitDot name) hn s.resolved s'.resolved h.resolved
    dsimp only
    cases hr : setPath c (splitDot name) s.resolved with
    | error e =>
      rw [h1 e hr]
      exact ⟨fun _ h => h, by intro c t ht; simp at ht⟩
    | ok r =>
      obtain ⟨g, r', hr', g', g2⟩ := h2 r hr
      rw [hr']
      refine ⟨by intro e he; simp at he, ?_⟩
      intro c' t ht
      simp only [Except.ok.injEq, Prod.mk.injEq] at ht
      obtain ⟨rfl, rfl⟩ := ht
      refine ⟨⟨rfl, rfl, ?_, g⟩, _, rfl, ⟨h.presets, h.user, h.cli, ?_, g2⟩, ⟨rfl, rfl, ?_, g'⟩⟩
      · intro x hx
        simp only [List.mem_cons] at hx
        rcases hx with rfl | hx
        · exact .inr hn
        · exact .inl hx
      · intro x hx
        simp only [List.mem_cons]
        rw [h.visited x hx]
      · intro x hx
        simp only [List.mem_cons] at hx
        rcases hx with rfl | hx
        · exact .inr hn
        · exact .inl hx

theorem after_trans {s t u : Session V} (h : After s t) (g : After t u) : After s u := by
  refine ⟨g.user.trans h.user, g.cli.trans h.cli, fun x hx => ?_, g.resolved.trans h.resolved⟩
  rcases g.visited x hx with hx | hx
  · exact h.visited x hx
  · exact .inr hx

theorem after_refl (s : Session V) : After s s := ⟨rfl, rfl, fun _ h => .inl h, rfl⟩

theorem runProg_sim (P : Prog V W) (hP : Avoids P) (s s' : Session V) (h : Sim s s') :
    (∀ e, runProg P s = .error e → runProg P s' = .error e) ∧
    ∀ w t, runProg P s = .ok (w, t) → After s t ∧ ∃ t', runProg P s' = .ok (w, t') ∧ Sim t t' ∧ After s' t' := by
  induction P generalizing s s' with
  | done w =>
    refine ⟨by intro e he; simp [runProg] at he, ?_⟩
    intro w' t ht
    simp only [runProg, Except.ok.injEq, Prod.mk.injEq] at ht
    obtain ⟨rfl, rfl⟩ := ht
    exact ⟨after_refl _, s', rfl, h, after_refl _⟩
  | fail => exact ⟨fun _ h => h, by intro w t ht; simp [runProg] at ht⟩
  | preset p k ih =>
    have h' : Sim ⟨s.manager.usePreset p, s.resolved⟩ ⟨s'.manager.usePreset p, s'.resolved⟩ :=
      ⟨by simp [Manager.usePreset, h.presets], h.user, h.cli, h.visited, h.resolved⟩
    obtain ⟨h1, h2⟩ := ih hP _ _ h'
    refine ⟨h1, fun w t ht => ?_⟩
    obtain ⟨a, t', b, c, d⟩ := h2 w t ht
    exact ⟨⟨a.user, a.cli, a.visited, a.resolved⟩, t', b, c, ⟨d.user, d.cli, d.visited, d.resolved⟩⟩
  | read name value k ih =>
    obtain ⟨hn, hk⟩ := hP
    obtain ⟨h1, h2⟩ := readOne_sim name value hn s s' h
    simp only [runProg]
    cases hr : readOne name value s with
    | error e =>
      rw [h1 e hr]
      exact ⟨fun _ h => h, by intro w t ht; simp at ht⟩
    | ok q =>
      obtain ⟨c, t⟩ := q
      obtain ⟨a, t', hr', g, a'⟩ := h2 c t hr
      rw [hr']
      obtain ⟨h3, h4⟩ := ih c (hk c) t t' g
      refine ⟨h3, fun w u hu => ?_⟩
      obtain ⟨b, u', b2, b3, b4⟩ := h4 w u hu
      exact ⟨after_trans a b, u', b2, b3, after_trans a' b4⟩

/-! ### The launch -/

theorem readOne_ok {name : Str} {value : Option (Cfg V) → Except Err (Cfg V)} {s t : Session V} {c : Cfg V}
    (hd : '.' ∉ name) (h : readOne name value s = .ok (c, t)) :
    value (getPath [name] s.manager.merged) = .ok c ∧
      t = ⟨{ s.manager with visited := name :: s.manager.visited }, s.resolved.set name c⟩ := by
  unfold readOne Manager.extract at h
  rw [splitDot_single name hd] at h
  dsimp only [setPath] at h
  cases hv : value (getPath [name] s.manager.merged) with
  | error e => rw [hv] at h; simp at h
  | ok c' =>
    rw [hv] at h
    simp only [Except.ok.injEq, Prod.mk.injEq] at h
    obtain ⟨rfl, rfl⟩ := h
    exact ⟨rfl, rfl⟩

theorem readOne_single (name : Str) (value : Option (Cfg V) → Except Err (Cfg V)) (s : Session V)
    (hd : '.' ∉ name) (c : Cfg V) (h : value (getPath [name] s.manager.merged) = .ok c) :
    readOne name value s =
      .ok (c, ⟨{ s.manager with visited := name :: s.manager.visited }, s.resolved.set name c⟩) := by
  unfold readOne Manager.extract
  rw [splitDot_single name hd]
  dsimp only [setPath]
  rw [h]

/-- How a launch goes up to the point where dry runs and runs part. -/
theorem command_up_all (E : Env V W) (files : List (Cfg V)) (dotlist : List Str) :
    (∃ es e, (∀ x ∈ es, (∃ c, x = Effect.logging c) ∨ ∃ c, x = Effect.jax c) ∧
      ∀ dry first, command E dry first files dotlist = ⟨es, none, some e⟩) ∨
    ∃ us cli l j, dicts files = some us ∧ dotlistToDict E.load .nil dotlist = .ok cli ∧
      let s2 : Session V := ⟨⟨.nil, mergeAll us, cli, [jaxName, loggingName]⟩,
        (Entries.nil.set loggingName l).set jaxName j⟩
      ∀ first, command E true first files dotlist = launch E true first [.logging l, .jax j] s2 ∧
      command E false first files dotlist = match readOne distributedName E.distributed s2 with
        | .error e => ⟨[.logging l, .jax j], none, some e⟩
        | .ok (d, s3) => launch E false first [.logging l, .jax j, .distributed d] s3 := by
  unfold command
  cases h1 : dicts files with
  | none => exact .inl ⟨[], _, by simp, fun _ _ => rfl⟩
  | some us =>
  dsimp only
  cases h2 : dotlistToDict E.load .nil dotlist with
  | error e => exact .inl ⟨[], _, by simp, fun _ _ => rfl⟩
  | ok cli =>
  dsimp only
  cases h3 : readOne loggingName E.logging ⟨⟨.nil, mergeAll us, cli, []⟩, .nil⟩ with
  | error e => exact .inl ⟨[], _, by simp, fun _ _ => rfl⟩
  | ok q =>
  obtain ⟨l, s1⟩ := q
  obtain ⟨-, rfl⟩ := readOne_ok (by decide) h3
  dsimp only
  cases h4 : readOne jaxName E.jax ⟨⟨.nil, mergeAll us, cli, [loggingName]⟩, Entries.nil.set loggingName l⟩ with
  | error e => exact .inl ⟨[.logging l], e, by simp, fun _ _ => rfl⟩
  | ok q =>
  obtain ⟨j, s2⟩ := q
  obtain ⟨-, rfl⟩ := readOne_ok (by decide) h4
  exact .inr ⟨us, cli, l, j, rfl, rfl, fun _ => ⟨rfl, rfl⟩⟩

theorem command_up (E : Env V W) (first : Bool) (files : List (Cfg V)) (dotlist : List Str) :
    (∃ es e, (∀ x ∈ es, (∃ c, x = Effect.logging c) ∨ ∃ c, x = Effect.jax c) ∧
      ∀ dry, command E dry first files dotlist = ⟨es, none, some e⟩) ∨
    ∃ us cli l j, dicts files = some us ∧ dotlistToDict E.load .nil dotlist = .ok cli ∧
      let s2 : Session V := ⟨⟨.nil, mergeAll us, cli, [jaxName, loggingName]⟩,
        (Entries.nil.set loggingName l).set jaxName j⟩
      command E true first files dotlist = launch E true first [.logging l, .jax j] s2 ∧
      command E false first files dotlist = match readOne distributedName E.distributed s2 with
        | .error e => ⟨[.logging l, .jax j], none, some e⟩
        | .ok (d, s3) => launch E false first [.logging l, .jax j, .distributed d] s3 := by
  rcases command_up_all E files dotlist with ⟨es, e, h1, h2⟩ | ⟨us, cli, l, j, hus, hcli, h⟩
  · exact .inl ⟨es, e, h1, fun dry => h2 dry first⟩
  · exact .inr ⟨us, cli, l, j, hus, hcli, h first⟩

/-- **C150.** A dry run does nothing but set up logging and JAX: whatever it is given, no process is connected,
no file is written or moved, and no workflow is started. -/
theorem c150_dry (E : Env V W) (first : Bool) (files : List (Cfg V)) (dotlist : List Str) :
    ∀ x ∈ (command E true first files dotlist).effects, (∃ c, x = .logging c) ∨ ∃ c, x = .jax c := by
  rcases command_up E first files dotlist with ⟨es, e, h1, h2⟩ | ⟨us, cli, l, j, -, -, h, -⟩
  · rw [h2]; exact h1
  · rw [h]
    have : (launch E true first [.logging l, .jax j] ⟨⟨.nil, mergeAll us, cli, [jaxName, loggingName]⟩,
        (Entries.nil.set loggingName l).set jaxName j⟩).effects = [.logging l, .jax j] := by
      unfold launch
      split
      · rfl
      · unfold prepare
        dsimp only
        split
        · rfl
        · rw [if_pos rfl]
    rw [this]
    intro x hx
    simp only [List.mem_cons, List.not_mem_nil, or_false] at hx
    rcases hx with rfl | rfl
    · exact .inl ⟨_, rfl⟩
    · exact .inr ⟨_, rfl⟩

theorem start_iff (E : Env V W) (first : Bool) (before : List (Effect V W)) (hb : ∀ w, .start w ∉ before) (w : W)
    (s : Session V) : ((prepare E false first before w s).stop = none ↔
      .start w ∈ (prepare E false first before w s).effects) ∧
    ∀ w', Effect.start w' ∈ (prepare E false first before w s).effects → w' = w := by
  unfold prepare
  dsimp only
  split
  · exact ⟨⟨by simp, fun h => absurd h (hb w)⟩, fun w' h => absurd h (hb w')⟩
  · rw [if_neg (by simp)]
    refine ⟨⟨fun _ => by simp, fun _ => rfl⟩, ?_⟩
    intro w' h
    simp only [List.mem_append, List.mem_singleton, Effect.start.injEq] at h
    rcases h with (h | h) | h
    · exact absurd h (hb w')
    · exfalso
      revert h
      cases first
      · simp
      · simp only [if_true, List.mem_append, List.mem_singleton]
        rintro (h | h)
        · revert h
          split
          · split <;> simp
          · simp
        · simp at h
    · exact h

/-- **C150.** A run that starts its workflow has written the resolved configuration (on the first process) just
before, after moving away a snapshot that differs; one that does not start it has written nothing. It starts it
exactly if it does not end early. -/
theorem c150_run (E : Env V W) (first : Bool) (files : List (Cfg V)) (dotlist : List Str) :
    let o := command E false first files dotlist
    (o.stop = none ∧ ∃ l j d w s, o.built = some (w, s) ∧ o.effects = [.logging l, .jax j, .distributed d] ++
      (if first then (match E.snapshot w with
        | some old => if old ≠ E.render s.resolved then [.backup w old] else []
        | none => []) ++ [.write w (E.render s.resolved)] else []) ++ [.start w]) ∨
    (o.stop ≠ none ∧ ∀ x ∈ o.effects, ∃ c, x = .logging c ∨ x = .jax c ∨ x = .distributed c) := by
  dsimp only
  rcases command_up E first files dotlist with ⟨es, e, h1, h2⟩ | ⟨us, cli, l, j, -, -, -, h⟩
  · right
    rw [h2]
    refine ⟨by simp, fun x hx => ?_⟩
    rcases h1 x hx with ⟨c, rfl⟩ | ⟨c, rfl⟩
    · exact ⟨c, .inl rfl⟩
    · exact ⟨c, .inr (.inl rfl)⟩
  · rw [h]
    split
    · right
      refine ⟨by simp, fun x hx => ?_⟩
      simp only [List.mem_cons, List.not_mem_nil, or_false] at hx
      rcases hx with rfl | rfl
      · exact ⟨_, .inl rfl⟩
      · exact ⟨_, .inr (.inl rfl)⟩
    · rename_i d s3 _
      have hx : ∀ x ∈ ([.logging l, .jax j, .distributed d] : List (Effect V W)),
          ∃ c, x = .logging c ∨ x = .jax c ∨ x = .distributed c := by
        intro x hx
        simp only [List.mem_cons, List.not_mem_nil, or_false] at hx
        rcases hx with rfl | rfl | rfl
        · exact ⟨_, .inl rfl⟩
        · exact ⟨_, .inr (.inl rfl)⟩
        · exact ⟨_, .inr (.inr rfl)⟩
      unfold launch
      split
      · exact .inr ⟨by simp, hx⟩
      · rename_i w s _
        unfold prepare
        dsimp only
        split
        · exact .inr ⟨by simp, hx⟩
        · rw [if_neg (by simp)]
          exact .inl ⟨rfl, l, j, d, w, s, rfl, rfl⟩

/-- Two managers that differ in the name `distributed` report the same if no option is at or below it. -/
theorem finalize_sim (s s' : Session V) (h : Sim s s')
    (hu : ∀ p, (p ∈ optionPaths s.manager.user ∨ p ∈ optionPaths s.manager.cli) → p.head? ≠ some distributedName)
    (b : Bool) : s.manager.finalize b = s'.manager.finalize b := by
  have key : ∀ d : Entries V, (∀ p ∈ optionPaths d, p.head? ≠ some distributedName) →
      findUnused s.manager.visited d = findUnused s'.manager.visited d := by
    intro d hd
    refine unused_congr d (fun x => x = distributedName) _ _ h.visited ?_
    intro p hp q hq hpre hn
    obtain ⟨t, rfl⟩ := hpre
    rw [joinDot_name q hq hn] at hp
    exact hd _ hp rfl
  unfold Manager.finalize
  rw [← h.user, ← h.cli, key _ fun p hp => hu p (.inl hp), key _ fun p hp => hu p (.inr hp)]

/-- **C150.** When neither the files nor the command line say anything about the section `distributed` (and it
loads, and the workflow does not read it), a dry run on one process ends as the run ends before it would
start: with the same error, the same options reported, or by coming through exactly when the run starts. -/
theorem c150_same (E : Env V W) (hE : Avoids E.workflow) (first : Bool) (files : List (Cfg V)) (dotlist : List Str)
    (hdist : ∀ us cli, dicts files = some us → dotlistToDict E.load .nil dotlist = .ok cli →
      ∃ c, E.distributed (getPath [distributedName] (Manager.merged ⟨.nil, mergeAll us, cli, []⟩)) = .ok c)
    (hno : ∀ us cli, dicts files = some us → dotlistToDict E.load .nil dotlist = .ok cli →
      ∀ p, (p ∈ optionPaths (mergeAll us) ∨ p ∈ optionPaths cli) → p.head? ≠ some distributedName) :
    (command E true first files dotlist).stop = (command E false first files dotlist).stop ∧
    ((command E true first files dotlist).stop = none ↔
      ∃ w, .start w ∈ (command E false first files dotlist).effects) := by
  have e : (command E true first files dotlist).stop = (command E false first files dotlist).stop := by
    rcases command_up E first files dotlist with ⟨es, e, h1, h2⟩ | ⟨us, cli, l, j, hus, hcli, ht, hf⟩
    · rw [h2, h2]
    · obtain ⟨c, hc⟩ := hdist us cli hus hcli
      rw [ht, hf, readOne_single distributedName E.distributed _ (by decide) c hc]
      dsimp only
      have hs : Sim (V := V) ⟨⟨.nil, mergeAll us, cli, [jaxName, loggingName]⟩,
          (Entries.nil.set loggingName l).set jaxName j⟩
          ⟨⟨.nil, mergeAll us, cli, [distributedName, jaxName, loggingName]⟩,
          ((Entries.nil.set loggingName l).set jaxName j).set distributedName c⟩ := by
        refine ⟨rfl, rfl, rfl, fun x hx => ?_, fun k hk => ?_⟩
        · simp only [List.mem_cons, hx, false_or]
        · dsimp only
          rw [lookup_set distributedName, if_neg (Ne.symm hk)]
      obtain ⟨g1, g2⟩ := runProg_sim E.workflow hE _ _ hs
      unfold launch
      cases hr : runProg E.workflow ⟨⟨.nil, mergeAll us, cli, [jaxName, loggingName]⟩,
          (Entries.nil.set loggingName l).set jaxName j⟩ with
      | error e => rw [g1 e hr]
      | ok q =>
        obtain ⟨w, t⟩ := q
        obtain ⟨a, t', ht', hsim, -⟩ := g2 w t hr
        rw [ht']
        dsimp only
        unfold prepare
        have hfin := finalize_sim t t' hsim (by rw [a.user, a.cli]; exact hno us cli hus hcli) (!E.ignore w)
        rw [← hfin]
        dsimp only
        split
        · rfl
        · simp
  refine ⟨e, ?_⟩
  rw [e]
  rcases c150_run E first files dotlist with ⟨h1, l, j, d, w, s, -, h2⟩ | ⟨h1, h2⟩
  · exact ⟨fun _ => ⟨w, by rw [h2]; simp⟩, fun _ => h1⟩
  · refine ⟨fun h => absurd h h1, ?_⟩
    rintro ⟨w, hw⟩
    obtain ⟨c, hc | hc | hc⟩ := h2 _ hw <;> simp at hc

theorem mem_unused_distributed (t : Session V) (p : List Str) (h : GivesDistributed t.manager p)
    (hv : ∀ x ∈ t.manager.visited, (splitDot x).head? ≠ some distributedName) (b : Bool) :
    joinDot p ∈ (t.manager.finalize b).1 := by
  obtain ⟨h1, h2, h3⟩ := h
  have key : ∀ q, q ≠ [] → q <+: p → joinDot q ∉ t.manager.visited := by
    intro q hq hpre hm
    have hqd : DotFree q := fun k hk => h2 k (hpre.subset hk)
    have := hv _ hm
    rw [splitDot_join q hq hqd] at this
    obtain ⟨r, rfl⟩ := hpre
    apply this
    cases q with
    | nil => exact absurd rfl hq
    | cons a q => simpa using h3
  unfold Manager.finalize
  dsimp only
  rw [List.mem_append]
  rcases h1 with h1 | h1
  · exact .inl ((mem_findUnused _ _ _).2 ⟨p, h1, rfl, key⟩)
  · exact .inr ((mem_findUnused _ _ _).2 ⟨p, h1, rfl, key⟩)

/-- **C150 (finding).** A dry run of a configuration that says something about the section `distributed` (as
those of every run on several hosts do) never comes through: the section is only read by runs, so its options
are reported as unused and the dry run ends with an error, unless such errors are switched off. -/
theorem c150_distributed (E : Env V W) (hE : Avoids E.workflow) (files : List (Cfg V))
    (dotlist : List Str) (us : List (Entries V)) (cli : Entries V) (hus : dicts files = some us)
    (hcli : dotlistToDict E.load .nil dotlist = .ok cli) (p : List Str)
    (hp : GivesDistributed ⟨.nil, mergeAll us, cli, []⟩ p) :
    let o := command E true true files dotlist
    (o.stop = none → ∃ w s, o.built = some (w, s) ∧ E.ignore w = true) ∧
    ∀ w s, o.built = some (w, s) → E.ignore w = false → ∃ paths, o.stop = some (.unused paths) ∧ joinDot p ∈ paths := by
  dsimp only
  rcases command_up E true files dotlist with ⟨es, e, h1, h2⟩ | ⟨us', cli', l, j, hus', hcli', ht, -⟩
  · rw [h2]
    exact ⟨by simp, by simp⟩
  · rw [hus] at hus'
    rw [hcli] at hcli'
    cases hus'
    cases hcli'
    rw [ht]
    unfold launch
    cases hr : runProg E.workflow ⟨⟨.nil, mergeAll us, cli, [jaxName, loggingName]⟩,
        (Entries.nil.set loggingName l).set jaxName j⟩ with
    | error e => exact ⟨by simp, by simp⟩
    | ok q =>
      obtain ⟨w, t⟩ := q
      obtain ⟨-, g⟩ := runProg_sim E.workflow hE _ _ ⟨rfl, rfl, rfl, fun _ _ => Iff.rfl, fun _ _ => rfl⟩
      obtain ⟨a, -⟩ := g w t hr
      have hm : ∀ b, joinDot p ∈ (t.manager.finalize b).1 := by
        refine mem_unused_distributed t p ?_ ?_
        · unfold GivesDistributed
          rw [a.user, a.cli]
          exact hp
        · intro x hx
          rcases a.visited x hx with hx | hx
          · simp only [List.mem_cons, List.not_mem_nil, or_false] at hx
            rcases hx with rfl | rfl <;> decide
          · exact hx
      have hi : E.ignore w = false → prepare E true true [.logging l, .jax j] w t =
          ⟨[.logging l, .jax j], some (w, t), some (.unused (t.manager.finalize true).1)⟩ := by
        intro hi
        unfold prepare
        rw [hi]
        have : (t.manager.finalize (!false)).2 = true := by
          have hh := hm true
          unfold Manager.finalize at hh ⊢
          dsimp only at hh ⊢
          cases hl : findUnused t.manager.visited t.manager.user ++ findUnused t.manager.visited t.manager.cli with
          | nil => rw [hl] at hh; simp at hh
          | cons _ _ => rfl
        dsimp only
        rw [this]
        rfl
      have hb : (prepare E true true [.logging l, .jax j] w t).built = some (w, t) := by
        unfold prepare
        dsimp only
        split
        · rfl
        · rw [if_pos rfl]
      dsimp only
      constructor
      · intro hs
        refine ⟨w, t, hb, ?_⟩
        cases hw : E.ignore w with
        | true => rfl
        | false => rw [hi hw] at hs; simp at hs
      · intro w' s' hb' hw'
        rw [hb] at hb'
        cases hb'
        rw [hi hw']
        exact ⟨_, rfl, hm true⟩

theorem optionPaths_lookup (k : Str) (c : Cfg V) (p : List Str) : (d : Entries V) → d.lookup k = some c →
    p ∈ optionPathsAt k c → p ∈ optionPaths d
  | .nil, h, _ => by simp [Entries.lookup] at h
  | .cons k' c' r, h, hp => by
    simp only [optionPaths, List.mem_append]
    simp only [Entries.lookup] at h
    split at h
    · rename_i hk
      subst hk
      cases h
      exact .inl hp
    · exact .inr (optionPaths_lookup k c p r h hp)

/-- **C150 (finding).** The configuration that a run writes always has the section `distributed`; so a dry run of
a saved configuration, with any further options, never comes through (unless the errors are switched off). -/
theorem c150_saved (E : Env V W) (hE : Avoids E.workflow) (field : Str) (hf : '.' ∉ field)
    (hrec : ∀ v c, E.distributed v = .ok c → ∃ d x, c = .dict d ∧ d.lookup field = some (.leaf x))
    (files : List (Cfg V)) (dotlist : List Str) (first : Bool) (w : W) (s : Session V)
    (hb : (command E false first files dotlist).built = some (w, s)) (hwf : WF s.resolved) (dotlist' : List Str) :
    let o := command E true true [.dict s.resolved] dotlist'
    o.stop = none → ∃ w s, o.built = some (w, s) ∧ E.ignore w = true := by
  have hl : ∃ d x, s.resolved.lookup distributedName = some (.dict d) ∧ d.lookup field = some (.leaf x) := by
    rcases command_up E first files dotlist with ⟨es, e, h1, h2⟩ | ⟨us, cli, l, j, -, -, -, h⟩
    · rw [h2] at hb; simp at hb
    · rw [h] at hb
      cases hr : readOne distributedName E.distributed ⟨⟨.nil, mergeAll us, cli, [jaxName, loggingName]⟩,
          (Entries.nil.set loggingName l).set jaxName j⟩ with
      | error e => rw [hr] at hb; simp at hb
      | ok q =>
        obtain ⟨c, s3⟩ := q
        rw [hr] at hb
        dsimp only at hb
        obtain ⟨hc, rfl⟩ := readOne_ok (by decide) hr
        unfold launch at hb
        cases hp : runProg E.workflow ⟨⟨.nil, mergeAll us, cli, [distributedName, jaxName, loggingName]⟩,
            ((Entries.nil.set loggingName l).set jaxName j).set distributedName c⟩ with
        | error e => rw [hp] at hb; simp at hb
        | ok q =>
          obtain ⟨w', t⟩ := q
          obtain ⟨-, g⟩ := runProg_sim E.workflow hE _ _ ⟨rfl, rfl, rfl, fun _ _ => Iff.rfl, fun _ _ => rfl⟩
          obtain ⟨a, -⟩ := g w' t hp
          rw [hp] at hb
          dsimp only at hb
          have : (prepare E false first [.logging l, .jax j, .distributed c] w' t).built = some (w', t) := by
            unfold prepare
            dsimp only
            split
            · rfl
            · rw [if_neg (by simp)]
          rw [this] at hb
          cases hb
          obtain ⟨d, x, rfl, hx⟩ := hrec _ _ hc
          refine ⟨d, x, ?_, hx⟩
          rw [a.resolved]
          dsimp only
          rw [lookup_set, if_pos rfl]
  obtain ⟨d, x, h1, h2⟩ := hl
  dsimp only
  have hm : (mergeAll [s.resolved]).lookup distributedName = some (.dict d) := by
    unfold mergeAll deepMerge
    rw [List.foldl_cons, List.foldl_nil]
    obtain ⟨c, hc, hk⟩ := mergeInto_nil s.resolved .nil hwf (by simp [Entries.keys])
    rw [hc, hk, h1]
  cases hcli : dotlistToDict E.load .nil dotlist' with
  | error e =>
    unfold command
    simp only [dicts]
    rw [hcli]
    simp
  | ok cli =>
    refine (c150_distributed E hE [.dict s.resolved] dotlist' [s.resolved] cli rfl hcli [distributedName, field]
      ⟨.inl ?_, ?_, rfl⟩).1
    · refine optionPaths_lookup distributedName (.dict d) _ _ hm ?_
      simp only [optionPathsAt, List.mem_map]
      refine ⟨[field], optionPaths_lookup field (.leaf x) _ _ h2 (by simp [optionPathsAt]), rfl⟩
    · intro k hk
      simp only [List.mem_cons, List.not_mem_nil, or_false] at hk
      rcases hk with rfl | rfl
      · decide
      · exact hf

/-- **C150.** Only the first process checks for unused options: every other process of a run that comes to the
end of its workflow's constructor starts the workflow, also when the first one stops. -/
theorem c150_others (E : Env V W) (files : List (Cfg V)) (dotlist : List Str) (w : W) (s : Session V)
    (h : (command E false false files dotlist).built = some (w, s)) :
    (command E false false files dotlist).stop = none ∧
      .start w ∈ (command E false false files dotlist).effects ∧
      (command E false true files dotlist).built = some (w, s) := by
  rcases command_up_all E files dotlist with ⟨es, e, h1, h2⟩ | ⟨us, cli, l, j, -, -, hf⟩
  · rw [h2] at h; simp at h
  · rw [(hf false).2] at h ⊢
    rw [(hf true).2]
    cases hr : readOne distributedName E.distributed ⟨⟨.nil, mergeAll us, cli, [jaxName, loggingName]⟩,
        (Entries.nil.set loggingName l).set jaxName j⟩ with
    | error e => rw [hr] at h; simp at h
    | ok q =>
      obtain ⟨c, s3⟩ := q
      rw [hr] at h
      dsimp only at h ⊢
      unfold launch at h ⊢
      cases hp : runProg E.workflow s3 with
      | error e => rw [hp] at h; simp at h
      | ok q =>
        obtain ⟨w', t⟩ := q
        rw [hp] at h
        dsimp only at h ⊢
        have e : prepare E false false [.logging l, .jax j, .distributed c] w' t =
            ⟨[.logging l, .jax j, .distributed c] ++ [] ++ [.start w'], some (w', t), none⟩ := by
          unfold prepare
          simp
        rw [e] at h ⊢
        cases h
        refine ⟨rfl, by simp, ?_⟩
        unfold prepare
        dsimp only
        split
        · rfl
        · rw [if_neg (by simp)]

/-! ### Examples -/

/-- A workflow that reads the number of steps. -/
def demo : Env Str (Cfg Str) where
  logging _ := .ok (.dict .nil)
  jax _ := .ok (.dict .nil)
  distributed _ := .ok (.dict (.cons ['n'] (.leaf ['1']) .nil))
  load := .leaf
  render d := (optionPaths d).flatMap joinDot
  workflow := .read ['s'] (fun v => .ok (v.getD (.leaf ['9']))) .done
  ignore _ := false
  snapshot _ := none

theorem demo_avoids : Avoids demo.workflow := ⟨by decide, fun _ => trivial⟩

/-- A file with one option. -/
def file (k : Str) : Cfg Str := .dict (.cons k (.leaf ['5']) .nil)

/-- A file with an option of the section `distributed`. -/
def distributedFile : Cfg Str := .dict (.cons distributedName (.dict (.cons ['n'] (.leaf ['2']) .nil)) .nil)

/-- Without the section a dry run tells what the run does: here both come through, the run starts; -/
example : (command demo true true [file ['s']] []).stop = none ∧
    ∃ w, .start w ∈ (command demo false true [file ['s']] []).effects := by
  have h := c150_same demo demo_avoids true [file ['s']] []
    (fun _ _ _ _ => ⟨_, rfl⟩)
    (by
      intro us cli hus hcli p hp
      cases hus
      cases hcli
      have : p = [['s']] := by
        rcases hp with hp | hp
        · exact List.mem_singleton.1 hp
        · exact absurd hp (by simp [optionPaths])
      subst this
      decide)
  have hs : (command demo true true [file ['s']] []).stop = none := by decide +kernel
  exact ⟨hs, h.2.1 hs⟩

/-- and a misspelt option is reported by both. -/
example : (command demo true true [file ['t']] []).stop =
      some (.unused [['t']]) ∧
    (command demo false true [file ['t']] []).stop =
      some (.unused [['t']]) := ⟨by decide +kernel, by decide +kernel⟩

/-- With the section the run starts, and the dry run ends with an error. -/
example : (∃ w, .start w ∈ (command demo false true [distributedFile] []).effects) ∧
    ∃ paths, (command demo true true [distributedFile] []).stop =
      some (.unused paths) ∧ joinDot [distributedName, ['n']] ∈ paths := by
  constructor
  · rcases c150_run demo true [distributedFile] [] with
      ⟨h1, l, j, d, w, s, hb, he⟩ | ⟨h1, -⟩
    · exact ⟨w, by rw [he]; simp⟩
    · exact absurd (by decide +kernel) h1
  · have hb : (command demo true true [distributedFile] []).built.isSome = true := by decide +kernel
    obtain ⟨⟨w, s⟩, hb⟩ := Option.isSome_iff_exists.1 hb
    exact (c150_distributed demo demo_avoids [distributedFile] [] _ _ rfl rfl
      [distributedName, ['n']] ⟨.inl (by exact List.mem_singleton.2 rfl), by
        intro k hk
        simp only [List.mem_cons, List.not_mem_nil, or_false] at hk
        rcases hk with rfl | rfl <;> decide, rfl⟩).2 w s hb rfl

mutual
def wfb : Entries V → Bool
  | .nil => true
  | .cons k v r => !r.keys.contains k && wfbValue v && wfb r
def wfbValue : Cfg V → Bool
  | .leaf _ => true
  | .dict d => wfb d
end

mutual
theorem wfb_wf : (d : Entries V) → wfb d = true → WF d
  | .nil, _ => trivial
  | .cons k v r, h => by
    simp only [wfb, Bool.and_eq_true, Bool.not_eq_true', List.contains_eq_mem, decide_eq_false_iff_not] at h
    exact ⟨h.1.1, wfbValue_wf v h.1.2, wfb_wf r h.2⟩
theorem wfbValue_wf : (c : Cfg V) → wfbValue c = true → WFValue c
  | .leaf _, _ => trivial
  | .dict d, h => wfb_wf d h
end

/-- What that workflow saves when it is run without any options cannot be dry run. -/
example : ∃ w s, (command demo false true [] []).built = some (w, s) ∧
    (command demo true true [.dict s.resolved] []).stop ≠ none := by
  have hb : ((command demo false true [] []).built.map fun q => wfb q.2.resolved) = some true := by decide +kernel
  obtain ⟨⟨w, s⟩, hb, hw⟩ := Option.map_eq_some_iff.1 hb
  refine ⟨w, s, hb, fun h => ?_⟩
  obtain ⟨w', s', -, hi⟩ := c150_saved demo demo_avoids ['n'] (by decide)
    (by
      intro v c hc
      cases hc
      exact ⟨_, ['1'], rfl, rfl⟩) [] [] true w s hb (wfb_wf _ hw) [] h
  exact absurd hi (by simp [demo])

/-- A misspelt option stops the first process only. -/
example : (command demo false true [file ['t']] []).stop ≠ none ∧
    (command demo false false [file ['t']] []).stop = none ∧
    ∃ w, .start w ∈ (command demo false false [file ['t']] []).effects := by
  have hb : (command demo false false [file ['t']] []).built.isSome = true := by
    decide +kernel
  obtain ⟨⟨w, s⟩, hb⟩ := Option.isSome_iff_exists.1 hb
  obtain ⟨h1, h2, -⟩ := c150_others demo [file ['t']] [] w s hb
  exact ⟨by decide +kernel, h1, w, h2⟩

end Jaqmc.Cli.Props
