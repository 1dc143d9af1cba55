import Verif.Spec.Callable
import Mathlib.Data.List.Basic
import Mathlib.Data.List.Nodup
import Mathlib.Tactic.SplitIfs
import Mathlib.Tactic.Tauto
/-!
C125: configured functions.
-/
namespace Jaqmc.Callable.Props
open Jaqmc.Config Jaqmc.Callable Jaqmc.Callable.Spec

variable {X : Type}

theorem takesPos_iff (p : Param X) : p.takesPos = true ↔ p.kind = .posOnly ∨ p.kind = .posOrKw := by simp [Param.takesPos]
theorem takesKw_iff (p : Param X) : p.takesKw = true ↔ p.kind = .posOrKw ∨ p.kind = .kwOnly := by simp [Param.takesKw]

theorem lookup_append (a b : Kw X) (k : Str) : (a ++ b).lookup k = match a.lookup k with | some v => some v | none => b.lookup k := by
  rw [List.lookup_append]
  cases a.lookup k <;> rfl

theorem lookup_filter_none (a : Kw X) (P : Str → Bool) (k : Str) : (a.filter fun e => P e.1).lookup k = if P k then a.lookup k else none := by
  induction a with
  | nil => simp
  | cons e a ih =>
    obtain ⟨j, v⟩ := e
    by_cases hj : P j
    · rw [List.filter_cons_of_pos (by simpa using hj)]
      simp only [List.lookup_cons]
      by_cases hk : k == j
      · simp only [beq_iff_eq] at hk
        subst hk
        simp [hj]
      · simp only [hk]
        exact ih
    · rw [List.filter_cons_of_neg (by simpa using hj), ih]
      simp only [List.lookup_cons]
      by_cases hk : k == j
      · simp only [beq_iff_eq] at hk
        subst hk
        simp [hj]
      · simp only [hk]

theorem lookup_union (a b : Kw X) (k : Str) : (union a b).lookup k = match b.lookup k with | some v => some v | none => a.lookup k := by
  unfold union
  rw [lookup_append, lookup_filter_none a (fun k => (b.lookup k).isNone)]
  cases h : b.lookup k with
  | some v => rfl
  | none => simp

theorem lookup_some_mem {a : Kw X} {k : Str} {v : X} (h : a.lookup k = some v) : (k, v) ∈ a := by
  induction a with
  | nil => simp at h
  | cons e a ih =>
    obtain ⟨j, w⟩ := e
    simp only [List.lookup_cons] at h
    by_cases hk : k == j
    · simp only [hk] at h
      simp only [beq_iff_eq] at hk
      cases h
      subst hk
      simp
    · simp only [hk] at h
      exact List.mem_cons_of_mem _ (ih h)

theorem lookup_none_iff {a : Kw X} {k : Str} : a.lookup k = none ↔ ∀ v, (k, v) ∉ a := by
  constructor
  · intro h v hv
    rw [List.lookup_eq_none_iff] at h
    have := h _ hv
    simp at this
  · intro h
    cases hx : a.lookup k with
    | none => rfl
    | some v => exact absurd (lookup_some_mem hx) (h v)

theorem mem_union (a b : Kw X) (e : Str × X) : e ∈ union a b ↔ e ∈ b ∨ e ∈ a ∧ b.lookup e.1 = none := by
  simp [union]

/-- Arguments by position, by the place of the parameter. -/
theorem lookup_zip (names : List Str) (args : List X) (k : Str) (hk : k ∈ names) : (names.zip args).lookup k = args[names.idxOf k]? := by
  induction names generalizing args with
  | nil => cases hk
  | cons n names ih =>
    cases args with
    | nil => simp
    | cons a args =>
      rw [List.zip_cons_cons, List.lookup_cons, List.idxOf_cons]
      by_cases h : k = n
      · subst h; simp
      · have h' : (k == n) = false := by simpa using h
        have h'' : (n == k) = false := by simpa using Ne.symm h
        simp only [h', h'', cond_false, List.getElem?_cons_succ]
        exact ih args (by simpa [h] using hk)

theorem lookup_zip_none (names : List Str) (args : List X) (k : Str) (hk : k ∉ names) : (names.zip args).lookup k = none := by
  rw [lookup_none_iff]
  intro v hv
  exact hk (List.of_mem_zip hv).1

theorem posNames_eq (ps : List (Param X)) : ps.filter (·.takesPos) = ps.filter fun r => r.kind = .posOnly ∨ r.kind = .posOrKw := by
  congr 1
  funext p
  simp [Param.takesPos]

theorem nodup_eq {ps : List (Param X)} (hn : (ps.map (·.name)).Nodup) {p q : Param X} (hp : p ∈ ps) (hq : q ∈ ps) (h : p.name = q.name) : p = q :=
  List.inj_on_of_nodup_map hn hp hq h

theorem byPos_eq (ps : List (Param X)) (hn : (ps.map (·.name)).Nodup) (args : List X) (p : Param X) (hp : p ∈ ps) : (byPos ps args).lookup p.name = posArg ps args p := by
  unfold byPos posArg
  rw [← posNames_eq]
  split_ifs with h
  · apply lookup_zip
    exact List.mem_map.mpr ⟨p, List.mem_filter.mpr ⟨hp, (takesPos_iff p).mpr h⟩, rfl⟩
  · apply lookup_zip_none
    rintro hm
    obtain ⟨q, hq, he⟩ := List.mem_map.mp hm
    obtain ⟨hq1, hq2⟩ := List.mem_filter.mp hq
    have := nodup_eq hn hq1 hp he
    subst this
    exact h ((takesPos_iff q).mp hq2)

theorem byPos_some (ps : List (Param X)) (args : List X) (k : Str) (h : ((byPos ps args).lookup k).isSome) : ∃ p ∈ ps, p.takesPos ∧ p.name = k := by
  obtain ⟨v, hv⟩ := Option.isSome_iff_exists.mp h
  have := (List.of_mem_zip (lookup_some_mem hv)).1
  obtain ⟨p, hp, he⟩ := List.mem_map.mp this
  obtain ⟨h1, h2⟩ := List.mem_filter.mp hp
  exact ⟨p, h1, h2, he⟩

theorem mapM_lookup {A : Type} (l : List A) (name : A → Str) (val : A → Option X) (hn : (l.map name).Nodup) (r : Kw X)
    (h : (l.mapM fun p => (val p).map fun v => (name p, v)) = some r) : (∀ p ∈ l, r.lookup (name p) = val p) ∧ (∀ p ∈ l, (val p).isSome) ∧ r.map (·.1) = l.map name := by
  induction l generalizing r with
  | nil => simp at h; subst h; simp
  | cons p l ih =>
    simp only [List.mapM_cons] at h
    cases hp : val p with
    | none => simp [hp] at h
    | some v =>
      simp only [hp, Option.map_some, Option.pure_def, Option.bind_eq_bind, Option.bind_some] at h
      cases hl : (l.mapM fun p => (val p).map fun v => (name p, v)) with
      | none => simp [hl] at h
      | some r' =>
        simp only [hl, Option.bind_some, Option.some.injEq] at h
        subst h
        simp only [List.map_cons, List.nodup_cons] at hn
        obtain ⟨h1, h2, h3⟩ := ih hn.2 r' hl
        refine ⟨fun q hq => ?_, fun q hq => ?_, by simp [h3]⟩
        · rcases List.mem_cons.mp hq with rfl | hq
          · simp [List.lookup_cons, hp]
          · have hne : (name q == name p) = false := by
              simp only [beq_eq_false_iff_ne, ne_eq]
              intro he
              exact hn.1 (List.mem_map.mpr ⟨q, hq, he⟩)
            simp only [List.lookup_cons, hne]
            exact h1 q hq
        · rcases List.mem_cons.mp hq with rfl | hq
          · simp [hp]
          · exact h2 q hq

theorem mapM_exists {A : Type} (l : List A) (name : A → Str) (val : A → Option X) (h : ∀ p ∈ l, (val p).isSome) : ∃ r, (l.mapM fun p => (val p).map fun v => (name p, v)) = some r := by
  induction l with
  | nil => exact ⟨[], rfl⟩
  | cons p l ih =>
    obtain ⟨v, hv⟩ := Option.isSome_iff_exists.mp (h p (by simp))
    obtain ⟨r, hr⟩ := ih fun q hq => h q (by simp [hq])
    exact ⟨(name p, v) :: r, by simp [hv, hr]⟩

/-- The keywords a function does not have. -/
def unknown (ps : List (Param X)) (kw : Kw X) : Kw X := kw.filter fun e => !(ps.any fun p => p.takesKw && decide (p.name = e.1))

theorem takes_iff (ps : List (Param X)) (k : Str) : (ps.any fun p => p.takesKw && decide (p.name = k)) = true ↔ Keyword ps k := by
  simp [Keyword, ← takesKw_iff]

/-- When a call succeeds, and with what. -/
theorem bind_some (ps : List (Param X)) (args : List X) (kw : Kw X) (b : Bound X) : bind ps args kw = some b ↔
    (args.drop (ps.filter (·.takesPos)).length ≠ [] → ∃ p ∈ ps, p.kind = .varPos) ∧ ((∃ e ∈ kw, ¬ Keyword ps e.1) → AnyKw ps) ∧
    (∀ e ∈ kw, Keyword ps e.1 → (byPos ps args).lookup e.1 = none) ∧
    ((ps.filter (·.single)).mapM fun p => (valueOf ps args kw p).map fun v => (p.name, v)) = some b.values ∧ b.rest = args.drop (ps.filter (·.takesPos)).length ∧ b.extra = unknown ps kw := by
  have hx : (kw.filter fun e => !(ps.any fun p => p.takesKw && decide (p.name = e.1))) ≠ [] ↔ ∃ e ∈ kw, ¬ Keyword ps e.1 := by
    rw [← List.isEmpty_eq_false_iff, List.isEmpty_eq_false_iff_exists_mem]
    constructor
    · rintro ⟨e, he⟩
      obtain ⟨h1, h2⟩ := List.mem_filter.mp he
      refine ⟨e, h1, fun hk => ?_⟩
      rw [(takes_iff ps e.1).mpr hk] at h2
      cases h2
    · rintro ⟨e, he, hk⟩
      refine ⟨e, List.mem_filter.mpr ⟨he, ?_⟩⟩
      have := mt (takes_iff ps e.1).mp hk
      simpa using this
  have h3 : kw.any (fun e => (ps.any fun p => p.takesKw && decide (p.name = e.1)) && ((byPos ps args).lookup e.1).isSome) = true ↔
      ¬ ∀ e ∈ kw, Keyword ps e.1 → (byPos ps args).lookup e.1 = none := by
    rw [List.any_eq_true]
    constructor
    · rintro ⟨e, he, h⟩ hall
      rw [Bool.and_eq_true] at h
      have := hall e he ((takes_iff ps e.1).mp h.1)
      rw [this] at h
      cases h.2
    · intro h
      by_contra hc
      apply h
      intro e he hk
      by_contra hne
      exact hc ⟨e, he, by rw [(takes_iff ps e.1).mpr hk]; simpa [Option.isSome_iff_ne_none] using hne⟩
  unfold bind
  dsimp only
  by_cases c1 : args.drop (ps.filter (·.takesPos)).length ≠ [] ∧ (ps.all fun p => decide (p.kind ≠ .varPos)) = true
  · rw [if_pos c1]
    simp only [reduceCtorEq, false_iff]
    rintro ⟨h, _⟩
    obtain ⟨p, hp, hk⟩ := h c1.1
    have := List.all_eq_true.mp c1.2 p hp
    simp [hk] at this
  · rw [if_neg c1]
    have c1' : args.drop (ps.filter (·.takesPos)).length ≠ [] → ∃ p ∈ ps, p.kind = .varPos := by
      intro h
      by_contra hc
      apply c1
      refine ⟨h, List.all_eq_true.mpr fun p hp => ?_⟩
      simp only [decide_eq_true_eq]
      exact fun he => hc ⟨p, hp, he⟩
    by_cases c2 : (kw.filter fun e => !(ps.any fun p => p.takesKw && decide (p.name = e.1))) ≠ [] ∧ (ps.all fun p => decide (p.kind ≠ .varKw)) = true
    · rw [if_pos c2]
      simp only [reduceCtorEq, false_iff]
      rintro ⟨_, h, _⟩
      obtain ⟨p, hp, hk⟩ := h (hx.mp c2.1)
      have := List.all_eq_true.mp c2.2 p hp
      simp [hk] at this
    · rw [if_neg c2]
      have c2' : (∃ e ∈ kw, ¬ Keyword ps e.1) → AnyKw ps := by
        intro h
        by_contra hc
        apply c2
        refine ⟨hx.mpr h, List.all_eq_true.mpr fun p hp => ?_⟩
        simp only [decide_eq_true_eq]
        exact fun he => hc ⟨p, hp, he⟩
      by_cases c3 : ∀ e ∈ kw, Keyword ps e.1 → (byPos ps args).lookup e.1 = none
      · rw [if_neg (fun h => h3.mp h c3)]
        cases hm : ((ps.filter (·.single)).mapM fun p => (valueOf ps args kw p).map fun v => (p.name, v)) with
        | none => simp
        | some values =>
          obtain ⟨bv, br, be⟩ := b
          simp only [Option.some.injEq, Bound.mk.injEq]
          constructor
          · rintro ⟨rfl, rfl, rfl⟩; exact ⟨c1', c2', c3, rfl, rfl, rfl⟩
          · rintro ⟨_, _, _, rfl, rfl, rfl⟩; exact ⟨rfl, rfl, rfl⟩
      · rw [if_pos (h3.mpr c3)]
        simp only [reduceCtorEq, false_iff]
        tauto

theorem single_iff (p : Param X) : p.single = true ↔ p.kind ≠ .varPos ∧ p.kind ≠ .varKw := by
  obtain ⟨n, k, d⟩ := p
  cases k <;> simp [Param.single, Param.takesPos, Param.takesKw]

/-- The keyword arguments `f` is really called with. -/
theorem safe_eq (ps : List (Param X)) (config : Kw X) (args : List X) (kwargs : Kw X) : ∃ kw, safeKwPartial ps config args kwargs = bind ps args (union config kw) ∧
    (AnyKw ps → kw = kwargs) ∧ (¬ AnyKw ps → kw = kwargs.filter fun e => (ps.map (·.name)).contains e.1) := by
  have h : (ps.any fun p => decide (p.kind = .varKw)) = true ↔ AnyKw ps := by simp [AnyKw]
  unfold safeKwPartial
  by_cases hk : AnyKw ps
  · rw [if_pos (h.mpr hk)]; exact ⟨kwargs, rfl, fun _ => rfl, fun hn => absurd hk hn⟩
  · rw [if_neg (fun x => hk (h.mp x))]; exact ⟨_, rfl, fun x => absurd x hk, fun _ => rfl⟩

theorem safe_lookup (ps : List (Param X)) (kwargs kw : Kw X) (h1 : AnyKw ps → kw = kwargs) (h2 : ¬ AnyKw ps → kw = kwargs.filter fun e => (ps.map (·.name)).contains e.1) (p : Param X) (hp : p ∈ ps) :
    kw.lookup p.name = kwargs.lookup p.name := by
  by_cases hk : AnyKw ps
  · rw [h1 hk]
  · rw [h2 hk, lookup_filter_none kwargs fun k => (ps.map (·.name)).contains k, if_pos]
    simp only [List.contains_iff_mem]
    exact List.mem_map.mpr ⟨p, hp, rfl⟩

/-- C125: in a call of a configured function each parameter has its argument by position, or else by keyword, or else the configured value, or else its own default.  Parameters that
cannot be given by keyword take nothing from the keywords and the configuration. -/
theorem c125_precedence (ps : List (Param X)) (hn : (ps.map (·.name)).Nodup) (config : Kw X) (args : List X) (kwargs : Kw X) (b : Bound X) (h : safeKwPartial ps config args kwargs = some b)
    (p : Param X) (hp : p ∈ ps) (hv : p.kind ≠ .varPos ∧ p.kind ≠ .varKw) :
    b.values.lookup p.name = if p.kind = .posOnly then firstOf [posArg ps args p, p.default] else firstOf [posArg ps args p, kwargs.lookup p.name, config.lookup p.name, p.default] := by
  obtain ⟨kw, he, h1, h2⟩ := safe_eq ps config args kwargs
  rw [he, bind_some] at h
  obtain ⟨_, _, _, hm, _, _⟩ := h
  have hn' : ((ps.filter (·.single)).map (·.name)).Nodup := hn.sublist (List.filter_sublist.map _)
  rw [(mapM_lookup _ _ _ hn' _ hm).1 p (List.mem_filter.mpr ⟨hp, (single_iff p).mpr hv⟩)]
  unfold valueOf
  rw [byPos_eq ps hn args p hp, lookup_union, safe_lookup ps kwargs kw h1 h2 p hp]
  have hkw : p.takesKw = true ↔ p.kind ≠ .posOnly := by
    rw [takesKw_iff]
    obtain ⟨n, k, d⟩ := p
    cases k <;> simp_all
  by_cases hpo : p.kind = .posOnly
  · rw [if_pos hpo]
    have : p.takesKw = false := by simpa using mt hkw.mp (not_not.mpr hpo)
    rw [this]
    cases posArg ps args p <;> cases p.default <;> rfl
  · rw [if_neg hpo, hkw.mpr hpo]
    cases posArg ps args p <;> cases kwargs.lookup p.name <;> cases config.lookup p.name <;> cases p.default <;> rfl

/-- C125: an option the function does not have makes every call fail, unless the function takes any keyword, which then gets it. -/
theorem c125_unknown_option (ps : List (Param X)) (config : Kw X) (k : Str) (v : X) (hv : config.lookup k = some v) (hk : ¬ Keyword ps k) (args : List X) (kwargs : Kw X) :
    (¬ AnyKw ps → safeKwPartial ps config args kwargs = none) ∧
    (AnyKw ps → ∀ b, safeKwPartial ps config args kwargs = some b → b.extra.lookup k = firstOf [kwargs.lookup k, some v]) := by
  obtain ⟨kw, he, h1, h2⟩ := safe_eq ps config args kwargs
  rw [he]
  refine ⟨fun ha => ?_, fun ha b hb => ?_⟩
  · cases hb : bind ps args (union config kw) with
    | none => rfl
    | some b =>
      exfalso
      rw [bind_some] at hb
      obtain ⟨w, hw⟩ : ∃ w, (union config kw).lookup k = some w := by
        rw [lookup_union, hv]
        cases kw.lookup k with
        | none => exact ⟨v, rfl⟩
        | some w => exact ⟨w, rfl⟩
      exact ha (hb.2.1 ⟨(k, w), lookup_some_mem hw, hk⟩)
  · rw [bind_some] at hb
    rw [hb.2.2.2.2.2, unknown, lookup_filter_none _ fun k => !(ps.any fun p => p.takesKw && decide (p.name = k)), if_pos, lookup_union, h1 ha, hv]
    · cases kwargs.lookup k <;> rfl
    · have := mt (takes_iff ps k).mp hk
      simpa using this

/-- C125: keywords of a call that are no parameters are ignored, unless the function takes any keyword. -/
theorem c125_unknown_keyword (ps : List (Param X)) (ha : ¬ AnyKw ps) (config : Kw X) (args : List X) (kwargs : Kw X) :
    safeKwPartial ps config args kwargs = safeKwPartial ps config args (kwargs.filter fun e => (ps.map (·.name)).contains e.1) := by
  have h : ¬ (ps.any fun p => decide (p.kind = .varKw)) = true := by simpa [AnyKw] using ha
  unfold safeKwPartial
  rw [if_neg h, if_neg h, List.filter_filter]
  simp only [Bool.and_self]

/-- C125: a parameter with a configured value — each parameter with a default has one — cannot be given by position: the call fails. -/
theorem c125_positional (ps : List (Param X)) (hn : (ps.map (·.name)).Nodup) (config : Kw X) (p : Param X) (hp : p ∈ ps) (hk : p.kind = .posOrKw) (hc : config.lookup p.name ≠ none)
    (args : List X) (ha : posArg ps args p ≠ none) (kwargs : Kw X) : safeKwPartial ps config args kwargs = none := by
  obtain ⟨kw, he, h1, h2⟩ := safe_eq ps config args kwargs
  rw [he]
  cases hb : bind ps args (union config kw) with
  | none => rfl
  | some b =>
    exfalso
    rw [bind_some] at hb
    obtain ⟨w, hw⟩ : ∃ w, (union config kw).lookup p.name = some w := by
      rw [lookup_union]
      cases kw.lookup p.name with
      | none => exact Option.ne_none_iff_exists'.mp hc
      | some w => exact ⟨w, rfl⟩
    have := hb.2.2.1 (p.name, w) (lookup_some_mem hw) ⟨p, hp, Or.inl hk, rfl⟩
    rw [byPos_eq ps hn args p hp] at this
    exact ha this

theorem mem_defaults (ps : List (Param X)) (k : Str) (v : X) : (k, v) ∈ callableDefaults ps ↔ ∃ p ∈ ps, p.kind ≠ .varKw ∧ p.kind ≠ .varPos ∧ p.default = some v ∧ p.name = k := by
  simp only [callableDefaults, List.mem_filterMap, List.mem_filter, decide_eq_true_eq, Option.map_eq_some_iff, Prod.mk.injEq]
  constructor
  · rintro ⟨p, ⟨h1, h2, h3⟩, w, h4, h5, rfl⟩; exact ⟨p, h1, h2, h3, h4, h5⟩
  · rintro ⟨p, h1, h2, h3, h4, h5⟩; exact ⟨p, ⟨h1, h2, h3⟩, v, h4, h5, rfl⟩

theorem lookup_defaults (ps : List (Param X)) (hn : (ps.map (·.name)).Nodup) (p : Param X) (hp : p ∈ ps) (hv : p.kind ≠ .varPos ∧ p.kind ≠ .varKw) : (callableDefaults ps).lookup p.name = p.default := by
  cases hx : (callableDefaults ps).lookup p.name with
  | some v =>
    obtain ⟨q, hq, _, _, hd, he⟩ := (mem_defaults ps _ _).mp (lookup_some_mem hx)
    rw [nodup_eq hn hq hp he] at hd
    exact hd.symm
  | none =>
    cases hd : p.default with
    | none => rfl
    | some v => exact absurd ((mem_defaults ps _ _).mpr ⟨p, hp, hv.2, hv.1, hd, rfl⟩) (lookup_none_iff.mp hx v)

/-- C125: without options in the configuration, a call is what it is without the configuration, if no parameter with a default is given by position or can be given by position only, and
all keywords are parameters or the function takes any keyword. -/
theorem c125_transparent (ps : List (Param X)) (hn : (ps.map (·.name)).Nodup) (args : List X) (kwargs : Kw X) (hpo : ∀ p ∈ ps, p.kind = .posOnly → p.default = none)
    (hpa : ∀ p ∈ ps, p.default ≠ none → posArg ps args p = none) (hkw : AnyKw ps ∨ ∀ e ∈ kwargs, e.1 ∈ ps.map (·.name)) :
    safeKwPartial ps (callableDefaults ps) args kwargs = bind ps args kwargs := by
  obtain ⟨kw, he, h1, h2⟩ := safe_eq ps (callableDefaults ps) args kwargs
  have hkk : kw = kwargs := by
    by_cases ha : AnyKw ps
    · exact h1 ha
    · rw [h2 ha]
      rcases hkw with h | h
      · exact absurd h ha
      · exact List.filter_eq_self.mpr fun e he => by simp only [List.contains_iff_mem]; exact h e he
  rw [he, hkk]
  have hdk : ∀ k v, (k, v) ∈ callableDefaults ps → Keyword ps k ∧ (byPos ps args).lookup k = none := by
    intro k v hm
    obtain ⟨p, hp, hk1, hk2, hd, rfl⟩ := (mem_defaults ps k v).mp hm
    refine ⟨⟨p, hp, ?_, rfl⟩, ?_⟩
    · have := hpo p hp
      rw [hd] at this
      obtain ⟨n, k, d⟩ := p
      cases k <;> simp_all
    · rw [byPos_eq ps hn args p hp]
      exact hpa p hp (by rw [hd]; simp)
  have hval : ∀ p ∈ ps.filter (·.single), ((valueOf ps args (union (callableDefaults ps) kwargs) p).map fun v => (p.name, v)) = (valueOf ps args kwargs p).map fun v => (p.name, v) := by
    intro p hp
    obtain ⟨hp1, hp2⟩ := List.mem_filter.mp hp
    congr 1
    unfold valueOf
    rw [lookup_union, lookup_defaults ps hn p hp1 ((single_iff p).mp hp2)]
    cases (byPos ps args).lookup p.name with
    | some v => rfl
    | none =>
      cases p.takesKw with
      | false => rfl
      | true => cases kwargs.lookup p.name <;> cases p.default <;> rfl
  have hmap : ((ps.filter (·.single)).mapM fun p => (valueOf ps args (union (callableDefaults ps) kwargs) p).map fun v => (p.name, v)) =
      ((ps.filter (·.single)).mapM fun p => (valueOf ps args kwargs p).map fun v => (p.name, v)) := by
    generalize ps.filter (·.single) = l at hval
    induction l with
    | nil => rfl
    | cons p l ih =>
      rw [List.mapM_cons, List.mapM_cons, hval p (by simp), ih fun q hq => hval q (by simp [hq])]
  have hun : unknown ps (union (callableDefaults ps) kwargs) = unknown ps kwargs := by
    unfold unknown union
    rw [List.filter_append]
    refine List.append_right_eq_self.mpr (List.filter_eq_nil_iff.mpr ?_)
    rintro ⟨k, v⟩ hm
    rw [(takes_iff ps k).mpr (hdk k v (List.mem_filter.mp hm).1).1]
    simp
  apply Option.ext
  intro b
  rw [bind_some, bind_some, hmap, hun]
  have e1 : (∃ e ∈ union (callableDefaults ps) kwargs, ¬ Keyword ps e.1) ↔ ∃ e ∈ kwargs, ¬ Keyword ps e.1 := by
    constructor
    · rintro ⟨⟨k, v⟩, hm, hk⟩
      rcases (mem_union _ _ _).mp hm with h | ⟨h, _⟩
      · exact ⟨_, h, hk⟩
      · exact absurd (hdk k v h).1 hk
    · rintro ⟨e, hm, hk⟩
      exact ⟨e, (mem_union _ _ _).mpr (Or.inl hm), hk⟩
  have e2 : (∀ e ∈ union (callableDefaults ps) kwargs, Keyword ps e.1 → (byPos ps args).lookup e.1 = none) ↔ ∀ e ∈ kwargs, Keyword ps e.1 → (byPos ps args).lookup e.1 = none := by
    constructor
    · intro h e hm
      exact h e ((mem_union _ _ _).mpr (Or.inl hm))
    · rintro h ⟨k, v⟩ hm hk
      rcases (mem_union _ _ _).mp hm with h' | ⟨h', _⟩
      · exact h _ h' hk
      · exact (hdk k v h').2
  rw [e1, e2]

/-! ### Classes made from optax functions -/

/-- C125: an optax function can be configured unless it requires a parameter of an unsupported type. -/
theorem c125_optax_refused (standard : X) (qs : List (OptaxParam X)) : optaxFields standard qs = none ↔
    ∃ q ∈ qs, q.param.kind ≠ .varKw ∧ q.param.kind ≠ .varPos ∧ q.annotation = .other ∧ q.param.default = none := by
  induction qs with
  | nil => simp [optaxFields]
  | cons q qs ih =>
    simp only [optaxFields, List.mem_cons, exists_eq_or_imp]
    by_cases hk : q.param.kind = .varKw ∨ q.param.kind = .varPos
    · rw [if_pos hk, ih]
      tauto
    · rw [if_neg hk]
      have hk' : q.param.kind ≠ .varKw ∧ q.param.kind ≠ .varPos := by tauto
      cases ha : q.annotation with
      | schedule => simp [ih]
      | arrayLike => simp [ih]
      | other =>
        cases hd : q.param.default with
        | none => simp [hk']
        | some v => simp [ih]

/-- The field made from a parameter. -/
theorem fields_spec (standard : X) (qs : List (OptaxParam X)) (fs : List (Str × Option X)) (h : optaxFields standard qs = some fs) :
    fs = (qs.filter fun q => q.param.single && decide (q.annotation ≠ .other)).map fun q =>
      (q.param.name, if q.annotation = .schedule then some (if q.numeric then q.param.default.getD standard else standard) else q.param.default) := by
  induction qs generalizing fs with
  | nil => simp [optaxFields] at h; subst h; rfl
  | cons q qs ih =>
    have hs := single_iff q.param
    simp only [optaxFields] at h
    by_cases hk : q.param.kind = .varKw ∨ q.param.kind = .varPos
    · rw [if_pos hk] at h
      have : q.param.single = false := by
        rw [← Bool.not_eq_true, hs]; tauto
      rw [List.filter_cons_of_neg (by simp [this])]
      exact ih fs h
    · rw [if_neg hk] at h
      have : q.param.single = true := hs.mpr (by tauto)
      cases ha : q.annotation with
      | schedule =>
        simp only [ha] at h
        obtain ⟨r, hr, rfl⟩ := Option.map_eq_some_iff.mp h
        rw [List.filter_cons_of_pos (by simp [this, ha]), List.map_cons, ih r hr]
        simp [ha]
      | arrayLike =>
        simp only [ha] at h
        obtain ⟨r, hr, rfl⟩ := Option.map_eq_some_iff.mp h
        rw [List.filter_cons_of_pos (by simp [this, ha]), List.map_cons, ih r hr]
        simp [ha]
      | other =>
        simp only [ha] at h
        rw [List.filter_cons_of_neg (by simp [ha])]
        cases hd : q.param.default with
        | none => simp [hd] at h
        | some v => simp only [hd] at h; exact ih fs h

/-- C125: `init` of a class made from an optax function calls the function with the given option for each scalar, array and schedule parameter; one that is not given has the default of the
function, except that a schedule parameter whose default is no number has the standard schedule; every other parameter keeps its default.  The call itself does not fail. -/
theorem c125_optax_init (standard : X) (qs : List (OptaxParam X)) (hn : (qs.map (·.param.name)).Nodup) (hpo : ∀ q ∈ qs, q.param.kind ≠ .posOnly) (fs : List (Str × Option X))
    (hf : optaxFields standard qs = some fs) (given object : Kw X) (ho : optaxObject fs given = some object) : ∃ b, optaxInit qs object = some b ∧ b.rest = [] ∧ b.extra = [] ∧
    ∀ q ∈ qs, q.param.kind ≠ .varPos → q.param.kind ≠ .varKw → b.values.lookup q.param.name = match q.annotation with
      | .other => q.param.default
      | .arrayLike => firstOf [given.lookup q.param.name, q.param.default]
      | .schedule => firstOf [given.lookup q.param.name, if q.numeric then q.param.default else none, some standard] := by
  have hfs := fields_spec standard qs fs hf
  unfold optaxObject at ho
  split_ifs at ho with hg
  have hfn : (fs.map (·.1)).Nodup := by
    rw [hfs, List.map_map]
    exact hn.sublist (List.filter_sublist.map _)
  obtain ⟨o1, o2, o3⟩ := mapM_lookup fs (·.1) (fun f => match given.lookup f.1 with | some v => some v | none => f.2) hfn object ho
  have hn' : ((qs.map (·.param)).map (·.name)).Nodup := by rwa [List.map_map]
  have hbp : ∀ k, (byPos (qs.map (·.param)) []).lookup k = none := by intro k; simp [byPos]
  -- every keyword is a parameter
  have hkey : ∀ e ∈ object, Keyword (qs.map (·.param)) e.1 := by
    rintro ⟨k, v⟩ hm
    have : k ∈ fs.map (·.1) := by rw [← o3]; exact List.mem_map.mpr ⟨_, hm, rfl⟩
    rw [hfs, List.map_map] at this
    obtain ⟨q, hq, rfl⟩ := List.mem_map.mp this
    obtain ⟨hq1, hq2⟩ := List.mem_filter.mp hq
    rw [Bool.and_eq_true] at hq2
    refine ⟨q.param, List.mem_map.mpr ⟨q, hq1, rfl⟩, ?_, rfl⟩
    have h1 := (single_iff q.param).mp hq2.1
    have h2 := hpo q hq1
    generalize q.param.kind = k at *
    cases k <;> simp_all
  -- the value of each parameter
  have hval : ∀ q ∈ qs, q.param.kind ≠ .varPos → q.param.kind ≠ .varKw → valueOf (qs.map (·.param)) [] object q.param = match q.annotation with
      | .other => q.param.default
      | .arrayLike => firstOf [given.lookup q.param.name, q.param.default]
      | .schedule => firstOf [given.lookup q.param.name, if q.numeric then q.param.default else none, some standard] := by
    intro q hq h1 h2
    have hk : q.param.takesKw = true := by
      rw [takesKw_iff]
      have h3 := hpo q hq
      generalize q.param.kind = k at *
      cases k <;> simp_all
    have hsing : q.param.single = true := (single_iff _).mpr ⟨h1, h2⟩
    unfold valueOf
    rw [hbp, hk]
    simp only [if_true]
    by_cases hoth : q.annotation = .other
    · have : object.lookup q.param.name = none := by
        rw [lookup_none_iff]
        intro v hm
        have : q.param.name ∈ fs.map (·.1) := by rw [← o3]; exact List.mem_map.mpr ⟨_, hm, rfl⟩
        rw [hfs, List.map_map] at this
        obtain ⟨q', hq', he⟩ := List.mem_map.mp this
        obtain ⟨hq1, hq2⟩ := List.mem_filter.mp hq'
        have : q' = q := List.inj_on_of_nodup_map hn hq1 hq he
        subst this
        simp [hoth] at hq2
      rw [this, hoth]
    · have hmem : (q.param.name, if q.annotation = .schedule then some (if q.numeric then q.param.default.getD standard else standard) else q.param.default) ∈ fs := by
        rw [hfs]
        exact List.mem_map.mpr ⟨q, List.mem_filter.mpr ⟨hq, by simp [hsing, hoth]⟩, rfl⟩
      have := o1 _ hmem
      simp only at this
      rw [this]
      have hsome := o2 _ hmem
      simp only at hsome
      cases ha : q.annotation with
      | other => exact absurd ha hoth
      | arrayLike =>
        simp only [ha, reduceCtorEq, if_false] at hsome ⊢
        cases hgv : given.lookup q.param.name <;> cases hd : q.param.default <;> simp_all [firstOf]
      | schedule =>
        simp only [if_true]
        cases hgv : given.lookup q.param.name with
        | some v => simp [firstOf]
        | none =>
          cases hnum : q.numeric with
          | false => simp [firstOf]
          | true => cases hd : q.param.default <;> simp [firstOf]
  -- all values are there
  have hall : ∀ p ∈ (qs.map (·.param)).filter (·.single), (valueOf (qs.map (·.param)) [] object p).isSome := by
    intro p hp
    obtain ⟨hp1, hp2⟩ := List.mem_filter.mp hp
    obtain ⟨q, hq, rfl⟩ := List.mem_map.mp hp1
    obtain ⟨h1, h2⟩ := (single_iff _).mp hp2
    rw [hval q hq h1 h2]
    cases ha : q.annotation with
    | other =>
      cases hd : q.param.default with
      | some v => rfl
      | none =>
        exfalso
        have := (c125_optax_refused standard qs).mpr ⟨q, hq, h2, h1, ha, hd⟩
        rw [hf] at this
        cases this
    | schedule =>
      cases given.lookup q.param.name <;> cases q.numeric <;> cases q.param.default <;> rfl
    | arrayLike =>
      have hmem : (q.param.name, q.param.default) ∈ fs := by
        rw [hfs]
        exact List.mem_map.mpr ⟨q, List.mem_filter.mpr ⟨hq, by simp [hp2, ha]⟩, by simp [ha]⟩
      have := o2 _ hmem
      simp only at this
      cases hgv : given.lookup q.param.name <;> cases hd : q.param.default <;> simp_all [firstOf]
  obtain ⟨values, hvals⟩ := mapM_exists _ (·.name) _ hall
  refine ⟨⟨values, [], []⟩, ?_, rfl, rfl, fun q hq h1 h2 => ?_⟩
  · unfold optaxInit
    rw [bind_some]
    refine ⟨by simp, fun ⟨e, he, hk⟩ => absurd (hkey e he) hk, fun e _ _ => hbp e.1, hvals, by simp, ?_⟩
    symm
    unfold unknown
    rw [List.filter_eq_nil_iff]
    intro e he
    rw [(takes_iff _ e.1).mpr (hkey e he)]
    simp
  · have hn2 : (((qs.map (·.param)).filter (·.single)).map (·.name)).Nodup := hn'.sublist (List.filter_sublist.map _)
    have := (mapM_lookup _ _ _ hn2 _ hvals).1 q.param (List.mem_filter.mpr ⟨List.mem_map.mpr ⟨q, hq, rfl⟩, (single_iff _).mpr ⟨h1, h2⟩⟩)
    simp only
    rw [this, hval q hq h1 h2]

/-! ### Examples -/

/-- `def f(x, s=2, *, k=3)`. -/
def sig : List (Param Nat) := [⟨['x'], .posOrKw, none⟩, ⟨['s'], .posOrKw, some 2⟩, ⟨['k'], .kwOnly, some 3⟩]

theorem sig_nodup : (sig.map (·.name)).Nodup := by simp [sig]

/-- With `s: 5` in the configuration, `f(1, k=9, z=7)` is the call `x=1, s=5, k=9`. -/
example : safeKwPartial sig [(['s'], 5), (['k'], 3)] [1] [(['k'], 9), (['z'], 7)] = some ⟨[(['x'], 1), (['s'], 5), (['k'], 9)], [], []⟩ := by decide +kernel

/-- The hypotheses of `c125_precedence` for that call. -/
example : (⟨[(['x'], 1), (['s'], 5), (['k'], 9)], [], []⟩ : Bound Nat).values.lookup ['s'] = some 5 :=
  (c125_precedence sig sig_nodup [(['s'], 5), (['k'], 3)] [1] [(['k'], 9), (['z'], 7)] _ (by decide +kernel) ⟨['s'], .posOrKw, some 2⟩ (by simp [sig]) (by simp)).trans (by decide +kernel)

/-- The option `q` is unknown: no call succeeds. -/
example (args : List Nat) (kwargs : Kw Nat) : safeKwPartial sig [(['q'], 5)] args kwargs = none :=
  (c125_unknown_option sig [(['q'], 5)] ['q'] 5 (by decide +kernel) (by simp [Keyword, sig]) args kwargs).1 (by simp [AnyKw, sig])

/-- A function that takes any keyword gets it. -/
example : safeKwPartial (⟨['r'], .varKw, none⟩ :: sig) [(['q'], 5)] [1] [] = some ⟨[(['x'], 1), (['s'], 2), (['k'], 3)], [], [(['q'], 5)]⟩ := by decide +kernel

/-- `f(1, 4)` works, but not after configuration with the defaults. -/
example (kwargs : Kw Nat) : bind sig [1, 4] [] = some ⟨[(['x'], 1), (['s'], 4), (['k'], 3)], [], []⟩ ∧ safeKwPartial sig (callableDefaults sig) [1, 4] kwargs = none :=
  ⟨by decide +kernel, c125_positional sig sig_nodup _ ⟨['s'], .posOrKw, some 2⟩ (by simp [sig]) rfl (by decide +kernel) [1, 4] (by decide +kernel) kwargs⟩

/-- `f(1, s=6)` works as before. -/
example : safeKwPartial sig (callableDefaults sig) [1] [(['s'], 6)] = bind sig [1] [(['s'], 6)] :=
  c125_transparent sig sig_nodup [1] [(['s'], 6)] (by simp [sig]) (by
    intro p hp hd
    simp only [sig, List.mem_cons, List.not_mem_nil, or_false] at hp
    rcases hp with rfl | rfl | rfl
    · exact absurd rfl hd
    · decide +kernel
    · decide +kernel) (Or.inr (by simp [sig]))

/-- `def adam(learning_rate: ScalarOrSchedule, b1: ArrayLike = 9, mu: dtype = 4, warm: ScalarOrSchedule = 0)`, where the last default is no number. -/
def adam : List (OptaxParam Nat) := [⟨⟨['l'], .posOrKw, none⟩, .schedule, false⟩, ⟨⟨['b'], .posOrKw, some 9⟩, .arrayLike, false⟩, ⟨⟨['m'], .kwOnly, some 4⟩, .other, false⟩, ⟨⟨['w'], .kwOnly, some 0⟩, .schedule, false⟩]

/-- Configured with `b1: 8` it is called with the standard schedule (77) for the learning rate and, instead of its default, for `warm`. -/
example : ∃ fs object, optaxFields 77 adam = some fs ∧ optaxObject fs [(['b'], 8)] = some object ∧ optaxInit adam object = some ⟨[(['l'], 77), (['b'], 8), (['m'], 4), (['w'], 77)], [], []⟩ :=
  ⟨_, _, rfl, rfl, by decide +kernel⟩

end Jaqmc.Callable.Props
