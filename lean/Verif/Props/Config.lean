import Verif.Spec.Config
/-! # Configuration: C11–C14 -/
namespace Jaqmc.Config.Props
open Jaqmc.Config Jaqmc.Config.Spec

variable {V : Type}

/-! ### Dictionaries -/

theorem lookup_set (k k' : Str) (v : Cfg V) : (d : Entries V) →
    (d.set k v).lookup k' = if k = k' then some v else d.lookup k'
  | .nil => by simp only [Entries.set, Entries.lookup]
  | .cons k0 v0 r => by
    simp only [Entries.set]
    by_cases h0 : k0 = k
    · subst h0
      simp only [if_true, Entries.lookup]
      split <;> simp_all
    · rw [if_neg h0]
      simp only [Entries.lookup]
      rw [lookup_set k k' v r]
      by_cases h : k0 = k'
      · subst h; simp [h0, Ne.symm h0]
      · simp [h]

theorem lookup_none (k : Str) : (d : Entries V) → d.lookup k = none ↔ k ∉ d.keys
  | .nil => by simp [Entries.lookup, Entries.keys]
  | .cons k0 v0 r => by
    simp only [Entries.lookup, Entries.keys, List.mem_cons, not_or]
    have := lookup_none k r
    split
    next h => subst h; simp
    next h => rw [this]; simp [Ne.symm h]

theorem wf_lookup (k : Str) (v : Cfg V) : (d : Entries V) → WF d → d.lookup k = some v → WFValue v
  | .nil => by simp [Entries.lookup]
  | .cons k0 v0 r => by
    intro h
    simp only [WF] at h
    simp only [Entries.lookup]
    split
    · intro hv; simp at hv; subst hv; exact h.2.1
    · exact wf_lookup k v r h.2.2

/-- What `deep_merge` stores under each key. -/
theorem lookup_merge (k : Str) : (o b : Entries V) → WF o →
    (mergeInto b o).lookup k = match o.lookup k with
      | none => b.lookup k
      | some v => some (mergeValue (b.lookup k) v)
  | .nil, b, _ => by simp [mergeInto, Entries.lookup]
  | .cons k0 v0 o, b, h => by
    simp only [WF] at h
    simp only [mergeInto]
    rw [lookup_merge k o _ h.2.2, lookup_set]
    simp only [Entries.lookup]
    by_cases hk : k0 = k
    · subst hk
      rw [(lookup_none k0 o).2 h.1]
      simp
    · rw [if_neg hk, if_neg hk]

theorem mergeInto_nil : (o a : Entries V) → WF o → (∀ k ∈ o.keys, k ∉ a.keys) →
    ∃ c, mergeInto a o = c ∧ ∀ k, c.lookup k = (match o.lookup k with | none => a.lookup k | some v => some v)
  | o, a, h, hd => by
    refine ⟨_, rfl, fun k => ?_⟩
    rw [lookup_merge k o a h]
    cases ho : o.lookup k with
    | none => rfl
    | some v =>
      have : k ∈ o.keys := by
        by_cases hk : k ∈ o.keys
        · exact hk
        · rw [(lookup_none k o).2 hk] at ho; simp at ho
      have : a.lookup k = none := (lookup_none k a).2 (hd k this)
      dsimp only
      rw [this]
      cases v <;> simp [mergeValue]

/-! ### C11 -/

theorem says_merge (p : List Str) (b o : Entries V) (ho : WF o) (v : V) :
    says p (deepMerge b o) = .value v ↔
      says p o = .value v ∨ (says p o = .silent ∧ says p b = .value v) := by
  induction p generalizing b o with
  | nil => simp [says]
  | cons k p ih =>
    simp only [says, deepMerge]
    rw [lookup_merge k o b ho]
    cases hk : o.lookup k with
    | none => simp
    | some x =>
      cases x with
      | leaf w =>
        simp only [mergeValue]
        by_cases hp : p = [] <;> simp [hp]
      | dict o' =>
        have ho' : WF o' := by
          have := wf_lookup k _ o ho hk
          simpa [WFValue] using this
        cases hb : b.lookup k with
        | none => simp [mergeValue]
        | some y =>
          cases y with
          | leaf w =>
            simp only [mergeValue]
            by_cases hp : p = []
            · subst hp; simp [says]
            · simp [hp]
          | dict b' =>
            simp only [mergeValue]
            exact ih b' o' ho'

/-- **C11** (several layers, lowest first, as user files are merged). The merged configuration gives an
option the value `v` exactly when some layer does and every layer after it is silent about that
option. -/
theorem c11_layers (layers : List (Entries V)) (hwf : ∀ l ∈ layers, WF l) (p : List Str) (v : V) :
    says p (mergeAll layers) = .value v ↔
      ∃ pre l post, layers = pre ++ l :: post ∧ says p l = .value v ∧ ∀ l' ∈ post, says p l' = .silent := by
  unfold mergeAll
  have nilv : ∀ p : List Str, says p (.nil : Entries V) ≠ .value v := by
    intro p; cases p <;> simp [says, Entries.lookup]
  have main : ∀ (ls : List (Entries V)) (b : Entries V), (∀ l ∈ ls, WF l) →
      (says p (ls.foldl deepMerge b) = .value v ↔
        (says p b = .value v ∧ ∀ l' ∈ ls, says p l' = .silent) ∨
        ∃ pre l post, ls = pre ++ l :: post ∧ says p l = .value v ∧ ∀ l' ∈ post, says p l' = .silent) := by
    intro ls
    induction ls with
    | nil => intro b _; simp
    | cons l ls ih =>
      intro b hw
      rw [List.foldl_cons, ih _ (fun x hx => hw x (by simp [hx])), says_merge p b l (hw l (by simp))]
      constructor
      · rintro (⟨h1 | ⟨h1, h2⟩, h3⟩ | ⟨pre, x, post, rfl, h2, h3⟩)
        · right; exact ⟨[], l, ls, rfl, h1, h3⟩
        · left; exact ⟨h2, by exact fun x hx => (List.mem_cons.1 hx).elim (fun h => h ▸ h1) (h3 x)⟩
        · right; exact ⟨l :: pre, x, post, rfl, h2, h3⟩
      · rintro (⟨h1, h2⟩ | ⟨pre, x, post, h1, h2, h3⟩)
        · left; exact ⟨.inr ⟨h2 l (by simp), h1⟩, fun x hx => h2 x (by simp [hx])⟩
        · cases pre with
          | nil => simp at h1; obtain ⟨rfl, rfl⟩ := h1; left; exact ⟨.inl h2, h3⟩
          | cons y pre => simp at h1; obtain ⟨rfl, rfl⟩ := h1; right; exact ⟨pre, x, post, rfl, h2, h3⟩
  rw [main layers .nil hwf]
  constructor
  · rintro (⟨h, _⟩ | h)
    · exact absurd h (nilv p)
    · exact h
  · exact .inr

theorem getPath_says (p : List Str) (d : Entries V) (v : V) :
    getPath p d = some (.leaf v) ↔ says p d = .value v := by
  induction p generalizing d with
  | nil => simp [getPath, says]
  | cons k p ih =>
    cases p with
    | nil =>
      simp only [getPath, says]
      cases d.lookup k with
      | none => simp
      | some x => cases x <;> simp [says]
    | cons k' p =>
      simp only [getPath]
      rw [says]
      cases hk : d.lookup k with
      | none => simp
      | some x =>
        cases x with
        | leaf w => simp
        | dict sub => simpa using ih sub

theorem getPath_none (p : List Str) (hp : p ≠ []) (d : Entries V) :
    getPath p d = none ↔ says p d = .silent ∨ says p d = .blocked := by
  induction p generalizing d with
  | nil => exact absurd rfl hp
  | cons k p ih =>
    cases p with
    | nil =>
      simp only [getPath, says]
      cases d.lookup k with
      | none => simp
      | some x => cases x <;> simp [says]
    | cons k' p =>
      simp only [getPath]
      rw [says]
      cases hk : d.lookup k with
      | none => simp
      | some x =>
        cases x with
        | leaf w => simp
        | dict sub => simpa using ih (by simp) sub

theorem says_merge_silent (p : List Str) (b o : Entries V) (ho : WF o)
    (h1 : says p o = .silent) (h2 : says p b = .silent) : says p (deepMerge b o) = .silent := by
  induction p generalizing b o with
  | nil => simp [says] at h1
  | cons k p ih =>
    simp only [says, deepMerge] at h1 h2 ⊢
    rw [lookup_merge k o b ho]
    cases hk : o.lookup k with
    | none => rw [hk] at h1; exact h2
    | some x =>
      rw [hk] at h1
      cases x with
      | leaf w => by_cases hp : p = [] <;> simp [hp] at h1
      | dict o' =>
        have ho' : WF o' := by
          have := wf_lookup k _ o ho hk
          simpa [WFValue] using this
        cases hb : b.lookup k with
        | none => simpa [mergeValue] using h1
        | some y =>
          rw [hb] at h2
          cases y with
          | leaf w => by_cases hp : p = [] <;> simp [hp] at h2
          | dict b' => exact ih b' o' ho' h1 h2

theorem splitDot_ne_nil : (s : Str) → splitDot s ≠ []
  | [] => by simp [splitDot]
  | c :: s => by
    simp only [splitDot]
    split
    · simp
    · split <;> simp

/-- **C11** Reading an option returns the command-line value if the command line gives one; else, if
the command line is silent, the user configuration's; else the preset's; else the default. -/
theorem c11_precedence (m : Manager V) (hu : WF m.user) (hc : WF m.cli) (name : Str) (default : Cfg V)
    (v : V) :
    let read := (m.getPrimitive .ok name default).1
    let p := splitDot name
    (says p m.cli = .value v → read = .ok (.leaf v)) ∧
    (says p m.cli = .silent → says p m.user = .value v → read = .ok (.leaf v)) ∧
    (says p m.cli = .silent → says p m.user = .silent → says p m.presets = .value v →
      read = .ok (.leaf v)) ∧
    (says p m.cli = .silent → says p m.user = .silent → says p m.presets = .silent →
      read = .ok default) := by
  intro read p
  have hread : ∀ w, says p m.merged = .value w → read = .ok (.leaf w) := by
    intro w hw
    have := (getPath_says p m.merged w).2 hw
    simp only [read, Manager.getPrimitive, Manager.extract]
    rw [this]
  have hm : ∀ w, says p m.merged = .value w ↔ says p m.cli = .value w ∨
      (says p m.cli = .silent ∧ (says p m.user = .value w ∨
        (says p m.user = .silent ∧ says p m.presets = .value w))) := by
    intro w
    unfold Manager.merged
    rw [says_merge p _ _ hc, says_merge p _ _ hu]
  refine ⟨?_, ?_, ?_, ?_⟩
  · intro h; exact hread v ((hm v).2 (.inl h))
  · intro h1 h2; exact hread v ((hm v).2 (.inr ⟨h1, .inl h2⟩))
  · intro h1 h2 h3; exact hread v ((hm v).2 (.inr ⟨h1, .inr ⟨h2, h3⟩⟩))
  · intro h1 h2 h3
    have hs : says p m.merged = .silent :=
      says_merge_silent p _ _ hc h1 (says_merge_silent p _ _ hu h2 h3)
    have := (getPath_none p (splitDot_ne_nil name) m.merged).2 (.inl hs)
    simp only [read, Manager.getPrimitive, Manager.extract]
    rw [this]

/-- C11, the other direction: a value read comes from one of the layers in that order, never from
elsewhere. -/
theorem c11_source (m : Manager V) (hu : WF m.user) (hc : WF m.cli) (name : Str) (v w : V)
    (h : (m.getPrimitive .ok name (.leaf w)).1 = .ok (.leaf v)) :
    let p := splitDot name
    says p m.cli = .value v ∨ (says p m.cli = .silent ∧ says p m.user = .value v) ∨
    (says p m.cli = .silent ∧ says p m.user = .silent ∧ says p m.presets = .value v) ∨
    (v = w ∧ ∀ u, says p m.cli ≠ .value u) := by
  intro p
  have hm : ∀ w, says p m.merged = .value w ↔ says p m.cli = .value w ∨
      (says p m.cli = .silent ∧ (says p m.user = .value w ∨
        (says p m.user = .silent ∧ says p m.presets = .value w))) := by
    intro w
    unfold Manager.merged
    rw [says_merge p _ _ hc, says_merge p _ _ hu]
  simp only [Manager.getPrimitive, Manager.extract] at h
  cases hg : getPath p m.merged with
  | none =>
    rw [hg] at h
    simp at h
    right; right; right
    refine ⟨h.symm, ?_⟩
    intro u hu'
    have := (getPath_says p m.merged u).2 ((hm u).2 (.inl hu'))
    rw [hg] at this; simp at this
  | some x =>
    rw [hg] at h
    simp at h
    rw [h] at hg
    rcases (hm v).1 ((getPath_says p m.merged v).1 hg) with h1 | ⟨h1, h2 | ⟨h2, h3⟩⟩
    · left; exact h1
    · right; left; exact ⟨h1, h2⟩
    · right; right; left; exact ⟨h1, h2, h3⟩

/-- C11 is not vacuous: presets, a user file and the command line each decide one option. -/
example :
    let d (k : String) (v : Cfg Nat) : Entries Nat := .cons k.toList v .nil
    let two (k : String) (a : Cfg Nat) (k' : String) (b : Cfg Nat) : Entries Nat :=
      .cons k.toList a (.cons k'.toList b .nil)
    let m : Manager Nat := ⟨d "s" (.dict (.cons "a".toList (.leaf 1) (two "b" (.leaf 1) "c" (.leaf 1)))),
      d "s" (.dict (two "b" (.leaf 2) "c" (.leaf 2))), d "s" (.dict (d "c" (.leaf 3))), []⟩
    WF m.user ∧ WF m.cli ∧
    says ["s".toList, "a".toList] m.merged = .value 1 ∧
    says ["s".toList, "b".toList] m.merged = .value 2 ∧
    says ["s".toList, "c".toList] m.merged = .value 3 ∧
    (m.getPrimitive .ok "s.d".toList (.leaf 9)).1.toOption.isSome := by
  refine ⟨by simp [WF, WFValue, Entries.keys], by simp [WF, WFValue, Entries.keys], rfl, rfl, rfl, rfl⟩

/-! ### C14 -/

theorem setPath_get (v : Cfg V) (p : List Str) (d d' : Entries V) (hp : p ≠ [])
    (h : setPath v p d = .ok d') : getPath p d' = some v := by
  induction p generalizing d d' with
  | nil => exact absurd rfl hp
  | cons k p ih =>
    cases p with
    | nil =>
      simp [setPath] at h; subst h
      simp [getPath, lookup_set]
    | cons k' p =>
      simp only [setPath] at h
      simp only [getPath]
      cases hk : d.lookup k with
      | none =>
        rw [hk] at h
        cases hs : setPath v (k' :: p) .nil with
        | error e => rw [hs] at h; simp at h
        | ok sub =>
          rw [hs] at h; simp at h; subst h
          rw [lookup_set, if_pos rfl]
          exact ih _ _ (by simp) hs
      | some x =>
        rw [hk] at h
        cases x with
        | leaf w => simp at h
        | dict sub =>
          dsimp only at h
          cases hs : setPath v (k' :: p) sub with
          | error e => rw [hs] at h; simp at h
          | ok sub' =>
            rw [hs] at h; simp at h; subst h
            rw [lookup_set, if_pos rfl]
            exact ih _ _ (by simp) hs

theorem setPath_frame (v : Cfg V) (p q : List Str) (d d' : Entries V)
    (h : setPath v p d = .ok d') (h1 : ¬ p <+: q) (h2 : ¬ q <+: p) : getPath q d' = getPath q d := by
  induction p generalizing d d' q with
  | nil => exact absurd (List.nil_prefix) h1
  | cons k p ih =>
    cases q with
    | nil => exact absurd (List.nil_prefix) h2
    | cons j q =>
      -- lookups of other keys are unchanged
      have other : ∀ x : Cfg V, k ≠ j → getPath (j :: q) (d.set k x) = getPath (j :: q) d := by
        intro x hne
        cases q with
        | nil => simp only [getPath]; rw [lookup_set, if_neg hne]
        | cons j' q => simp only [getPath]; rw [lookup_set, if_neg hne]
      cases p with
      | nil =>
        simp [setPath] at h; subst h
        apply other
        intro hkj; subst hkj
        exact h1 (by simp)
      | cons k' p =>
        by_cases hkj : k = j
        · subst hkj
          have h1' : ¬ (k' :: p) <+: q := fun hh => h1 (by simpa using hh)
          have h2' : ¬ q <+: (k' :: p) := fun hh => h2 (by simpa using hh)
          have hq : q ≠ [] := by intro hq; subst hq; exact h2' List.nil_prefix
          obtain ⟨j', q', rfl⟩ : ∃ j' q', q = j' :: q' := by
            cases q with
            | nil => exact absurd rfl hq
            | cons a b => exact ⟨a, b, rfl⟩
          simp only [setPath] at h
          simp only [getPath]
          cases hk : d.lookup k with
          | none =>
            rw [hk] at h
            cases hs : setPath v (k' :: p) .nil with
            | error e => rw [hs] at h; simp at h
            | ok sub =>
              rw [hs] at h; simp at h; subst h
              rw [lookup_set, if_pos rfl]
              dsimp only
              rw [ih _ _ _ hs h1' h2']
              cases q' <;> simp [getPath, Entries.lookup]
          | some x =>
            rw [hk] at h
            cases x with
            | leaf w => simp at h
            | dict sub =>
              dsimp only at h
              cases hs : setPath v (k' :: p) sub with
              | error e => rw [hs] at h; simp at h
              | ok sub' =>
                rw [hs] at h; simp at h; subst h
                rw [lookup_set, if_pos rfl]
                exact ih _ _ _ hs h1' h2'
        · simp only [setPath] at h
          cases hk : d.lookup k with
          | none =>
            rw [hk] at h
            cases hs : setPath v (k' :: p) .nil with
            | error e => rw [hs] at h; simp at h
            | ok sub => rw [hs] at h; simp at h; subst h; exact other _ hkj
          | some x =>
            rw [hk] at h
            cases x with
            | leaf w => simp at h
            | dict sub =>
              dsimp only at h
              cases hs : setPath v (k' :: p) sub with
              | error e => rw [hs] at h; simp at h
              | ok sub' => rw [hs] at h; simp at h; subst h; exact other _ hkj

theorem setPath_error (v : Cfg V) (p : List Str) (d : Entries V) :
    (∃ e, setPath v p d = .error e) ↔ says p d = .blocked := by
  induction p generalizing d with
  | nil => simp [setPath, says]
  | cons k p ih =>
    cases p with
    | nil =>
      simp only [setPath, says]
      cases d.lookup k with
      | none => simp
      | some x => cases x <;> simp [says]
    | cons k' p =>
      simp only [setPath]
      rw [says]
      cases hk : d.lookup k with
      | none =>
        have hn := ih .nil
        have : says (k' :: p) (.nil : Entries V) = .silent := by simp [says, Entries.lookup]
        rw [this] at hn
        cases hs : setPath v (k' :: p) .nil with
        | error e => exact absurd (hn.1 ⟨e, hs⟩) (by simp)
        | ok sub => simp
      | some x =>
        cases x with
        | leaf w => simp
        | dict sub =>
          dsimp only
          rw [← ih sub]
          cases hs : setPath v (k' :: p) sub with
          | error e => simp
          | ok sub' => simp

theorem splitDot_append (k : Str) (s : Str) (hk : '.' ∉ k) :
    splitDot (k ++ '.' :: s) = k :: splitDot s := by
  induction k with
  | nil => simp [splitDot]
  | cons c k ih =>
    simp only [List.mem_cons, not_or] at hk
    rw [List.cons_append, splitDot, if_neg (Ne.symm hk.1), ih hk.2]

theorem splitDot_single (k : Str) (hk : '.' ∉ k) : splitDot k = [k] := by
  induction k with
  | nil => rfl
  | cons c k ih =>
    simp only [List.mem_cons, not_or] at hk
    rw [splitDot, if_neg (Ne.symm hk.1), ih hk.2]

/-- Splitting a dotted name gives back its keys. -/
theorem splitDot_join (p : List Str) (hp : p ≠ []) (hd : DotFree p) : splitDot (joinDot p) = p := by
  induction p with
  | nil => exact absurd rfl hp
  | cons k p ih =>
    cases p with
    | nil => exact splitDot_single k (hd k (by simp))
    | cons k' p =>
      rw [joinDot, splitDot_append k _ (hd k (by simp)), ih (by simp) (fun x hx => hd x (by simp [hx]))]
      simp

theorem joinDot_split : (s : Str) → joinDot (splitDot s) = s
  | [] => rfl
  | c :: s => by
    have ih := joinDot_split s
    simp only [splitDot]
    split
    next h =>
      subst h
      cases hs : splitDot s with
      | nil => exact absurd hs (splitDot_ne_nil s)
      | cons x xs => rw [joinDot, ← hs, ih]; simp; simp
    next h =>
      cases hs : splitDot s with
      | nil => exact absurd hs (splitDot_ne_nil s)
      | cons x xs =>
        dsimp only
        rw [hs] at ih
        cases xs with
        | nil => simp [joinDot] at ih ⊢; exact ih
        | cons y ys => simp only [joinDot, List.cons_append] at ih ⊢; rw [ih]

theorem partitionEq_spec (key raw : Str) (h : '=' ∉ key) : partitionEq (key ++ '=' :: raw) = (key, raw) := by
  induction key with
  | nil => simp [partitionEq]
  | cons c key ih =>
    simp only [List.mem_cons, not_or] at h
    rw [List.cons_append, partitionEq, if_neg (Ne.symm h.1), ih h.2]

/-- **C14** A command line `… a.b.c=raw` applied after other overrides: it fails exactly when a proper
prefix of the path already has a non-dictionary value; otherwise reading the path gives the loaded
value (whatever `=` or `.` it contains), and every path that is neither above nor below is
unchanged. -/
theorem c14_override (load : Str → Cfg V) (earlier : List Str) (d : Entries V)
    (hd : dotlistToDict load .nil earlier = .ok d)
    (p : List Str) (raw : Str) (hp : p ≠ []) (hdot : DotFree p) (heq : ∀ k ∈ p, '=' ∉ k) :
    let r := dotlistToDict load .nil (earlier ++ [joinDot p ++ '=' :: raw])
    ((∃ e, r = .error e) ↔ says p d = .blocked) ∧
    (∀ d', r = .ok d' → getPath p d' = some (load raw) ∧
      ∀ q, ¬ p <+: q → ¬ q <+: p → getPath q d' = getPath q d) := by
  intro r
  have app : ∀ (es : List Str) (a : Entries V), dotlistToDict load a (es ++ [joinDot p ++ '=' :: raw])
      = match dotlistToDict load a es with
        | .ok d => dotlistToDict load d [joinDot p ++ '=' :: raw]
        | .error e => .error e := by
    intro es
    induction es with
    | nil => intro a; simp [dotlistToDict]
    | cons e es ih =>
      intro a
      simp only [List.cons_append, dotlistToDict]
      cases setPath (load (partitionEq e).2) (splitDot (partitionEq e).1) a with
      | ok a' => exact ih a'
      | error e => rfl
  have hne : '=' ∉ joinDot p := by
    clear r app hd hp hdot
    induction p with
    | nil => simp [joinDot]
    | cons k p ih =>
      cases p with
      | nil => exact heq k (by simp)
      | cons k' p =>
        rw [joinDot]
        · simp only [List.mem_append, List.mem_cons, not_or]
          exact ⟨heq k (by simp), by decide, ih (fun x hx => heq x (by simp [hx]))⟩
        · simp
  have hr : r = setPath (load raw) p d := by
    simp only [r]
    rw [app, hd]
    simp only [dotlistToDict, partitionEq_spec _ raw hne, splitDot_join p hp hdot]
    cases setPath (load raw) p d <;> rfl
  rw [hr]
  exact ⟨setPath_error _ _ _, fun d' h => ⟨setPath_get _ _ _ _ hp h,
    fun q h1 h2 => setPath_frame _ _ _ _ _ h h1 h2⟩⟩

/-- C14 is not vacuous: `a.b=1 a.c=x=y` sets both options; `a=1 a.b=2` is rejected. -/
example :
    let load : Str → Cfg Str := .leaf
    (∃ d, dotlistToDict load .nil ["a.b=1".toList, "a.c=x=y".toList] = .ok d ∧
      getPath ["a".toList, "b".toList] d = some (.leaf "1".toList) ∧
      getPath ["a".toList, "c".toList] d = some (.leaf "x=y".toList)) ∧
    dotlistToDict load .nil ["a=1".toList, "a.b=2".toList] = .error .notADict :=
  ⟨⟨_, rfl, rfl, rfl⟩, rfl⟩

/-! ### C12 -/

theorem dropPrefix_iff (k path s : Str) : dropPrefix k path = some s ↔ path = k ++ '.' :: s := by
  unfold dropPrefix
  split
  next h =>
    rw [List.isPrefixOf_iff_prefix] at h
    obtain ⟨t, rfl⟩ := h
    have e1 : (k ++ ['.'] ++ t).drop (k.length + 1) = t := by
      rw [show k.length + 1 = (k ++ ['.']).length by simp, List.drop_left]
    rw [e1]
    constructor
    · intro h; simp at h; simp [h]
    · intro h
      have : k ++ ['.'] ++ t = k ++ ['.'] ++ s := by simpa using h
      simp at this; simp [this]
  next h =>
    constructor
    · simp
    · rintro rfl
      exact absurd (List.isPrefixOf_iff_prefix.2 ⟨s, by simp⟩) h

mutual
theorem optionPaths_ne_nil : (d : Entries V) → ∀ p ∈ optionPaths d, p ≠ []
  | .nil => by simp [optionPaths]
  | .cons k v r => by
    intro p hp
    simp only [optionPaths, List.mem_append] at hp
    rcases hp with hp | hp
    · exact optionPathsAt_ne_nil k v p hp
    · exact optionPaths_ne_nil r p hp
theorem optionPathsAt_ne_nil (k : Str) : (v : Cfg V) → ∀ p ∈ optionPathsAt k v, p ≠ []
  | .leaf _ => by simp [optionPathsAt]
  | .dict sub => by simp only [optionPathsAt, List.mem_map]; rintro p ⟨q, _, rfl⟩; simp
end

theorem joinDot_cons (k : Str) (p : List Str) (hp : p ≠ []) : joinDot (k :: p) = k ++ '.' :: joinDot p := by
  cases p with
  | nil => exact absurd rfl hp
  | cons a b => rw [joinDot]; simp

mutual
/-- What the unused-option search reports, in terms of names. -/
theorem mem_findUnused : (d : Entries V) → (visited : List Str) → (s : Str) →
    (s ∈ findUnused visited d ↔ ∃ p ∈ optionPaths d, s = joinDot p ∧
      ∀ q, q ≠ [] → q <+: p → joinDot q ∉ visited)
  | .nil, _, _ => by simp [findUnused, optionPaths]
  | .cons k v r, visited, s => by
    simp only [findUnused, optionPaths, List.mem_append]
    rw [mem_unusedAt v k visited s, mem_findUnused r visited s]
    constructor
    · rintro (⟨p, hp, h⟩ | ⟨p, hp, h⟩)
      · exact ⟨p, .inl hp, h⟩
      · exact ⟨p, .inr hp, h⟩
    · rintro ⟨p, hp | hp, h⟩
      · exact .inl ⟨p, hp, h⟩
      · exact .inr ⟨p, hp, h⟩
theorem mem_unusedAt : (v : Cfg V) → (k : Str) → (visited : List Str) → (s : Str) →
    (s ∈ unusedAt visited k v ↔ ∃ p ∈ optionPathsAt k v, s = joinDot p ∧
      ∀ q, q ≠ [] → q <+: p → joinDot q ∉ visited)
  | .leaf w, k, visited, s => by
    simp only [unusedAt, optionPathsAt, List.mem_singleton, exists_eq_left]
    have hq : ∀ q : List Str, q ≠ [] → q <+: [k] → q = [k] := by
      intro q hq hpre
      cases q with
      | nil => exact absurd rfl hq
      | cons a q => simp at hpre; simp [hpre]
    split
    next h =>
      constructor
      · simp
      · rintro ⟨_, h2⟩; exact absurd h (h2 [k] (by simp) (List.prefix_refl _))
    next h =>
      simp only [List.mem_singleton, joinDot]
      constructor
      · intro hs
        refine ⟨hs, fun q h1 h2 => ?_⟩
        rw [hq q h1 h2]; exact h
      · rintro ⟨h1, _⟩; exact h1
  | .dict sub, k, visited, s => by
    simp only [unusedAt, optionPathsAt]
    split
    next h =>
      constructor
      · simp
      · rintro ⟨p, hp, _, h2⟩
        obtain ⟨q, _, rfl⟩ := List.mem_map.1 hp
        exact absurd h (h2 [k] (by simp) (by simp))
    next h =>
      simp only [List.mem_map]
      constructor
      · rintro ⟨s', hs', rfl⟩
        obtain ⟨p, hp, rfl, h2⟩ := (mem_findUnused sub _ s').1 hs'
        refine ⟨k :: p, ⟨p, hp, rfl⟩, (joinDot_cons k p (optionPaths_ne_nil sub p hp)).symm, ?_⟩
        intro q hq hpre
        cases q with
        | nil => exact absurd rfl hq
        | cons a q =>
          simp only [List.cons_prefix_cons] at hpre
          obtain ⟨rfl, hpre⟩ := hpre
          by_cases hq' : q = []
          · subst hq'; exact h
          · rw [joinDot_cons a q hq']
            intro hmem
            exact h2 q hq' hpre (List.mem_filterMap.2 ⟨_, hmem, (dropPrefix_iff _ _ _).2 rfl⟩)
      · rintro ⟨p, ⟨p', hp', rfl⟩, rfl, h2⟩
        refine ⟨joinDot p', (mem_findUnused sub _ _).2 ⟨p', hp', rfl, ?_⟩,
          (joinDot_cons k p' (optionPaths_ne_nil sub p' hp')).symm⟩
        intro q hq hpre hmem
        obtain ⟨name, hn, hd⟩ := List.mem_filterMap.1 hmem
        rw [dropPrefix_iff] at hd
        apply h2 (k :: q) (by simp) (by simpa using hpre)
        rw [joinDot_cons k q hq, ← hd]; exact hn
end

/-- **C12** (no configuration key contains a dot).  An option the user supplied is reported as unused
exactly when no read name is the option's path or the path of an enclosing section. -/
theorem c12_reported_partial (visited : List Str) (d : Entries V) (s : Str)
    (hdot : ∀ p ∈ optionPaths d, DotFree p) :
    s ∈ findUnused visited d ↔
      ∃ p ∈ optionPaths d, s = joinDot p ∧ ∀ name ∈ visited, ¬ splitDot name <+: p := by
  rw [mem_findUnused]
  constructor
  · rintro ⟨p, hp, hs, h⟩
    refine ⟨p, hp, hs, fun name hn hpre => ?_⟩
    apply h (splitDot name) (splitDot_ne_nil name) hpre
    rw [joinDot_split]; exact hn
  · rintro ⟨p, hp, hs, h⟩
    refine ⟨p, hp, hs, fun q hq hpre hmem => ?_⟩
    apply h _ hmem
    have hqd : DotFree q := fun k hk => hdot p hp k (hpre.subset hk)
    rw [splitDot_join q hq hqd]; exact hpre

/-- **C12** (no configuration key contains a dot).  After any sequence of reads, finishing stops the
program exactly when the user file or the command line contains an option that was never read, neither
itself nor through an enclosing section, unless this check is switched off. -/
theorem c12_finalize_partial (m : Manager V) (raiseOnUnused : Bool)
    (hu : ∀ p ∈ optionPaths m.user, DotFree p) (hc : ∀ p ∈ optionPaths m.cli, DotFree p) :
    (m.finalize raiseOnUnused).2 = true ↔
      raiseOnUnused = true ∧ ∃ p, (p ∈ optionPaths m.user ∨ p ∈ optionPaths m.cli) ∧
        ∀ name ∈ m.visited, ¬ splitDot name <+: p := by
  have ne : ∀ l : List Str, l ≠ [] ↔ ∃ s, s ∈ l := by
    intro l; cases l with
    | nil => simp
    | cons a l => exact ⟨fun _ => ⟨a, by simp⟩, fun _ => by simp⟩
  simp only [Manager.finalize, Bool.and_eq_true, Bool.not_eq_true', List.isEmpty_eq_false_iff]
  rw [ne, and_comm]
  simp only [List.mem_append]
  constructor
  · rintro ⟨h1, s, hs | hs⟩
    · obtain ⟨p, hp, _, h⟩ := (c12_reported_partial _ _ _ hu).1 hs
      exact ⟨h1, p, .inl hp, h⟩
    · obtain ⟨p, hp, _, h⟩ := (c12_reported_partial _ _ _ hc).1 hs
      exact ⟨h1, p, .inr hp, h⟩
  · rintro ⟨h1, p, hp | hp, h⟩
    · exact ⟨h1, joinDot p, .inl ((c12_reported_partial _ _ _ hu).2 ⟨p, hp, rfl, h⟩)⟩
    · exact ⟨h1, joinDot p, .inr ((c12_reported_partial _ _ _ hc).2 ⟨p, hp, rfl, h⟩)⟩

/-- Each read is recorded. -/
theorem c12_reads_recorded (m : Manager V) (name other : Str) :
    other ∈ (m.extract name).2.visited ↔ other = name ∨ other ∈ m.visited := by
  simp [Manager.extract]

/-- C12 in full fails: a YAML key that itself contains a dot (`"train.lr": 5`) is not read by
`get("train.lr")`, which returns the default, and is not reported either. -/
theorem c12_dotted_key_ignored :
    let m : Manager Nat := ⟨.nil, .cons "a.b".toList (.leaf 5) .nil, .nil, []⟩
    let r := m.getPrimitive .ok "a.b".toList (.leaf 1)
    r.1 = .ok (.leaf 1) ∧ r.2.finalize true = ([], false) := by
  exact ⟨rfl, rfl⟩

/-- C12 is not vacuous: a misspelt option is reported, the others are not. -/
example :
    let d : Entries Nat := .cons "train".toList (.dict (.cons "lr".toList (.leaf 1)
      (.cons "itterations".toList (.leaf 2) .nil))) .nil
    optionPaths d = [["train".toList, "lr".toList], ["train".toList, "itterations".toList]] ∧
    findUnused ["train.lr".toList, "train.iterations".toList] d = ["train.itterations".toList] := by
  exact ⟨rfl, rfl⟩

/-! ### C13 -/

theorem lookup_erase (k k' : Str) : (d : Entries V) →
    (d.erase k).lookup k' = if k = k' then none else d.lookup k'
  | .nil => by simp [Entries.erase, Entries.lookup]
  | .cons k0 v0 r => by
    simp only [Entries.erase]
    have ih := lookup_erase k k' r
    split
    next h =>
      subst h
      rw [ih]
      by_cases h' : k0 = k' <;> simp [Entries.lookup, h']
    next h =>
      simp only [Entries.lookup, ih]
      by_cases h' : k0 = k'
      · subst h'; simp [Ne.symm h]
      · simp [h']

theorem wf_erase (k : Str) : (d : Entries V) → WF d → WF (d.erase k)
  | .nil, _ => by simp [Entries.erase, WF]
  | .cons k0 v0 r, h => by
    simp only [WF] at h
    simp only [Entries.erase]
    have ih := wf_erase k r h.2.2
    split
    · exact ih
    · simp only [WF]
      refine ⟨?_, h.2.1, ih⟩
      rw [← lookup_none, lookup_erase]
      split
      · rfl
      · exact (lookup_none _ _).2 h.1

/-- **C13** (the supplied section is a dictionary).  If the effective configuration gives a section as
a dictionary with a value for the option `k`, then constructing the section either fails or yields
an object with that value. -/
theorem c13_section_partial (m : Manager V) (fields : List Str) (base : Entries V) (name : Str)
    (sec : Entries V) (hsec : getPath (splitDot name) m.merged = some (.dict sec)) (hwf : WF sec)
    (k : Str) (v : V) (hk : k ≠ "module".toList) (hv : sec.lookup k = some (.leaf v)) :
    (∃ e, (m.getDataclass fields base name).1 = .error e) ∨
    (∃ obj, (m.getDataclass fields base name).1 = .ok obj ∧ obj.lookup k = some (.leaf v)) := by
  simp only [Manager.getDataclass, Manager.extract, hsec, sectionData, fromDict]
  split
  · right
    refine ⟨_, rfl, ?_⟩
    rw [deepMerge, lookup_merge k _ _ (wf_erase _ sec hwf), lookup_erase, if_neg (Ne.symm hk), hv]
    simp [mergeValue]
  · left; exact ⟨_, rfl⟩

/-- **C13** for containers (plain dictionaries with a default): the result says, at every option path, what the
user's section says; where the user's section is silent the default is kept; without a user value the default is
returned as it is. A user value that is not a dictionary replaces the default. -/
theorem c13_container (m : Manager V) (name : Str) (default : Entries V) :
    (∀ u, getPath (splitDot name) m.merged = some (.dict u) → WF u →
      ∃ r, (m.getContainer name (.dict default)).1 = .dict r ∧
        (∀ p v, says p u = .value v → says p r = .value v) ∧
        (∀ p v, says p u = .silent → (says p default = .value v ↔ says p r = .value v))) ∧
    (∀ v, getPath (splitDot name) m.merged = some (.leaf v) →
      (m.getContainer name (.dict default)).1 = .leaf v) ∧
    (getPath (splitDot name) m.merged = none → (m.getContainer name (.dict default)).1 = .dict default) ∧
    (m.getContainer name (.dict default)).2.visited = name :: m.visited := by
  refine ⟨fun u hu hw => ?_, fun v hv => ?_, fun hn => ?_, rfl⟩
  · refine ⟨deepMerge default u, ?_, fun p v hp => ?_, fun p v hp => ?_⟩
    · simp only [Manager.getContainer, Manager.extract, hu]
    · exact (says_merge p default u hw v).2 (.inl hp)
    · rw [says_merge p default u hw v, hp]
      simp
  · simp only [Manager.getContainer, Manager.extract, hv]
  · simp only [Manager.getContainer, Manager.extract, hn]

/-- `c13_container` is not vacuous: the user changes one of two default entries and adds a third. -/
example :
    let e (k : String) (v : Cfg Nat) (r : Entries Nat) : Entries Nat := .cons k.toList v r
    let u := e "b" (.leaf 5) (e "c" (.leaf 6) .nil)
    let m : Manager Nat := ⟨.nil, e "box" (.dict u) .nil, .nil, []⟩
    getPath (splitDot "box".toList) m.merged = some (.dict u) ∧ WF u ∧
    (m.getContainer "box".toList (.dict (e "a" (.leaf 1) (e "b" (.leaf 2) .nil)))).1
      = .dict (e "a" (.leaf 1) (e "b" (.leaf 5) (e "c" (.leaf 6) .nil))) := by
  refine ⟨rfl, by simp [WF, WFValue, Entries.keys], rfl⟩

/-- C13: an option that is no field of the section is always an error. -/
theorem c13_unknown_field (m : Manager V) (fields : List Str) (base : Entries V) (name : Str)
    (sec : Entries V) (hsec : getPath (splitDot name) m.merged = some (.dict sec)) (hwf : WF sec)
    (k : Str) (hk : k ≠ "module".toList) (hmem : k ∈ sec.keys) (hf : k ∉ fields) :
    (m.getDataclass fields base name).1 = .error .serde := by
  simp only [Manager.getDataclass, Manager.extract, hsec, sectionData, fromDict]
  rw [if_neg]
  intro hall
  rw [List.all_eq_true] at hall
  have hin : k ∈ (deepMerge base (sec.erase "module".toList)).keys := by
    by_cases h : k ∈ (deepMerge base (sec.erase "module".toList)).keys
    · exact h
    · exfalso
      rw [← lookup_none, deepMerge, lookup_merge k _ _ (wf_erase _ sec hwf), lookup_erase,
        if_neg (Ne.symm hk)] at h
      cases hl : sec.lookup k with
      | none => exact (lookup_none k sec).1 hl hmem
      | some v => rw [hl] at h; simp at h
  have := hall k hin
  simp at this
  exact hf this

/-- C13 in full fails: whatever non-dictionary value the user gives for a section, the section is built
as if nothing had been given, and finishing the configuration reports nothing. -/
theorem c13_scalar_section_dropped (fields : List Str) (base : Entries V) (k : Str) (hk : '.' ∉ k) (v : V) :
    let m : Manager V := ⟨.nil, .cons k (.leaf v) .nil, .nil, []⟩
    let m0 : Manager V := ⟨.nil, .nil, .nil, []⟩
    (m.getDataclass fields base k).1 = (m0.getDataclass fields base k).1 ∧
    (m.getDataclass fields base k).2.finalize true = ([], false) := by
  intro m m0
  constructor
  · simp only [Manager.getDataclass, Manager.extract, splitDot_single k hk, m, m0, Manager.merged,
      deepMerge, mergeInto, getPath, Entries.lookup, Entries.set, mergeValue, if_true, sectionData]
  · simp [Manager.getDataclass, Manager.extract, Manager.finalize, m, findUnused, unusedAt]

/-- C13 is not vacuous. -/
example :
    let m : Manager Nat := ⟨.nil, .cons "train".toList (.dict (.cons "lr".toList (.leaf 3) .nil)) .nil, .nil, []⟩
    (m.getDataclass ["lr".toList] (.cons "lr".toList (.leaf 1) .nil) "train".toList).1
      = .ok (.cons "lr".toList (.leaf 3) .nil) ∧
    (m.getDataclass ["x".toList] .nil "train".toList).1 = .error .serde := by
  exact ⟨rfl, rfl⟩

/-! ### C52 -/

theorem mem_keys_set (k j : Str) (v : Cfg V) : (d : Entries V) → (j ∈ (d.set k v).keys ↔ j = k ∨ j ∈ d.keys)
  | .nil => by simp [Entries.set, Entries.keys]
  | .cons k0 v0 r => by
    simp only [Entries.set]
    split
    next h => subst h; simp [Entries.keys]
    next h =>
      simp only [Entries.keys, List.mem_cons, mem_keys_set k j v r]
      constructor
      · rintro (h | h | h) <;> simp [h]
      · rintro (h | h | h) <;> simp [h]

theorem nodup_set (k : Str) (v : Cfg V) : (d : Entries V) → d.keys.Nodup → (d.set k v).keys.Nodup
  | .nil, _ => by simp [Entries.set, Entries.keys]
  | .cons k0 v0 r, h => by
    simp only [Entries.keys, List.nodup_cons] at h
    simp only [Entries.set]
    split
    next hk => subst hk; simp only [Entries.keys, List.nodup_cons]; exact h
    next hk =>
      simp only [Entries.keys, List.nodup_cons]
      refine ⟨?_, nodup_set k v r h.2⟩
      rw [mem_keys_set]
      simp [hk, h.1]

theorem nodup_merge : (o b : Entries V) → b.keys.Nodup → (mergeInto b o).keys.Nodup
  | .nil, b, h => by simpa [mergeInto] using h
  | .cons k v o, b, h => by
    simp only [mergeInto]
    exact nodup_merge o _ (nodup_set _ _ _ h)

theorem mem_keys_drop (isNone : V → Bool) (k : Str) : (d : Entries V) →
    k ∈ (collectionItems.drop isNone d).keys → k ∈ d.keys
  | .nil => by simp [collectionItems.drop]
  | .cons k0 (.leaf v0) r => by
    simp only [collectionItems.drop, Entries.keys, List.mem_cons]
    intro h
    split at h
    · exact .inr (mem_keys_drop isNone k r h)
    · simp only [Entries.keys, List.mem_cons] at h
      rcases h with h | h
      · exact .inl h
      · exact .inr (mem_keys_drop isNone k r h)
  | .cons k0 (.dict v0) r => by
    simp only [collectionItems.drop, Entries.keys, List.mem_cons]
    rintro (h | h)
    · exact .inl h
    · exact .inr (mem_keys_drop isNone k r h)

theorem lookup_drop (isNone : V → Bool) (k : Str) : (d : Entries V) → d.keys.Nodup →
    (collectionItems.drop isNone d).lookup k = match d.lookup k with
      | some (.leaf v) => if isNone v then none else some (.leaf v)
      | x => x
  | .nil, _ => by simp [collectionItems.drop, Entries.lookup]
  | .cons k0 (.leaf v0) r, h => by
    simp only [Entries.keys, List.nodup_cons] at h
    have ih := lookup_drop isNone k r h.2
    have hno : (collectionItems.drop isNone r).lookup k0 = none :=
      (lookup_none _ _).2 (fun hm => h.1 (mem_keys_drop isNone k0 r hm))
    simp only [collectionItems.drop, Entries.lookup]
    by_cases hk : k0 = k
    · subst hk
      by_cases hn : isNone v0 <;> simp [hn, hno, Entries.lookup]
    · by_cases hn : isNone v0 <;> simp [hn, hk, ih, Entries.lookup]
  | .cons k0 (.dict v0) r, h => by
    simp only [Entries.keys, List.nodup_cons] at h
    have ih := lookup_drop isNone k r h.2
    simp only [collectionItems.drop, Entries.lookup]
    by_cases hk : k0 = k
    · simp [hk]
    · simp [hk, ih]

/-- **C52** Which components a collection contains: a default component the user does not mention is
kept unchanged; one the user sets to `null` is absent; one the user configures with a dictionary
is present with the user's options merged over the default's; a new component is added; and nothing
else is present. -/
theorem c52_collection (isNone : V → Bool) (defaults user : Entries V)
    (hd : defaults.keys.Nodup) (hu : WF user) (hdn : ∀ k v, defaults.lookup k = some (.leaf v) → isNone v = false)
    (k : Str) :
    let items := collectionItems isNone defaults (some user)
    (user.lookup k = none → items.lookup k = defaults.lookup k) ∧
    (∀ v, user.lookup k = some (.leaf v) → isNone v = true → items.lookup k = none) ∧
    (∀ v, user.lookup k = some (.leaf v) → isNone v = false → items.lookup k = some (.leaf v)) ∧
    (∀ u b, user.lookup k = some (.dict u) → defaults.lookup k = some (.dict b) →
      items.lookup k = some (.dict (deepMerge b u))) ∧
    (∀ u, user.lookup k = some (.dict u) → defaults.lookup k = none →
      items.lookup k = some (.dict u)) := by
  intro items
  have hit : items.lookup k = match (deepMerge defaults user).lookup k with
      | some (.leaf v) => if isNone v then none else some (.leaf v)
      | x => x := lookup_drop isNone k _ (nodup_merge user defaults hd)
  rw [deepMerge, lookup_merge k user defaults hu] at hit
  refine ⟨?_, ?_, ?_, ?_, ?_⟩
  · intro h
    rw [hit, h]
    dsimp only
    cases hl : defaults.lookup k with
    | none => rfl
    | some x =>
      cases x with
      | leaf v => simp [hdn k v hl]
      | dict d => rfl
  · intro v h hn; rw [hit, h]; simp [mergeValue, hn]
  · intro v h hn; rw [hit, h]; simp [mergeValue, hn]
  · intro u b h hb; rw [hit, h, hb]; simp [mergeValue, deepMerge]
  · intro u h hb; rw [hit, h, hb]; simp [mergeValue]

/-- C52 is not vacuous: two default writers, one disabled, one new. -/
example :
    let mk (s : String) : Cfg (Option String) := .dict (.cons "module".toList (.leaf (some s)) .nil)
    let defaults := Entries.cons "csv".toList (mk "csv") (.cons "console".toList (mk "console") .nil)
    let user := Entries.cons "csv".toList (.leaf none) (.cons "h5".toList (mk "hdf5") .nil)
    (collectionItems Option.isNone defaults (some user)).keys = ["console".toList, "h5".toList] := by
  decide

end Jaqmc.Config.Props
