import Verif.Spec.Misc
import Verif.Lemmas.CheckpointDir
/-! # Console fields, object references, wiring, configuration snapshots: C40, C46, C47, C48 -/
namespace Jaqmc.Misc.Props
open Jaqmc.Misc Jaqmc.Misc.Spec
open Jaqmc.Checkpoint (decimal)

/-! ### C46 -/

theorem splitFirst_none {c : Char} {s : Str} (h : c ∉ s) : splitFirst c s = none := by
  induction s with
  | nil => rfl
  | cons x xs ih =>
    simp only [List.mem_cons, not_or] at h
    simp [splitFirst, Ne.symm h.1, ih h.2]

theorem splitFirst_some {c : Char} {a : Str} (b : Str) (h : c ∉ a) :
    splitFirst c (a ++ c :: b) = some (a, b) := by
  induction a with
  | nil => simp [splitFirst]
  | cons x xs ih =>
    simp only [List.mem_cons, not_or] at h
    simp [splitFirst, Ne.symm h.1, ih h.2]

theorem splitLast_some {c : Char} {b : Str} (a : Str) (h : c ∉ b) :
    splitLast c (a ++ c :: b) = some (a, b) := by
  have : (a ++ c :: b).reverse = b.reverse ++ c :: a.reverse := by simp
  simp [splitLast, this, splitFirst_some a.reverse (a := b.reverse) (by simpa using h)]

theorem splitLast_none {c : Char} {s : Str} (h : c ∉ s) : splitLast c s = none := by
  simp [splitLast, splitFirst_none (s := s.reverse) (by simpa using h)]

theorem exists_last {c : Char} {s : Str} (h : c ∈ s) : ∃ a b, s = a ++ c :: b ∧ c ∉ b := by
  induction s with
  | nil => simp at h
  | cons x xs ih =>
    by_cases hx : c ∈ xs
    · obtain ⟨a, b, rfl, hb⟩ := ih hx
      exact ⟨x :: a, b, rfl, hb⟩
    · have : x = c := by
        rcases List.mem_cons.1 h with rfl | h
        · rfl
        · exact absurd h hx
      exact ⟨[], xs, by simp [this], hx⟩

/-- **C46** (formats with a digit; keys whose last colon segment has no digit when there is no format).
A field written `[alias=]key[:format]` is parsed back into alias, key and format.  In full the
property is false: see `c46_key_with_digit`, `c46_format_without_digit`, `c46_equals_in_format`. -/
theorem c46_parse_partial (isDigit : Char → Bool) (alias : Option Str) (key : Str) (fmt : Option Str)
    (ha : ∀ a, alias = some a → '=' ∉ a)
    (hk : alias = none → '=' ∉ key ∧ ∀ f, fmt = some f → '=' ∉ f)
    (hf : ∀ f, fmt = some f → ':' ∉ f ∧ ∃ c ∈ f, isDigit c = true)
    (hn : fmt = none → ∀ a b, key = a ++ ':' :: b → ':' ∉ b → ∀ c ∈ b, isDigit c = false) :
    parseField isDigit (writeField alias key fmt) = ⟨key, alias, fmt⟩ := by
  have hrest : ∀ al, parseRest isDigit al (key ++ formatPart fmt)
      = ⟨key, al, fmt⟩ := by
    intro al
    cases fmt with
    | some f =>
      obtain ⟨h1, c, hc, hd⟩ := hf f rfl
      simp only [parseRest, formatPart, splitLast_some key h1]
      rw [if_pos]
      rw [List.any_eq_true]; exact ⟨c, hc, hd⟩
    | none =>
      simp only [formatPart, List.append_nil]
      unfold parseRest
      by_cases hc : ':' ∈ key
      · obtain ⟨a, b, rfl, hb⟩ := exists_last hc
        rw [splitLast_some a hb]
        dsimp only
        rw [if_neg]
        rw [List.any_eq_true]
        rintro ⟨c, hcb, hd⟩
        rw [hn rfl a b rfl hb c hcb] at hd
        exact absurd hd (by simp)
      · rw [splitLast_none hc]
  unfold parseField writeField
  cases alias with
  | some a =>
    dsimp only
    rw [splitFirst_some _ (ha a rfl)]
    exact hrest (some a)
  | none =>
    obtain ⟨h1, h2⟩ := hk rfl
    dsimp only
    rw [splitFirst_none]
    · exact hrest none
    · cases fmt with
      | none => simpa [formatPart] using h1
      | some f => simpa [formatPart] using ⟨h1, h2 f rfl⟩

theorem splitAll_no {c : Char} {s : Str} (h : c ∉ s) : splitAll c s = [s] := by
  induction s with
  | nil => rfl
  | cons x xs ih =>
    simp only [List.mem_cons, not_or] at h
    simp [splitAll, Ne.symm h.1, ih h.2]

theorem splitAll_cons {c : Char} {a : Str} (b : Str) (h : c ∉ a) :
    splitAll c (a ++ c :: b) = a :: splitAll c b := by
  induction a with
  | nil => simp [splitAll]
  | cons x xs ih =>
    simp only [List.mem_cons, not_or] at h
    simp [splitAll, Ne.symm h.1, ih h.2]

theorem splitAll_commaList (l : List Str) (hne : l ≠ []) (h : ∀ s ∈ l, ',' ∉ s) :
    splitAll ',' (commaList l) = l := by
  induction l with
  | nil => exact absurd rfl hne
  | cons s ss ih =>
    cases ss with
    | nil => simp [commaList, splitAll_no (h s (by simp))]
    | cons t ts =>
      simp only [commaList]
      rw [splitAll_cons _ (h s (by simp)), ih (by simp) (fun x hx => h x (by simp [hx]))]

theorem dropWhile_all {p : Char → Bool} {a b : Str} (h : ∀ c ∈ a, p c = true)
    (hb : ∀ c, b.head? = some c → p c = false) : (a ++ b).dropWhile p = b := by
  induction a with
  | nil =>
    cases b with
    | nil => rfl
    | cons x xs => simp [hb x rfl]
  | cons x xs ih =>
    simp only [List.cons_append]
    rw [List.dropWhile_cons, if_pos (h x (by simp))]
    exact ih (fun c hc => h c (by simp [hc]))

theorem strip_pad {p : Char → Bool} {a s b : Str} (ha : ∀ c ∈ a, p c = true) (hb : ∀ c ∈ b, p c = true)
    (h1 : ∀ c, s.head? = some c → p c = false) (h2 : ∀ c, s.getLast? = some c → p c = false)
    (hs : s ≠ []) : strip p (a ++ s ++ b) = s := by
  unfold strip
  rw [List.append_assoc, dropWhile_all ha, List.reverse_append, dropWhile_all, List.reverse_reverse]
  · simpa using hb
  · intro c hc; apply h2; rw [← List.head?_reverse]; exact hc
  · intro c hc
    cases s with
    | nil => exact absurd rfl hs
    | cons x xs => exact h1 c hc

/-- **C46** for the whole `fields` option: a comma-separated list of fields, with blanks around them,
gives the list of their meanings, when no field contains a comma. -/
theorem c46_list_partial (isDigit isSpace : Char → Bool) (items : List (Str × Str × Str)) (hne : items ≠ [])
    (hc : ∀ i ∈ items, ',' ∉ i.1 ∧ ',' ∉ i.2.1 ∧ ',' ∉ i.2.2)
    (hb : ∀ i ∈ items, (∀ c ∈ i.1, isSpace c = true) ∧ (∀ c ∈ i.2.2, isSpace c = true))
    (hs : ∀ i ∈ items, i.2.1 ≠ [] ∧ (∀ c, i.2.1.head? = some c → isSpace c = false) ∧
      (∀ c, i.2.1.getLast? = some c → isSpace c = false)) :
    parseFields isDigit isSpace (commaList (items.map (fun i => i.1 ++ i.2.1 ++ i.2.2)))
      = items.map (fun i => parseField isDigit i.2.1) := by
  unfold parseFields
  rw [splitAll_commaList]
  · rw [List.map_map]
    apply List.map_congr_left
    intro i hi
    simp only [Function.comp_apply]
    rw [strip_pad (hb i hi).1 (hb i hi).2 (hs i hi).2.1 (hs i hi).2.2 (hs i hi).1]
  · simpa using hne
  · intro s hs'
    obtain ⟨i, hi, rfl⟩ := List.mem_map.1 hs'
    have := hc i hi
    simp [this.1, this.2.1, this.2.2]

/-- C46 in full fails: a statistic whose name ends in a colon segment with a digit loses it. -/
theorem c46_key_with_digit :
    parseField Char.isDigit (writeField none "density:spin2".toList none)
      = ⟨"density".toList, none, some "spin2".toList⟩ := by decide

/-- C46 in full fails: a format without a digit (`e`) becomes part of the key. -/
theorem c46_format_without_digit :
    parseField Char.isDigit (writeField none "loss".toList (some "e".toList))
      = ⟨"loss:e".toList, none, none⟩ := by decide

/-- C46 in full fails: without an alias, an `=` in the format (a valid Python alignment) is taken for
an alias. -/
theorem c46_equals_in_format :
    parseField Char.isDigit (writeField none "loss".toList (some "=+10.2f".toList))
      = ⟨"+10.2f".toList, some "loss:".toList, none⟩ := by decide

/-- C46 in full fails: a thousands separator in the format splits the field in two. -/
theorem c46_comma_in_format :
    parseFields Char.isDigit Char.isWhitespace (writeField none "loss".toList (some ",.2f".toList))
      = [⟨"loss:".toList, none, none⟩, ⟨".2f".toList, none, none⟩] := by decide

/-- C46 is not vacuous: the hypotheses hold of the documented examples. -/
example : parseField Char.isDigit (writeField (some "Lz".toList) "ang:z".toList (some "+.4f".toList))
    = ⟨"ang:z".toList, some "Lz".toList, some "+.4f".toList⟩ :=
  c46_parse_partial _ _ _ _ (by decide) (by simp)
    (by intro f hf; simp at hf; subst hf; exact ⟨by decide, '4', by decide, by decide⟩) (by simp)

/-! ### C47 -/

variable {O V : Type}

theorem import_names (imp : Imports O) (package : Option Str) (name : Str)
    (hbody : ∀ pkg, package = some pkg → imp.relative pkg name ≠ some (.error .moduleNotFound)) :
    ∀ r, Names imp package name r ↔ importModuleOrFile imp name package = r := by
  intro r
  unfold importModuleOrFile
  constructor
  · intro h
    cases h with
    | file h => rw [if_pos h]
    | own pkg r hp hk hr =>
      rw [if_neg hp, hk]; dsimp only; rw [hr]
      have := hbody pkg hk
      rw [hr] at this
      cases r with
      | ok m => rfl
      | error e => cases e <;> first | rfl | exact absurd rfl this
    | absoluteInPackage pkg hp hk hr => rw [if_neg hp, hk]; dsimp only; rw [hr]
    | absolute hp hk => rw [if_neg hp, hk]
  · intro h
    by_cases hp : ['.', 'p', 'y'] <:+ name
    · rw [if_pos hp] at h; subst h; exact .file hp
    · rw [if_neg hp] at h
      cases hk : package with
      | none => rw [hk] at h; dsimp only at h; subst h; exact .absolute hp rfl
      | some pkg =>
        rw [hk] at h; dsimp only at h
        cases hr : imp.relative pkg name with
        | none => rw [hr] at h; subst h; exact .absoluteInPackage pkg hp rfl hr
        | some s =>
          have := hbody pkg hk
          rw [hr] at h this
          refine .own pkg r hp rfl ?_
          rw [hr]; congr 1
          cases s with
          | ok m => exact h
          | error e => cases e <;> first | exact h | exact absurd rfl this

/-- **C47** (the package's module, if present, does not fail for a missing import of its own).
`module:name` resolves to attribute `name` of the named module. -/
theorem c47_explicit_partial (imp : Imports O) (package : Option Str) (m n : Str) (hm : ':' ∉ m) (hn : ':' ∉ n)
    (hne : n ≠ [])
    (hbody : ∀ pkg, package = some pkg → imp.relative pkg m ≠ some (.error .moduleNotFound)) (o : O) :
    resolveObject imp package (m ++ ':' :: n) = .ok o ↔
      ∃ M, Names imp package m (.ok M) ∧ M.attrs n = some (some o) := by
  unfold resolveObject
  rw [splitAll_cons _ hm, splitAll_no hn]
  simp only [resolveIn, import_names imp package m hbody]
  cases himp : importModuleOrFile imp m package with
  | error e => simp
  | ok M =>
    simp only [hne, if_false, Except.ok.injEq, exists_eq_left']
    cases hattr : M.attrs n with
    | none => simp
    | some x => cases x <;> simp

/-- **C47** (same condition) A reference without a name, `module` or `module:`, resolves to the first
exported name of the module, and raises `ValueError` when nothing is exported. -/
theorem c47_default_partial (imp : Imports O) (package : Option Str) (m : Str) (hm : ':' ∉ m)
    (hbody : ∀ pkg, package = some pkg → imp.relative pkg m ≠ some (.error .moduleNotFound)) :
    resolveObject imp package (m ++ [':']) = resolveObject imp package m ∧
    (∀ o, resolveObject imp package m = .ok o ↔
      ∃ M n ns, Names imp package m (.ok M) ∧ M.all = n :: ns ∧ M.attrs n = some (some o)) ∧
    (∀ M, Names imp package m (.ok M) → M.all = [] → resolveObject imp package m = .error .valueError) := by
  refine ⟨?_, ?_, ?_⟩
  · unfold resolveObject
    rw [splitAll_cons _ hm, splitAll_no hm]
    simp [splitAll]
  · intro o
    unfold resolveObject
    rw [splitAll_no hm]
    simp only [resolveIn, import_names imp package m hbody]
    cases himp : importModuleOrFile imp m package with
    | error e => simp
    | ok M =>
      simp only [if_true, Except.ok.injEq, exists_and_left, exists_eq_left']
      cases hall : M.all with
      | nil => simp
      | cons n ns =>
        simp only [List.cons.injEq]
        cases hattr : M.attrs n with
        | none =>
          simp only [reduceCtorEq, false_iff, not_exists, not_and]
          rintro n' ns' ⟨rfl, rfl⟩; rw [hattr]; simp
        | some x =>
          cases x with
          | none =>
            simp only [reduceCtorEq, false_iff, not_exists, not_and]
            rintro n' ns' ⟨rfl, rfl⟩; rw [hattr]; simp
          | some x =>
            constructor
            · intro h; exact ⟨n, ns, ⟨rfl, rfl⟩, by rw [hattr]; simpa using h⟩
            · rintro ⟨n', ns', ⟨rfl, rfl⟩, h⟩; rw [hattr] at h; simpa using h
  · intro M hM hall
    rw [import_names imp package m hbody] at hM
    unfold resolveObject
    rw [splitAll_no hm]
    simp [resolveIn, hM, hall]

/-- **C47** (same condition) A name the module does not have raises `AttributeError`; a name bound to `None`
raises `ValueError`; a module that cannot be imported raises its import error. -/
theorem c47_errors_partial (imp : Imports O) (package : Option Str) (m n : Str) (hm : ':' ∉ m) (hn : ':' ∉ n)
    (hne : n ≠ [])
    (hbody : ∀ pkg, package = some pkg → imp.relative pkg m ≠ some (.error .moduleNotFound)) :
    (∀ M, Names imp package m (.ok M) → M.attrs n = none →
      resolveObject imp package (m ++ ':' :: n) = .error .attributeError) ∧
    (∀ M, Names imp package m (.ok M) → M.attrs n = some none →
      resolveObject imp package (m ++ ':' :: n) = .error .valueError) ∧
    (∀ e, Names imp package m (.error e) → resolveObject imp package (m ++ ':' :: n) = .error e) := by
  refine ⟨?_, ?_, ?_⟩ <;> intro M hM <;> rw [import_names imp package m hbody] at hM <;> unfold resolveObject <;>
    rw [splitAll_cons _ hm, splitAll_no hn]
  · intro h; simp [resolveIn, hM, hne, h]
  · intro h; simp [resolveIn, hM, hne, h]
  · simp [resolveIn, hM]

/-- **C47** Malformed references (two or more colons) raise `ValueError`, whatever can be imported. -/
theorem c47_malformed (imp : Imports O) (package : Option Str) (a b c : Str) :
    resolveObject imp package (a ++ ':' :: b ++ ':' :: c) = .error .valueError := by
  have key : ∀ s : Str, splitAll ':' s ≠ [] := by
    intro s
    cases s with
    | nil => simp [splitAll]
    | cons x xs => simp only [splitAll]; split <;> (try split) <;> simp
  have len : ∀ (a b : Str), (splitAll ':' (a ++ ':' :: b)).length
      = (splitAll ':' a).length + (splitAll ':' b).length := by
    intro a b
    induction a with
    | nil => simp [splitAll]; omega
    | cons x xs ih =>
      simp only [List.cons_append, splitAll]
      split
      · simp only [List.length_cons, ih]; omega
      · have h1 := key (xs ++ ':' :: b)
        have h2 := key xs
        cases e1 : splitAll ':' (xs ++ ':' :: b) with
        | nil => exact absurd e1 h1
        | cons p ps =>
          cases e2 : splitAll ':' xs with
          | nil => exact absurd e2 h2
          | cons q qs => simp only [e1, e2, List.length_cons] at ih ⊢; omega
  have h3 : 3 ≤ (splitAll ':' (a ++ ':' :: b ++ ':' :: c)).length := by
    rw [len, len]
    have pos : ∀ s, 1 ≤ (splitAll ':' s).length := fun s => List.length_pos_iff.2 (key s)
    have := pos a; have := pos b; have := pos c
    omega
  unfold resolveObject
  split
  next h => rw [h] at h3; simp at h3
  next h => rw [h] at h3; simp at h3
  next => rfl

/-- C47 in full fails: when the package's own module exists but one of *its* imports is missing, the
error is swallowed and the reference resolves to an unrelated absolute module of the same name. -/
theorem c47_missing_import_shadowed :
    ∃ (imp : Imports Nat) (pkg m n : Str) (o : Nat), (∃ r, imp.relative pkg m = some r) ∧
      (∀ M, ¬ Names imp (some pkg) m (.ok M)) ∧
      resolveObject imp (some pkg) (m ++ ':' :: n) = .ok o := by
  refine ⟨⟨fun _ => .ok ⟨[], fun _ => some (some 7)⟩, fun _ _ => some (.error .moduleNotFound),
    fun _ => .error .importFailed⟩, "jaqmc.optimizer".toList, "optax".toList, "adam".toList, 7,
    ⟨_, rfl⟩, ?_, rfl⟩
  intro M h
  generalize hx : (Except.ok M : Except RefErr (PyModule Nat)) = x at h
  cases h with
  | file h => revert h; decide
  | own pkg r _ _ hr => simp at hr; rw [← hr] at hx; simp at hx
  | absoluteInPackage pkg _ _ hr => simp at hr
  | absolute _ hk => simp at hk

/-- C47 is not vacuous. -/
example : resolveObject (⟨fun m => if m = "optax".toList then
      .ok ⟨["sgd".toList], fun n => if n = "adam".toList then some (some 1) else if n = "sgd".toList then some (some 2) else none⟩
      else .error .moduleNotFound, fun _ _ => none, fun _ => .error .importFailed⟩ : Imports Nat) (some []) "optax:adam".toList = .ok 1 := rfl

/-! ### C40 -/

theorem lookup_runtimeAt_sub {n : Str} {c rest : Comp V} {path : List Str} {m : Str} {req : Bool} {val : Option V} :
    RuntimeAt (.sub n c rest) path m req val ↔
      (∃ p, path = n :: p ∧ RuntimeAt c p m req val) ∨ RuntimeAt rest path m req val := by
  constructor
  · intro h
    cases h with
    | inside _ _ _ p _ _ _ h => exact .inl ⟨p, rfl, h⟩
    | skipSub _ _ _ _ _ _ _ h => exact .inr h
  · rintro (⟨p, rfl, h⟩ | h)
    · exact .inside _ _ _ _ _ _ _ h
    · exact .skipSub _ _ _ _ _ _ _ h

theorem runtimeAt_runtime {n : Str} {r : Bool} {v : Option V} {rest : Comp V} {path : List Str} {m : Str}
    {req : Bool} {val : Option V} :
    RuntimeAt (.runtime n r v rest) path m req val ↔
      (path = [] ∧ m = n ∧ req = r ∧ val = v) ∨ RuntimeAt rest path m req val := by
  constructor
  · intro h
    cases h with
    | here => exact .inl ⟨rfl, rfl, rfl, rfl⟩
    | skipRuntime _ _ _ _ _ _ _ _ h => exact .inr h
  · rintro (⟨rfl, rfl, rfl, rfl⟩ | h)
    · exact .here _ _ _ _
    · exact .skipRuntime _ _ _ _ _ _ _ _ h

theorem runtimeAt_plain {n : Str} {v : V} {rest : Comp V} {path : List Str} {m : Str}
    {req : Bool} {val : Option V} :
    RuntimeAt (.plain n v rest) path m req val ↔ RuntimeAt rest path m req val := by
  constructor
  · intro h; cases h with | skipPlain _ _ _ _ _ _ _ h => exact h
  · exact .skipPlain _ _ _ _ _ _ _

theorem not_runtimeAt_nil {path : List Str} {m : Str} {req : Bool} {val : Option V} :
    ¬ RuntimeAt (.nil : Comp V) path m req val := by intro h; cases h

/-- The field loop: without class values it raises nothing and misses nothing exactly when every
required dependency in the tree is in the context. -/
theorem wireLoop_spec (kw : List (Str × V)) (c : Comp V) (hc : NoClassValues c) :
    (((wireLoop kw c).2.2 = none ∧ (wireLoop kw c).2.1 = false) ↔
      ∀ path m val, RuntimeAt c path m true val → (kw.lookup m).isSome) ∧
    (∀ e, (wireLoop kw c).2.2 = some e → e = .valueError) ∧
    ((wireLoop kw c).2.2 = none ∧ (wireLoop kw c).2.1 = false →
      ∀ path m req val', RuntimeAt (wireLoop kw c).1 path m req val' ↔
        ∃ val, RuntimeAt c path m req val ∧ val' = (match kw.lookup m with | some v => some v | none => val)) := by
  induction c with
  | nil =>
    refine ⟨?_, by simp [wireLoop], ?_⟩
    · simp [wireLoop, not_runtimeAt_nil]
    · intro _ path m req val'; simp [wireLoop, not_runtimeAt_nil]
  | cls n rest ih => exact absurd hc (by simp [NoClassValues])
  | plain n v rest ih =>
    obtain ⟨h1, h2, h3⟩ := ih hc
    simp only [wireLoop, runtimeAt_plain]
    exact ⟨h1, h2, h3⟩
  | runtime n r v rest ih =>
    obtain ⟨h1, h2, h3⟩ := ih hc
    simp only [wireLoop]
    cases hl : kw.lookup n with
    | some w =>
      dsimp only
      refine ⟨?_, h2, ?_⟩
      · rw [h1]
        constructor
        · intro h path m val hr
          rcases runtimeAt_runtime.1 hr with ⟨_, rfl, _, _⟩ | hr
          · simp [hl]
          · exact h path m val hr
        · intro h path m val hr
          exact h path m val (runtimeAt_runtime.2 (.inr hr))
      · intro hok path m req val'
        rw [runtimeAt_runtime, h3 hok]
        constructor
        · rintro (⟨rfl, rfl, rfl, rfl⟩ | ⟨val, hr, hv⟩)
          · exact ⟨v, runtimeAt_runtime.2 (.inl ⟨rfl, rfl, rfl, rfl⟩), by rw [hl]⟩
          · exact ⟨val, runtimeAt_runtime.2 (.inr hr), hv⟩
        · rintro ⟨val, hr, hv⟩
          rcases runtimeAt_runtime.1 hr with ⟨rfl, rfl, rfl, rfl⟩ | hr
          · left; rw [hl] at hv; exact ⟨rfl, rfl, rfl, hv⟩
          · exact .inr ⟨val, hr, hv⟩
    | none =>
      dsimp only
      refine ⟨?_, h2, ?_⟩
      · constructor
        · rintro ⟨hn, hb⟩ path m val hr
          simp only [Bool.or_eq_false_iff] at hb
          rcases runtimeAt_runtime.1 hr with ⟨_, rfl, hreq, _⟩ | hr
          · rw [hb.2] at hreq; exact absurd hreq (by simp)
          · exact h1.1 ⟨hn, hb.1⟩ path m val hr
        · intro h
          have hr : r = false := by
            cases r with
            | false => rfl
            | true =>
              have := h [] n v (runtimeAt_runtime.2 (.inl ⟨rfl, rfl, rfl, rfl⟩))
              rw [hl] at this; exact absurd this (by simp)
          have := h1.2 (fun path m val hr => h path m val (runtimeAt_runtime.2 (.inr hr)))
          simp [this.1, this.2, hr]
      · rintro ⟨hn, hb⟩ path m req val'
        simp only [Bool.or_eq_false_iff] at hb
        rw [runtimeAt_runtime, h3 ⟨hn, hb.1⟩]
        constructor
        · rintro (⟨rfl, rfl, rfl, rfl⟩ | ⟨val, hr, hv⟩)
          · exact ⟨val', runtimeAt_runtime.2 (.inl ⟨rfl, rfl, rfl, rfl⟩), by rw [hl]⟩
          · exact ⟨val, runtimeAt_runtime.2 (.inr hr), hv⟩
        · rintro ⟨val, hr, hv⟩
          rcases runtimeAt_runtime.1 hr with ⟨rfl, rfl, rfl, rfl⟩ | hr
          · left; rw [hl] at hv; exact ⟨rfl, rfl, rfl, hv⟩
          · exact .inr ⟨val, hr, hv⟩
  | sub n c rest ihc ihr =>
    obtain ⟨h1, h2, h3⟩ := ihc hc.1
    obtain ⟨g1, g2, g3⟩ := ihr hc.2
    simp only [wireLoop]
    rcases hce : (wireLoop kw c).2.2 with _ | e
    · rcases hcb : (wireLoop kw c).2.1 with _ | _
      · dsimp only
        have hall := h1.1 ⟨hce, hcb⟩
        refine ⟨?_, g2, ?_⟩
        · rw [g1]
          constructor
          · intro h path m val hr
            rcases lookup_runtimeAt_sub.1 hr with ⟨p, rfl, hr'⟩ | hr'
            · exact hall p m val hr'
            · exact h path m val hr'
          · intro h path m val hr
            exact h path m val (lookup_runtimeAt_sub.2 (.inr hr))
        · intro hok path m req val'
          rw [lookup_runtimeAt_sub, g3 hok]
          constructor
          · rintro (⟨p, rfl, hr⟩ | ⟨val, hr, hv⟩)
            · obtain ⟨val, hr, hv⟩ := (h3 ⟨hce, hcb⟩ p m req val').1 hr
              exact ⟨val, lookup_runtimeAt_sub.2 (.inl ⟨p, rfl, hr⟩), hv⟩
            · exact ⟨val, lookup_runtimeAt_sub.2 (.inr hr), hv⟩
          · rintro ⟨val, hr, hv⟩
            rcases lookup_runtimeAt_sub.1 hr with ⟨p, rfl, hr'⟩ | hr'
            · exact .inl ⟨p, rfl, (h3 ⟨hce, hcb⟩ p m req val').2 ⟨val, hr', hv⟩⟩
            · exact .inr ⟨val, hr', hv⟩
      · dsimp only
        refine ⟨?_, by simp, by simp⟩
        simp only [reduceCtorEq, false_and, false_iff]
        intro h
        have := h1.2 (fun path m val hr => h (n :: path) m val (lookup_runtimeAt_sub.2 (.inl ⟨path, rfl, hr⟩)))
        rw [hcb] at this; exact absurd this.2 (by simp)
    · dsimp only
      have he := h2 e hce
      refine ⟨?_, by simp [he], by simp⟩
      simp only [reduceCtorEq, false_and, false_iff]
      intro h
      have := h1.2 (fun path m val hr => h (n :: path) m val (lookup_runtimeAt_sub.2 (.inl ⟨path, rfl, hr⟩)))
      rw [hce] at this; exact absurd this.1 (by simp)

/-- **C40** (first half). Wiring a component tree succeeds exactly when the context supplies every
required dependency of every component in the tree, and raises `ValueError` otherwise; after success
every dependency named in the context holds the context's value, at every depth, and every other one
keeps what it had.  (Trees holding a dataclass type as a value are excluded: `c40_class_value_rejected`.) -/
theorem c40_wire_partial (kw : List (Str × V)) (c : Comp V) (hc : NoClassValues c) :
    ((wire kw c).2 = none ↔ ∀ path m val, RuntimeAt c path m true val → (kw.lookup m).isSome) ∧
    ((wire kw c).2 = none ∨ (wire kw c).2 = some .valueError) ∧
    ((wire kw c).2 = none → ∀ path m req val', RuntimeAt (wire kw c).1 path m req val' ↔
        ∃ val, RuntimeAt c path m req val ∧ val' = (match kw.lookup m with | some v => some v | none => val)) := by
  obtain ⟨h1, h2, h3⟩ := wireLoop_spec kw c hc
  have hiff : (wire kw c).2 = none ↔ ((wireLoop kw c).2.2 = none ∧ (wireLoop kw c).2.1 = false) := by
    unfold wire
    dsimp only
    generalize (wireLoop kw c).2.2 = x
    generalize (wireLoop kw c).2.1 = y
    rcases x with _ | e <;> cases y <;> simp
  refine ⟨hiff.trans h1, ?_, fun h => h3 (hiff.1 h)⟩
  unfold wire
  dsimp only
  rcases hw : (wireLoop kw c).2.2 with _ | e
  · generalize (wireLoop kw c).2.1 = y
    cases y <;> simp
  · right; simp [h2 e hw]

/-- **C40** After a successful wiring nothing required is unset anywhere in the tree, so no later access
raises. -/
theorem c40_no_unset (kw : List (Str × V)) (c : Comp V) (hc : NoClassValues c) (h : (wire kw c).2 = none)
    (path : List Str) (m : Str) : ¬ RuntimeAt (wire kw c).1 path m true none := by
  intro hr
  obtain ⟨h1, _, h3⟩ := c40_wire_partial kw c hc
  obtain ⟨val, hr', hv⟩ := (h3 h path m true none).1 hr
  have := h1.1 h path m val hr'
  cases hl : kw.lookup m with
  | none => rw [hl] at this; simp at this
  | some v => rw [hl] at hv; simp at hv

/-- **C40** (second half, own fields only). The check reports a component exactly when one of its own
required dependencies is unset. -/
theorem c40_check_partial (c : Comp V) :
    checkWiredRaises c = true ↔ ∃ m, RuntimeAt c [] m true none := by
  induction c with
  | nil => simp [checkWiredRaises, not_runtimeAt_nil]
  | runtime n r v rest ih =>
    simp only [checkWiredRaises, Bool.or_eq_true, Bool.and_eq_true, ih, runtimeAt_runtime]
    constructor
    · rintro (⟨rfl, hv⟩ | ⟨m, h⟩)
      · cases v with
        | none => exact ⟨n, .inl ⟨trivial, rfl, rfl, rfl⟩⟩
        | some v => simp at hv
      · exact ⟨m, .inr h⟩
    · rintro ⟨m, ⟨_, rfl, rfl, rfl⟩ | h⟩
      · exact .inl ⟨rfl, rfl⟩
      · exact .inr ⟨m, h⟩
  | plain n v rest ih => simp only [checkWiredRaises, ih, runtimeAt_plain]
  | sub n c rest _ ih =>
    simp only [checkWiredRaises, ih, lookup_runtimeAt_sub]
    simp
  | cls n rest ih =>
    simp only [checkWiredRaises, ih]
    constructor
    · rintro ⟨m, h⟩; exact ⟨m, .skipCls _ _ _ _ _ _ h⟩
    · rintro ⟨m, h⟩; cases h with | skipCls _ _ _ _ _ _ h => exact ⟨m, h⟩

/-- C40 in full fails: a nested component with an unset dependency passes the check. -/
theorem c40_nested_unset_passes :
    ∃ c : Comp Nat, RuntimeAt c ["inner".toList] "f".toList true none ∧ checkWiredRaises c = false :=
  ⟨.sub "inner".toList (.runtime "f".toList true none .nil) .nil,
    .inside _ _ _ _ _ _ _ (.here _ _ _ _), rfl⟩

/-- C40 in full fails: a dependency that was already set by hand is reported as missing by `wire`. -/
theorem c40_preset_rejected :
    ∃ c : Comp Nat, (∀ path m, ¬ RuntimeAt c path m true none) ∧ (wire [] c).2 = some .valueError := by
  refine ⟨.runtime "f".toList true (some 3) .nil, ?_, rfl⟩
  intro path m h
  rcases runtimeAt_runtime.1 h with ⟨_, _, _, h⟩ | h
  · simp at h
  · exact not_runtimeAt_nil h

/-- C40 in full fails: a field holding a dataclass *type* makes wiring raise `TypeError`. -/
theorem c40_class_value_rejected (kw : List (Str × V)) (n : Str) (rest : Comp V) :
    (wire kw (.cls n rest)).2 = some .typeError := rfl

/-- C40 is not vacuous: a nested tree wired from a context. -/
example : (wire [("f".toList, 1), ("g".toList, 2)]
      (.plain "mode".toList 0 (.sub "inner".toList (.runtime "f".toList true none .nil)
        (.runtime "g".toList true none (.runtime "h".toList false (some 9) .nil))))).2 = (none : Option WireErr) := rfl

/-! ### C48 -/

theorem nodup_len {α : Type} [DecidableEq α] (a b : List α) (ha : a.Nodup) (h : ∀ x ∈ a, x ∈ b) :
    a.length ≤ b.length := by
  induction a generalizing b with
  | nil => simp
  | cons x xs ih =>
    obtain ⟨hx, hxs⟩ := List.nodup_cons.1 ha
    have hb : x ∈ b := h x (by simp)
    have := ih (b.erase x) hxs (by
      intro y hy
      have hne : y ≠ x := fun e => hx (e ▸ hy)
      exact (List.mem_erase_of_ne hne).2 (h y (by simp [hy])))
    rw [List.length_erase_of_mem hb] at this
    have := List.length_pos_of_mem hb
    simp; omega

theorem decimal_inj {a b : Nat} (h : decimal a = decimal b) : a = b := by
  have := congrArg Jaqmc.Checkpoint.val h
  simpa [Jaqmc.Checkpoint.val_decimal] using this

theorem candidate_inj (ns : Option Str) (ts : Str) {i j : Nat}
    (h : backupCandidate ns ts i = backupCandidate ns ts j) : i = j := by
  cases i with
  | zero =>
    cases j with
    | zero => rfl
    | succ j =>
      have := congrArg List.length h
      simp only [backupCandidate, List.length_append, List.length_cons] at this
      omega
  | succ i =>
    cases j with
    | zero =>
      have := congrArg List.length h
      simp only [backupCandidate, List.length_append, List.length_cons] at this
      omega
    | succ j =>
      unfold backupCandidate at h
      have h := List.append_cancel_right h
      have h := List.append_cancel_left h
      simp only [List.cons.injEq, true_and] at h
      have := decimal_inj h
      omega

theorem backupLoop_none {d : Dir} {ns : Option Str} {ts : Str} : ∀ (fuel k : Nat),
    backupLoop d ns ts fuel k = none → ∀ i < fuel, exists? d (backupCandidate ns ts (k + i)) = true := by
  intro fuel
  induction fuel with
  | zero => intro k _ i hi; omega
  | succ fuel ih =>
    intro k h i hi
    simp only [backupLoop] at h
    split at h
    next he =>
      cases i with
      | zero => exact he
      | succ i =>
        have := ih (k + 1) h i (by omega)
        have e : k + (i + 1) = k + 1 + i := by omega
        rw [e]; exact this
    next => simp at h

theorem backupLoop_some {d : Dir} {ns : Option Str} {ts p : Str} : ∀ (fuel k : Nat),
    backupLoop d ns ts fuel k = some p → exists? d p = false ∧ ∃ i, p = backupCandidate ns ts i := by
  intro fuel
  induction fuel with
  | zero => intro k h; simp [backupLoop] at h
  | succ fuel ih =>
    intro k h
    simp only [backupLoop] at h
    split at h
    · exact ih (k + 1) h
    next he => simp at h; subst h; exact ⟨by simpa using he, k, rfl⟩

theorem lookup_isSome_mem {d : Dir} {p : Str} (h : exists? d p = true) : p ∈ d.map Prod.fst := by
  unfold exists? at h
  induction d with
  | nil => simp at h
  | cons e d ih =>
    obtain ⟨k, v⟩ := e
    by_cases hk : p = k
    · simp [hk]
    · have : (p == k) = false := by simpa using hk
      simp only [List.lookup, this] at h
      simp [hk]
      simpa using ih h

/-- **C48** The search for an unused backup name always ends, in a name no file has. -/
theorem c48_backup_found (d : Dir) (ns : Option Str) (ts : Str) :
    ∃ p, backupLoop d ns ts (d.length + 1) 0 = some p ∧ d.lookup p = none := by
  cases h : backupLoop d ns ts (d.length + 1) 0 with
  | some p =>
    refine ⟨p, rfl, ?_⟩
    have := (backupLoop_some _ _ h).1
    unfold exists? at this
    simpa using this
  | none =>
    exfalso
    have hall := backupLoop_none _ _ h
    have hn : ((List.range (d.length + 1)).map (backupCandidate ns ts)).Nodup := by
      rw [List.nodup_iff_pairwise_ne, List.pairwise_map]
      exact List.Pairwise.imp (fun hne e => hne (candidate_inj ns ts e)) (List.nodup_iff_pairwise_ne.1 List.nodup_range)
    have := nodup_len _ (d.map Prod.fst) hn (by
      intro x hx
      obtain ⟨i, hi, rfl⟩ := List.mem_map.1 hx
      have := hall i (by simpa using hi)
      rw [Nat.zero_add] at this
      exact lookup_isSome_mem this)
    simp at this
    omega

theorem lookup_remove_ne {d : Dir} {p q : Str} (h : q ≠ p) : (remove d p).lookup q = d.lookup q := by
  unfold remove
  induction d with
  | nil => rfl
  | cons e d ih =>
    obtain ⟨k, v⟩ := e
    rw [List.filter_cons]
    by_cases hk : k = p
    · subst hk
      have : (q == k) = false := by simpa using h
      simp only [ne_eq, not_true_eq_false, decide_false, Bool.false_eq_true, if_false, List.lookup, this]
      exact ih
    · simp only [ne_eq, hk, not_false_eq_true, decide_true, if_true, List.lookup, ih]

theorem lookup_write_ne {d : Dir} {p q v : Str} (h : q ≠ p) : (write d p v).lookup q = d.lookup q := by
  have : (q == p) = false := by simpa using h
  simp [write, List.lookup, this, lookup_remove_ne h]

theorem lookup_writeText_ne {d : Dir} {r : Run} {q : Str} (h : q ≠ configPath r.ns) :
    (writeText d r).lookup q = d.lookup q := by
  unfold writeText
  split
  · exact lookup_write_ne h
  · rfl
  · exact lookup_write_ne h

theorem slash_candidate (ns : Option Str) (ts : Str) (i : Nat) :
    (backupCandidate ns ts i).head? = some 'c' ∧ '/' ∈ backupCandidate ns ts i := by
  cases i <;> (constructor <;> simp [backupCandidate, historyPrefix])

theorem config_no_slash {ns : Option Str} (h : ∀ n, ns = some n → '/' ∉ n) : '/' ∉ configPath ns := by
  unfold configPath configStem
  split
  · decide
  · decide
  next n _ =>
    have := h _ rfl
    simp only [List.mem_append, not_or]
    exact ⟨⟨this, by decide⟩, by decide⟩

theorem candidate_ne_config {ns ns' : Option Str} (h : ∀ n, ns = some n → '/' ∉ n) (ts : Str) (i : Nat) :
    backupCandidate ns' ts i ≠ configPath ns := by
  intro e
  have := (slash_candidate ns' ts i).2
  rw [e] at this
  exact config_no_slash h this

/-- **C48** One run, wherever it is killed: (1) every other file keeps its contents; (2) a previous
configuration that differs from the new one is still in the directory; (3) if the run is not killed,
not dry and its configuration valid, the configuration file holds the new configuration. -/
theorem c48_prepare (d : Dir) (r : Run) (hns : ∀ n, r.ns = some n → '/' ∉ n) :
    (∀ p v, p ≠ configPath r.ns → d.lookup p = some v → (prepare d r).lookup p = some v) ∧
    (∀ v, d.lookup (configPath r.ns) = some v → v ≠ r.yaml → Kept (prepare d r) v) ∧
    (r.dry = false → r.finalizeRaises = false → r.kill = .none →
      (prepare d r).lookup (configPath r.ns) = some r.yaml) ∧
    (r.dry = true ∨ r.finalizeRaises = true → prepare d r = d) := by
  have hself : ∀ d' : Dir, r.kill = .none → (writeText d' r).lookup (configPath r.ns) = some r.yaml := by
    intro d' hk
    simp [writeText, hk, write, List.lookup]
  obtain ⟨b, hb, hbn⟩ := c48_backup_found d r.ns r.ts
  have hbc : b ≠ configPath r.ns := by
    obtain ⟨i, rfl⟩ := (backupLoop_some _ _ hb).2
    exact candidate_ne_config hns r.ts i
  unfold prepare
  by_cases hdr : (r.finalizeRaises || r.dry) = true
  · rw [if_pos hdr]
    refine ⟨fun _ _ _ h => h, fun v h _ => ⟨_, h⟩, ?_, fun _ => rfl⟩
    intro h1 h2; rw [h1, h2] at hdr; simp at hdr
  · rw [if_neg hdr]
    have hlast : r.dry = true ∨ r.finalizeRaises = true → False := by
      rintro (h | h) <;> simp [h] at hdr
    cases hl : d.lookup (configPath r.ns) with
    | none =>
      dsimp only
      exact ⟨fun p v hp h => by rw [lookup_writeText_ne hp]; exact h, fun v h => by simp at h,
        fun _ _ hk => hself d hk, fun h => (hlast h).elim⟩
    | some prev =>
      dsimp only
      by_cases he : prev = r.yaml
      · rw [if_pos he]
        refine ⟨fun p v hp h => by rw [lookup_writeText_ne hp]; exact h, fun v h hne => ?_,
          fun _ _ hk => hself d hk, fun h => (hlast h).elim⟩
        simp at h; exact absurd (h.symm.trans he) hne
      · rw [if_neg he, hb]
        dsimp only
        refine ⟨?_, ?_, fun _ _ hk => hself _ hk, fun h => (hlast h).elim⟩
        · intro p v hp h
          rw [lookup_writeText_ne hp]
          have hpb : p ≠ b := by intro e; rw [e, hbn] at h; simp at h
          have : (p == b) = false := by simpa using hpb
          simp only [List.lookup, this, lookup_remove_ne hp]
          exact h
        · intro v h hne
          simp at h
          refine ⟨b, ?_⟩
          rw [lookup_writeText_ne hbc]
          simp [List.lookup, h]

/-- **C48** Any number of runs: contents once in the directory stay in it through any later sequence of
runs, killed anywhere, except that a run killed while rewriting an *identical* configuration may
tear it. -/
theorem c48_history (runs : List Run) (d : Dir) (hns : ∀ r ∈ runs, ∀ n, r.ns = some n → '/' ∉ n)
    (v : Str) (hv : Kept d v) (htorn : ∀ r ∈ runs, ∀ k, r.kill = .torn k → r.yaml ≠ v) :
    Kept (runs.foldl prepare d) v := by
  induction runs generalizing d with
  | nil => exact hv
  | cons r rs ih =>
    apply ih
    · exact fun x hx => hns x (by simp [hx])
    · obtain ⟨h1, h2, h3, h4⟩ := c48_prepare d r (hns r (by simp))
      obtain ⟨p, hp⟩ := hv
      by_cases hpc : p = configPath r.ns
      · subst hpc
        by_cases hy : v = r.yaml
        · -- same configuration rewritten
          cases hd : r.dry with
          | true => rw [h4 (.inl hd)]; exact ⟨_, hp⟩
          | false =>
            cases hf : r.finalizeRaises with
            | true => rw [h4 (.inr hf)]; exact ⟨_, hp⟩
            | false =>
              cases hk : r.kill with
              | none => exact ⟨_, by rw [hy]; exact h3 hd hf hk⟩
              | torn k => exact absurd hy.symm (htorn r (by simp) k hk)
              | beforeWrite =>
                refine ⟨configPath r.ns, ?_⟩
                unfold prepare
                simp [hd, hf, hp, hy, writeText, hk]
        · exact h2 v hp hy
      · exact ⟨p, h1 p v hpc hp⟩
    · exact fun x hx => htorn x (by simp [hx])

/-- The exception in `c48_history` is real: a kill during the rewrite of an unchanged configuration
destroys the only copy. -/
theorem c48_torn_identical :
    ¬ Kept (prepare [(['c', 'o', 'n', 'f', 'i', 'g', '.', 'y', 'a', 'm', 'l'], ['a', ':', ' ', '1'])]
      ⟨none, ['2', '0', '2', '6', '0', '1', '0', '1', '_', '0', '0', '0', '0', '0', '0'], ['a', ':', ' ', '1'], false, false, .torn 0⟩) ['a', ':', ' ', '1'] := by
  rintro ⟨p, hp⟩
  have e : prepare [(['c', 'o', 'n', 'f', 'i', 'g', '.', 'y', 'a', 'm', 'l'], ['a', ':', ' ', '1'])]
      ⟨none, ['2', '0', '2', '6', '0', '1', '0', '1', '_', '0', '0', '0', '0', '0', '0'], ['a', ':', ' ', '1'], false, false, .torn 0⟩ = [(['c', 'o', 'n', 'f', 'i', 'g', '.', 'y', 'a', 'm', 'l'], [])] := by
    decide
  rw [e] at hp
  simp only [List.lookup] at hp
  split at hp
  · simp at hp
  · simp at hp

/-- C48 is not vacuous: two runs within one second, the second with a changed configuration twice. -/
example : [(⟨none, ['T'], ['x'], false, false, .none⟩ : Run), ⟨none, ['T'], ['y'], false, false, .none⟩,
      ⟨none, ['T'], ['z'], false, false, .none⟩].foldl prepare []
    = [(['c', 'o', 'n', 'f', 'i', 'g', '.', 'y', 'a', 'm', 'l'], ['z']), (['c', 'o', 'n', 'f', 'i', 'g', '_', 'h', 'i', 's', 't', 'o', 'r', 'y', '/', 'c', 'o', 'n', 'f', 'i', 'g', '.', 'b', 'a', 'c', 'k', 'u', 'p', '_', 'T', '_', '1', '.', 'y', 'a', 'm', 'l'], ['y']),
       (['c', 'o', 'n', 'f', 'i', 'g', '_', 'h', 'i', 's', 't', 'o', 'r', 'y', '/', 'c', 'o', 'n', 'f', 'i', 'g', '.', 'b', 'a', 'c', 'k', 'u', 'p', '_', 'T', '.', 'y', 'a', 'm', 'l'], ['x'])] := by
  have : decimal (0 + 1) = ['1'] := by rw [decimal]; rfl
  simp [prepare, writeText, write, remove, List.lookup, configPath, configStem, backupLoop, exists?,
    backupCandidate, this, configWord, yamlExt, historyPrefix, backupMark]

end Jaqmc.Misc.Props
