import Verif.Lemmas.CheckpointDir
/-!
# Checkpoint properties: C01, C02, C03, C49
-/
namespace Jaqmc.Checkpoint.Props
open Jaqmc.Checkpoint Jaqmc.Checkpoint.Spec

/-! ## C03: save / load round trip -/

/-- **C03** (needs unambiguous keys; see `c03_key_collision` for why). Saving any savable tree and
loading the file against any tree of the same structure returns the saved tree and the step. -/
theorem c03_roundtrip_partial {V : Type} (stage : Name) (d : Dir V) (step : Nat)
    (t ref : Tree V) (ht : Storable t) (hs : SameShape ref t) :
    ∃ f, (save stage d step t none).2 = none ∧
      (save stage d step t none).1.lookup (fileName stage step) = some f ∧
      restoreFromFile f ref = .ok (step + 1, t) := by
  replace ht := storable_savable t ht
  refine ⟨fileOf (.saved step t), ?_, ?_, restore_saved step t ref ht hs⟩
  · simp only [save, savez_ok step t ht]
  · simp only [save, savez_ok step t ht]
    rw [dictSet_lookup]; simp [fileOf]

/-- Saving does not touch any other file of the directory. -/
theorem c03_save_frame {V : Type} (stage : Name) (d : Dir V) (step : Nat) (t : Tree V)
    (crash : Option Nat) (other : Name) (h : other ≠ fileName stage step) :
    (save stage d step t crash).1.lookup other = d.lookup other := by
  unfold save
  dsimp only
  split
  · exact (dictSet_lookup ..).trans (if_neg h)
  · split
    · exact (dictSet_lookup ..).trans (if_neg h)
    · exact (dictSet_lookup ..).trans (if_neg h)

/-- Python-scalar leaf, for examples. -/
def num (n : Int) : Tree Int := .leaf ⟨.py, ⟨[], [n]⟩⟩

/-- `{"a": {"b": 1}, "a/b": 2}`: two leaves with the same slash-joined path. -/
def clash : Tree Int :=
  .node (.cons (.dict ['a']) (.node (.cons (.dict ['b']) (num 1) .nil))
    (.cons (.dict ['a', '/', 'b']) (num 2) .nil))

/-- C03 fails without the key condition: the tree `{"a": {"b": 1}, "a/b": 2}` is saved without an
error and comes back as `{"a": {"b": 2}, "a/b": 2}`. -/
theorem c03_key_collision :
    (save [] [] 0 clash none).2 = none ∧
    ∃ f, (save [] [] 0 clash none).1.lookup (fileName [] 0) = some f ∧
      restoreFromFile f clash = .ok (1,
        .node (.cons (.dict ['a']) (.node (.cons (.dict ['b']) (num 2) .nil))
          (.cons (.dict ['a', '/', 'b']) (num 2) .nil))) ∧
      restoreFromFile f clash ≠ .ok (1, clash) := by
  refine ⟨rfl, .intact ⟨0, [(['a', '/', 'b', '.', 'n', 'p', 'y'], ⟨[], [2]⟩)]⟩, ?_, rfl, ?_⟩
  · refine Eq.trans (dictSet_lookup ([] : Dir Int) (fileName [] 0) _ (fileName [] 0)) ?_
    rw [if_pos rfl]; rfl
  intro h
  have h2 : restoreFromFile (.intact ⟨0, [(['a', '/', 'b', '.', 'n', 'p', 'y'], ⟨[], [2]⟩)]⟩) clash
    = .ok (1, clash) := h
  have h3 : (Except.ok (1, Tree.node (.cons (.dict ['a']) (.node (.cons (.dict ['b']) (num 2) .nil))
          (.cons (.dict ['a', '/', 'b']) (num 2) .nil))) : Except Exc (Nat × Tree Int))
      = .ok (1, clash) := h2
  simp [clash, num] at h3

/-- A top-level leaf named `step` makes `save` raise and leaves an empty file behind. -/
theorem c03_reserved_key {V : Type} (stage : Name) (d : Dir V) (step : Nat) (v : Leaf V) :
    save stage d step (.node (.cons (.dict stepKey) (.leaf v) .nil)) none =
      (dictSet d (fileName stage step) (.torn 0), some .typeError) := rfl

/-- A realistic savable tree: `{"params": {"w": [1, 2]}, "pmove": 3}`. -/
def sampleTree : Tree Int :=
  .node (.cons (.dict "params".toList) (.node (.cons (.seq 0) (.leaf ⟨.jax, ⟨[2], [1, 2]⟩⟩) .nil))
    (.cons (.dict "pmove".toList) (num 3) .nil))

theorem sampleTree_storable : Storable sampleTree := by
  refine ⟨?_, ?_⟩
  · simp [sampleTree, WellKeyed, WellKeyedF, rawKeys, SlashFree, SameKind, num]
  · intro e he
    simp only [sampleTree, num, Tree.leavesWithPath, Forest.leavesWithPath, List.mem_append,
      List.mem_singleton, List.not_mem_nil, or_false] at he
    rcases he with rfl | rfl
    · refine ⟨?_, ?_, by simp⟩ <;> rintro k s hk (rfl | rfl) <;> simp at hk
    · refine ⟨?_, ?_, by simp⟩
      · rintro k s hk (rfl | rfl) <;> simp at hk; subst hk; decide
      · rintro k s hk (rfl | rfl) <;> simp at hk; subst hk; decide

theorem sampleTree_savable : Savable sampleTree := storable_savable _ sampleTree_storable

theorem sampleTree_shape : SameShape sampleTree sampleTree := by
  simp [sampleTree, SameShape, SameShapeF, num]

example : Storable sampleTree ∧ SameShape sampleTree sampleTree :=
  ⟨sampleTree_storable, sampleTree_shape⟩

/-! ## C02: damaged checkpoints -/

/-- **C02** (for damage by truncation, steps below one million). Start from any directory without
checkpoints of this stage and let any history of completed and cut-off saves happen.
If some completed save survives, restore returns the surviving one with the greatest step;
otherwise it returns the fallback with step 0, or raises in strict mode. -/
theorem c02_damaged_partial {V : Type} (stage : Name) (strict : Bool) (d0 : Dir V)
    (hd0 : (d0.map Prod.fst).Nodup) (hg : ∀ e ∈ d0, globMatch stage e.1 = false)
    (fallback : Tree V) (h : List (Event V))
    (hsav : ∀ e ∈ h, Storable e.tree ∧ SameShape fallback e.tree)
    (hstep : ∀ e ∈ h, e.step < 1000000)
    (hcut : ∀ s t n, Event.cutOff s t n ∈ h → n = 0 ∨ 4 ≤ n) :
    (∀ s t, Survives h s t → (∀ s' t', Survives h s' t' → s' ≤ s) →
      restore stage strict (.dir (runEvents stage d0 h)) fallback = .ok (s + 1, t)) ∧
    ((∀ s t, ¬ Survives h s t) →
      (strict = false →
        restore stage strict (.dir (runEvents stage d0 h)) fallback = .ok (0, fallback)) ∧
      (strict = true → ∃ e, restore stage strict (.dir (runEvents stage d0 h)) fallback = .error e)) := by
  replace hsav : ∀ e ∈ h, Savable e.tree ∧ SameShape fallback e.tree :=
    fun e he => ⟨storable_savable _ (hsav e he).1, (hsav e he).2⟩
  obtain ⟨hnd, hmem⟩ := runEvents_spec stage d0 hd0 hg h (fun e he => (hsav e he).1)
  have hperm := sortDesc_perm ((runEvents stage d0 h).filter (fun e => globMatch stage e.1))
  have hsort := sortDesc_sorted ((runEvents stage d0 h).filter (fun e => globMatch stage e.1))
  have hm : ∀ x, x ∈ sortDesc ((runEvents stage d0 h).filter (fun e => globMatch stage e.1)) ↔
      ∃ ev, Last h ev ∧ x = (fileName stage ev.step, fileOf ev) := by
    intro x
    rw [hperm.mem_iff, List.mem_filter, ← hmem]
  have hnd' : ((sortDesc ((runEvents stage d0 h).filter
      (fun e => globMatch stage e.1))).map Prod.fst).Nodup := by
    rw [(hperm.map Prod.fst).nodup_iff]
    exact hnd.sublist (List.filter_sublist.map _)
  have hin : ∀ ev, Last h ev → ev ∈ h := by
    rintro ev ⟨h₁, h₂, rfl, _⟩; simp
  generalize hL : sortDesc ((runEvents stage d0 h).filter (fun e => globMatch stage e.1)) = L at *
  have hrest : restore stage strict (.dir (runEvents stage d0 h)) fallback =
      if L = [] then (if strict then .error .fileNotFound else .ok (0, fallback))
      else tryAll strict fallback L := by
    simp only [restore, hL]
    cases L <;> simp
  constructor
  · intro s t hsurv hmax
    have hl : Last h (.saved s t) := hsurv
    have hx := (hm (fileName stage s, fileOf (.saved s t))).2 ⟨_, hl, rfl⟩
    obtain ⟨pre, post, rfl⟩ := List.append_of_mem hx
    have hbad : ∀ x ∈ pre, ∃ e, restoreFromFile x.2 fallback = .error e ∧ e.caught = true := by
      intro x hxp
      obtain ⟨ev, hlev, rfl⟩ := (hm x).1 (by simp [hxp])
      have hle : nameLe (fileName stage s) (fileName stage ev.step) = true := by
        rw [List.pairwise_append] at hsort
        exact hsort.2.2 _ hxp (fileName stage s, fileOf (.saved s t)) (by simp)
      have hle := (fileName_le stage (a := s) (hstep _ (hin _ hl)) (hstep _ (hin _ hlev))).1 hle
      have hne : ev.step ≠ s := by
        intro hc
        rw [List.map_append, List.nodup_append] at hnd'
        exact hnd'.2.2 _ (List.mem_map_of_mem hxp) (fileName stage s) (by simp) (by dsimp only; rw [hc])
      cases ev with
      | saved s' t' => exact absurd (hmax s' t' hlev) (by simp only [Event.step] at hle hne; omega)
      | cutOff s' t' n => exact restore_torn n fallback (hcut s' t' n (hin _ hlev))
    have hs := hsav _ (hin _ hl)
    have key : tryAll strict fallback (pre ++ (fileName stage s, fileOf (.saved s t)) :: post)
        = .ok (s + 1, t) := by
      rw [tryAll_skip _ _ _ _ hbad]
      simp only [tryAll, restore_saved s t fallback hs.1 hs.2]
    rw [hrest, if_neg (by simp)]
    exact key
  · intro hno
    have hbad : ∀ x ∈ L, ∃ e, restoreFromFile x.2 fallback = .error e ∧ e.caught = true := by
      intro x hxp
      obtain ⟨ev, hlev, rfl⟩ := (hm x).1 hxp
      cases ev with
      | saved s' t' => exact absurd hlev (hno s' t')
      | cutOff s' t' n => exact restore_torn n fallback (hcut s' t' n (hin _ hlev))
    have key : tryAll strict fallback L = if strict then .error .runtimeError else .ok (0, fallback) := by
      have := tryAll_skip strict fallback L [] hbad
      rw [List.append_nil] at this
      rw [this]; rfl
    rw [hrest]
    cases L with
    | nil => cases strict <;> simp
    | cons a l =>
      rw [if_neg (by simp), key]
      cases strict <;> simp

/-- C02 in full fails: a save cut off after one to three bytes makes `restore` raise instead of
using the intact older checkpoint, even in non-strict mode. -/
theorem c02_tiny_torn_file_blocks_restore (strict : Bool) (n : Nat) (h1 : 1 ≤ n) (h2 : n < 4) :
    Survives [Event.saved 1 sampleTree, .cutOff 2 sampleTree n] 1 sampleTree ∧
    restore [] strict (.dir (runEvents [] []
      [Event.saved 1 sampleTree, .cutOff 2 sampleTree n])) sampleTree = .error .valueError := by
  refine ⟨⟨[], [.cutOff 2 sampleTree n], rfl, by simp [Event.step]⟩, ?_⟩
  have e1 : runEvents [] [] [Event.saved 1 sampleTree, .cutOff 2 sampleTree n] =
      dictSet (dictSet [] (fileName [] 1) (fileOf (.saved 1 sampleTree)))
        (fileName [] 2) (.torn n) := by
    have := runEvents_snoc [] [] [Event.saved 1 sampleTree] (.cutOff 2 sampleTree n) sampleTree_savable
    have h0 := runEvents_snoc [] [] [] (Event.saved 1 sampleTree) sampleTree_savable
    simp only [List.nil_append, List.cons_append] at this h0
    rw [this, h0]; rfl
  rw [e1]
  have hne : fileName [] 1 ≠ fileName [] 2 := fun hc => absurd (fileName_inj _ hc) (by decide)
  have hle : nameLe (fileName [] 2) (fileName [] 1) = false := by
    have := fileName_le [] (a := 2) (b := 1) (by decide) (by decide)
    cases hh : nameLe (fileName [] 2) (fileName [] 1) with
    | false => rfl
    | true => exact absurd (this.1 hh) (by decide)
  simp only [restore, dictSet, if_neg hne, List.filter, fileName_glob, sortDesc, insertDesc,
    hle, Bool.false_eq_true, if_false]
  obtain ⟨m, rfl⟩ : ∃ m, n = m + 1 := ⟨n - 1, by omega⟩
  simp only [tryAll, restoreFromFile, npLoad, if_pos h2, Exc.caught, Bool.false_eq_true, if_false]

/-- C02 for a path with nothing to restore: strict mode raises `FileNotFoundError`, otherwise the fresh state at
step 0 is returned. This covers a path that does not exist and a directory without checkpoints of the stage. -/
theorem c02_nothing_to_restore {V : Type} (stage : Name) (fallback : Tree V) (path : Path V)
    (h : path = .missing ∨ ∃ d : Dir V, path = .dir d ∧ ∀ e ∈ d, globMatch stage e.1 = false) :
    restore stage true path fallback = .error .fileNotFound ∧
    restore stage false path fallback = .ok (0, fallback) := by
  rcases h with rfl | ⟨d, rfl, hd⟩
  · exact ⟨rfl, rfl⟩
  · have : d.filter (fun e => globMatch stage e.1) = [] := by
      rw [List.filter_eq_nil_iff]; intro e he; simp [hd e he]
    simp only [restore, this, sortDesc]
    exact ⟨rfl, rfl⟩

/-- C02 for a path that names a single file: an unreadable file is always an error, never a silent fresh start. -/
theorem c02_file_strict {V : Type} (stage : Name) (strict : Bool) (f : File V) (fallback : Tree V)
    (h : ∀ z, f ≠ .intact z) : ∃ e, restore stage strict (.file f) fallback = .error e := by
  cases f with
  | intact z => exact absurd rfl (h z)
  | torn n =>
    cases n with
    | zero => exact ⟨_, rfl⟩
    | succ n =>
      simp only [restore, restoreFromFile, npLoad]
      by_cases hn : n + 1 < 4
      · exact ⟨_, by rw [if_pos hn]⟩
      · exact ⟨_, by rw [if_neg hn]⟩
  | damaged e => exact ⟨e, rfl⟩

example : (Path.missing : Path Int) = .missing ∨ ∃ d : Dir Int, Path.missing = .dir d ∧
    ∀ e ∈ d, globMatch [] e.1 = false := .inl rfl

/-- C02: damage other than truncation whose reading raises an exception outside the caught
classes also blocks the older checkpoint. -/
theorem c02_uncaught_damage_propagates {V : Type} (strict : Bool) (fb : Tree V) (n : Name)
    (e : Exc) (he : e.caught = false) (rest : List (Name × File V)) :
    tryAll strict fb ((n, .damaged e) :: rest) = .error e := by
  simp [tryAll, restoreFromFile, npLoad, he]

example : Exc.caught .zlibError = false := rfl

/-- A concrete history meeting the hypotheses of `c02_damaged_partial`. -/
example : let h : List (Event Int) := [.saved 1 sampleTree, .cutOff 5 sampleTree 100]
    (∀ e ∈ h, Storable e.tree ∧ SameShape sampleTree e.tree) ∧ (∀ e ∈ h, e.step < 1000000) ∧
    (∀ s t n, Event.cutOff s t n ∈ h → n = 0 ∨ 4 ≤ n) ∧ Survives h 1 sampleTree := by
  refine ⟨?_, by simp [Event.step], ?_, ⟨[], _, rfl, by simp [Event.step]⟩⟩
  · intro e he
    simp at he
    rcases he with rfl | rfl <;> exact ⟨sampleTree_storable, sampleTree_shape⟩
  · intro s t n h; simp at h; omega

/-! ## C01: the most recent checkpoint -/

/-- **C01** (steps below one million; see `c01_million` for why). Whatever completed saves happened
(in any order, repeats included), restoring from the directory returns the save with the greatest
step — for a repeated step the last one — and that step plus one. -/
theorem c01_latest_partial {V : Type} (stage : Name) (strict : Bool) (fallback : Tree V)
    (saves : List (Nat × Tree V))
    (hsav : ∀ e ∈ saves, Storable e.2 ∧ SameShape fallback e.2)
    (hstep : ∀ e ∈ saves, e.1 < 1000000)
    (before after : List (Nat × Tree V)) (s : Nat) (t : Tree V)
    (hsplit : saves = before ++ (s, t) :: after)
    (hbefore : ∀ e ∈ before, e.1 ≤ s) (hafter : ∀ e ∈ after, e.1 < s) :
    restore stage strict
      (.dir (runEvents stage [] (saves.map (fun e => Event.saved e.1 e.2)))) fallback
      = .ok (s + 1, t) := by
  have hin : ∀ s' t', Survives (saves.map (fun e => Event.saved e.1 e.2)) s' t' → (s', t') ∈ saves := by
    rintro s' t' ⟨h₁, h₂, heq, _⟩
    have hmem : Event.saved s' t' ∈ saves.map (fun e => Event.saved e.1 e.2) := by rw [heq]; simp
    simp only [List.mem_map, Event.saved.injEq] at hmem
    obtain ⟨a, ha, rfl, rfl⟩ := hmem
    exact ha
  refine (c02_damaged_partial stage strict [] (by simp) (by simp) fallback _ ?_ ?_ ?_).1 s t ?_ ?_
  · intro e he
    simp only [List.mem_map] at he
    obtain ⟨a, ha, rfl⟩ := he
    exact hsav a ha
  · intro e he
    simp only [List.mem_map] at he
    obtain ⟨a, ha, rfl⟩ := he
    exact hstep a ha
  · intro s' t' n hc
    simp at hc
  · refine ⟨before.map (fun e => Event.saved e.1 e.2), after.map (fun e => Event.saved e.1 e.2), ?_, ?_⟩
    · rw [hsplit]; simp
    · intro e he
      simp only [List.mem_map] at he
      obtain ⟨a, ha, rfl⟩ := he
      have := hafter a ha
      simp only [Event.step]; omega
  · intro s' t' hs'
    have := hin s' t' hs'
    rw [hsplit] at this
    simp only [List.mem_append, List.mem_cons, Prod.mk.injEq] at this
    rcases this with h | ⟨h, _⟩ | h
    · exact hbefore _ h
    · omega
    · have := hafter _ h; simp only at this; omega

example : ∀ e ∈ [(9, sampleTree), (120, sampleTree), (47, sampleTree)],
    (Storable e.2 ∧ SameShape sampleTree e.2) ∧ e.1 < 1000000 := by
  intro e he
  simp at he
  rcases he with rfl | rfl | rfl <;> exact ⟨⟨sampleTree_storable, sampleTree_shape⟩, by decide⟩

/-- Names of checkpoints are ordered like their steps below one million, and distinct steps
always get distinct names. -/
theorem c01_name_order (stage : Name) (a b : Nat) (ha : a < 1000000) (hb : b < 1000000) :
    nameLe (fileName stage a) (fileName stage b) = true ↔ a ≤ b := fileName_le stage ha hb

theorem c01_names_distinct (stage : Name) (a b : Nat) (h : a ≠ b) :
    fileName stage a ≠ fileName stage b := fun hc => h (fileName_inj stage hc)

/-- C01 fails at one million steps: after saving step 999999 and then step 1000000, both intact,
restore returns step 999999's state and restarts at step 1000000. -/
theorem c01_million (strict : Bool) :
    restore [] strict (.dir (runEvents [] []
      [Event.saved 999999 (num 1), .saved 1000000 (num 2)])) (num 0) = .ok (1000000, num 1) := by
  have d1 : pad6 999999 = ['9', '9', '9', '9', '9', '9'] := by simp [pad6, decimal, digitChar]
  have d2 : pad6 1000000 = ['1', '0', '0', '0', '0', '0', '0'] := by simp [pad6, decimal, digitChar]
  have hd1 : fileName [] 999999 = "ckpt_999999.npz".toList := by
    simp [fileName, d1, prefixOf, ckptWord, dotNpz]
  have hd2 : fileName [] 1000000 = "ckpt_1000000.npz".toList := by
    simp [fileName, d2, prefixOf, ckptWord, dotNpz]
  have e1 : runEvents [] [] [Event.saved 999999 (num 1), .saved 1000000 (num 2)] =
      [(fileName [] 999999, .intact ⟨999999, [(dotNpy, ⟨[], [1]⟩)]⟩),
       (fileName [] 1000000, .intact ⟨1000000, [(dotNpy, ⟨[], [2]⟩)]⟩)] := by
    have hne : fileName [] 999999 ≠ fileName [] 1000000 :=
      fun hc => absurd (fileName_inj _ hc) (by decide)
    show dictSet (dictSet [] (fileName [] 999999) _) (fileName [] 1000000) _ = _
    simp only [dictSet, if_neg hne]
    rfl
  rw [e1]
  simp only [restore, List.filter, fileName_glob, sortDesc, insertDesc]
  have : nameLe (fileName [] 1000000) (fileName [] 999999) = true := by
    rw [hd1, hd2]; decide
  rw [this]
  rfl

/-! ## C49: stages sharing one directory -/

/-- **C49** (for stage names that do not extend one another by `_ckpt_…`).  The search pattern of
stage `a` matches a file saved by stage `b` only if `b`'s file stem begins with `a`'s; in
particular if `a` and `b` are non-empty, different and contain no underscore, restoring stage `a`
ignores every checkpoint of stage `b`. -/
theorem c49_isolated_partial (a b : Name) (step : Nat) (ha : a ≠ []) (hb : b ≠ [])
    (hua : '_' ∉ a) (hub : '_' ∉ b) (hab : a ≠ b) :
    globMatch a (fileName b step) = false := by
  cases hg : globMatch a (fileName b step) with
  | false => rfl
  | true =>
    unfold globMatch at hg
    simp only [Bool.and_eq_true, List.isPrefixOf_iff_prefix] at hg
    obtain ⟨⟨⟨r, hr⟩, _⟩, _⟩ := hg
    unfold fileName prefixOf at hr
    simp only [if_neg ha, if_neg hb, List.append_assoc, List.cons_append, List.nil_append] at hr
    have gen : ∀ (a b x y : List Char), '_' ∉ a → '_' ∉ b → a ++ '_' :: x = b ++ '_' :: y → a = b := by
      intro a
      induction a with
      | nil => intro b x y _ hb h; cases b with
        | nil => rfl
        | cons c b => simp at h; simp [← h.1] at hb
      | cons c a ih => intro b x y ha hb h; cases b with
        | nil => simp at h; simp [h.1] at ha
        | cons c' b =>
          simp at h ha hb
          rw [h.1, ih b x y ha.2 hb.2 h.2]
    exact absurd (gen _ _ _ _ hua hub hr) hab

example : ("pretrain".toList ≠ [] ∧ "train".toList ≠ [] ∧ '_' ∉ "pretrain".toList ∧
    '_' ∉ "train".toList ∧ "pretrain".toList ≠ "train".toList) := by decide

/-- An unnamed manager (empty prefix) does not pick up the files of a named stage, unless the
stage's name itself begins with `ckpt`. -/
theorem c49_unnamed_partial (b : Name) (step : Nat) (hb : b ≠ []) (hp : ¬ ckptWord <+: b ++ ['_']) :
    globMatch [] (fileName b step) = false := by
  cases hg : globMatch [] (fileName b step) with
  | false => rfl
  | true =>
    unfold globMatch at hg
    simp only [Bool.and_eq_true, List.isPrefixOf_iff_prefix] at hg
    obtain ⟨⟨h1, _⟩, _⟩ := hg
    have h2 : b ++ ['_'] <+: fileName b step := by
      unfold fileName prefixOf
      rw [if_neg hb, List.append_assoc, List.append_assoc]
      exact List.prefix_append _ _
    have h3 : ckptWord <+: fileName b step := by
      simpa [prefixOf] using h1
    rcases List.prefix_or_prefix_of_prefix h2 h3 with h | h
    · obtain ⟨r, hr⟩ := h
      exfalso
      apply hp
      match b, hr with
      | [], _ => exact absurd rfl hb
      | [_], hr => simp [ckptWord] at hr
      | [_, _], hr => simp [ckptWord] at hr
      | [_, _, _], hr => simp [ckptWord] at hr
      | [_, _, _, _], hr => simp [ckptWord] at hr; simp [ckptWord, hr]
      | _ :: _ :: _ :: _ :: _ :: _, hr => simp [ckptWord] at hr
    · exact absurd h hp

example : "train".toList ≠ [] ∧ ¬ ckptWord <+: "train".toList ++ ['_'] := by decide

/-- C49 fails in general: the pattern of stage `train` matches checkpoints of a stage called
`train_ckpt`, and they sort before its own. -/
theorem c49_capture (s s' : Nat) (hs : s < 1000000) :
    globMatch "train".toList (fileName "train_ckpt".toList s') = true ∧
    nameLe (fileName "train".toList s) (fileName "train_ckpt".toList s') = true := by
  constructor
  · unfold globMatch
    simp only [Bool.and_eq_true, decide_eq_true_eq, List.isPrefixOf_iff_prefix,
      List.isSuffixOf_iff_suffix]
    refine ⟨⟨⟨"ckpt_".toList ++ pad6 s' ++ dotNpz, ?_⟩, List.suffix_append _ _⟩, ?_⟩
    · simp [fileName, prefixOf, ckptWord]
    · simp [fileName, prefixOf, ckptWord]; omega
  · have e1 : fileName "train".toList s = "train_ckpt_".toList ++ (pad6 s ++ dotNpz) := by
      simp [fileName, prefixOf, ckptWord]
    have e2 : fileName "train_ckpt".toList s' = "train_ckpt_".toList ++ ("ckpt_".toList ++ pad6 s' ++ dotNpz) := by
      simp [fileName, prefixOf, ckptWord]
    rw [e1, e2, nameLe_append_left]
    have hl := pad6_length hs
    have hd := pad6_digits s
    cases hp : pad6 s with
    | nil => rw [hp] at hl; simp at hl
    | cons c r =>
      obtain ⟨d, hd, rfl⟩ := hd c (by rw [hp]; simp)
      have e3 : "ckpt_".toList = 'c' :: "kpt_".toList := by rfl
      rw [e3]
      simp only [List.cons_append, nameLe, digitChar_toNat hd]
      have : 48 + d < 'c'.toNat := by
        have : 'c'.toNat = 99 := rfl
        omega
      rw [if_pos this]

end Jaqmc.Checkpoint.Props
