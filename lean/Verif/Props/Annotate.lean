import Verif.Spec.Annotate
import Mathlib.Data.List.Induction
import Mathlib.Data.List.Basic
/-! # C131: source comments in the saved configuration -/

namespace Jaqmc.Annotate.Props
open Jaqmc.Annotate
open Jaqmc.Annotate.Spec

theorem takeWhile_all {α : Type} {p : α → Bool} : ∀ l : List α, ∀ c ∈ l.takeWhile p, p c = true := by
  intro l
  induction l with
  | nil => simp
  | cons x r ih =>
    intro c hc
    rw [List.takeWhile_cons] at hc
    split at hc
    · rcases List.mem_cons.1 hc with rfl | hc
      · assumption
      · exact ih c hc
    · simp at hc

/-- **C131.** Annotating changes nothing but adding comments: for any text, what is written is the same lines
in the same order, with lines of the form `blanks # text` in between. -/
theorem c131_only_comments (sources : Line → Option Source) (verbose : Bool) (lines : List Line) :
    ∃ blocks : List (List Line × Line),
      annotate sources verbose lines = blocks.flatMap (fun b => b.1 ++ [b.2]) ∧
      blocks.map Prod.snd = lines ∧ ∀ b ∈ blocks, ∀ l ∈ b.1, IsComment l := by
  unfold annotate
  generalize ([] : List (Nat × Line)) = stack
  induction lines generalizing stack with
  | nil => exact ⟨[], rfl, rfl, by simp⟩
  | cons line rest ih =>
    have one : ∃ c, (annotateLine sources verbose stack line).2 = c ++ [line] ∧ ∀ l ∈ c, IsComment l := by
      unfold annotateLine
      split
      · exact ⟨[], rfl, by simp⟩
      · rename_i indent key hm
        have hblank : ∀ c ∈ indent, c.isWhitespace = true := by
          unfold matchKey at hm
          dsimp only at hm
          split at hm
          · cases hm
          · split at hm
            · cases hm
              exact takeWhile_all _
            · cases hm
        dsimp only
        split
        · exact ⟨[], rfl, by simp⟩
        · rename_i s hs
          refine ⟨_, rfl, ?_⟩
          intro l hl
          unfold comments at hl
          rcases List.mem_cons.1 hl with rfl | hl
          · exact ⟨indent, "Defined in ".toList ++ s.file ++ ':' :: (toString s.lineno).toList, by simp, hblank⟩
          · split at hl
            · obtain ⟨d, _, rfl⟩ := List.mem_map.1 hl
              exact ⟨indent, d, by simp, hblank⟩
            · simp at hl
    obtain ⟨c, hc, hcom⟩ := one
    obtain ⟨blocks, h1, h2, h3⟩ := ih (annotateLine sources verbose stack line).1
    refine ⟨(c, line) :: blocks, ?_, by simp [h2], ?_⟩
    · unfold annotateFrom
      dsimp only
      rw [hc, h1]
      simp
    · intro b hb
      rcases List.mem_cons.1 hb with rfl | hb
      · exact hcom
      · exact h3 b hb

theorem takeWhile_append_stop {α : Type} {p : α → Bool} (a b : List α) (ha : ∀ c ∈ a, p c = true)
    (hb : ∀ c, b.head? = some c → p c = false) :
    (a ++ b).takeWhile p = a ∧ (a ++ b).dropWhile p = b := by
  induction a with
  | nil =>
    cases b with
    | nil => simp
    | cons x r => simp [hb x rfl]
  | cons x r ih =>
    have := ih fun c hc => ha c (by simp [hc])
    simp [ha x (by simp), this.1, this.2]

theorem match_key (level : Nat) (key text : Line) (hk : PlainKey key) :
    matchKey (indent level ++ key ++ ':' :: text) = some (indent level, key) := by
  obtain ⟨x, r, rfl⟩ := List.exists_cons_of_ne_nil hk.1
  have h1 := takeWhile_append_stop (p := Char.isWhitespace) (indent level) ((x :: r) ++ ':' :: text)
    (by intro c hc; rw [List.eq_of_mem_replicate hc]; rfl)
    (by intro c hc; simp only [List.cons_append, List.head?_cons, Option.some.injEq] at hc; subst hc
        exact (hk.2 _ (by simp)).2.1)
  have h2 := takeWhile_append_stop (p := keyChar) (x :: r) (':' :: text)
    (by intro c hc
        obtain ⟨g1, g2, g3⟩ := hk.2 c hc
        simp [keyChar, g1, g2, g3])
    (by intro c hc; simp only [List.head?_cons, Option.some.injEq] at hc; subst hc; rfl)
  unfold matchKey
  dsimp only
  rw [List.append_assoc, h1.1, h1.2, h2.1, h2.2]
  simp

/-- **C131.** A comment line is never taken for a key, whatever it says and however far it is indented. -/
theorem c131_comment_line (level : Nat) (text : Line) (sources : Line → Option Source) (verbose : Bool) (before after : List Line) :
    ∃ a b, annotate sources verbose (before ++ after) = a ++ b ∧
      annotate sources verbose (before ++ (indent level ++ '#' :: text) :: after) = a ++ (indent level ++ '#' :: text) :: b := by
  have h1 := takeWhile_append_stop (p := Char.isWhitespace) (indent level) ('#' :: text)
    (by intro c hc; rw [List.eq_of_mem_replicate hc]; rfl)
    (by intro c hc; simp only [List.head?_cons, Option.some.injEq] at hc; subst hc; rfl)
  have hm : matchKey (indent level ++ '#' :: text) = none := by
    unfold matchKey
    dsimp only
    rw [h1.1, h1.2]
    simp [keyChar]
  have key : ∀ before st, ∃ a b, annotateFrom sources verbose st (before ++ after) = a ++ b ∧
      annotateFrom sources verbose st (before ++ (indent level ++ '#' :: text) :: after) = a ++ (indent level ++ '#' :: text) :: b := by
    intro before
    induction before with
    | nil =>
      intro st
      refine ⟨[], annotateFrom sources verbose st after, rfl, ?_⟩
      have : annotateLine sources verbose st (indent level ++ '#' :: text) = (st, [indent level ++ '#' :: text]) := by
        unfold annotateLine; rw [hm]
      show (annotateLine sources verbose st (indent level ++ '#' :: text)).2 ++
        annotateFrom sources verbose (annotateLine sources verbose st (indent level ++ '#' :: text)).1 after = _
      rw [this]; rfl
    | cons l ls ih =>
      intro st
      obtain ⟨a, b, e1, e2⟩ := ih (annotateLine sources verbose st l).1
      refine ⟨(annotateLine sources verbose st l).2 ++ a, b, ?_, ?_⟩
      · show (annotateLine sources verbose st l).2 ++ annotateFrom sources verbose _ (ls ++ after) = _
        rw [e1, List.append_assoc]
      · show (annotateLine sources verbose st l).2 ++ annotateFrom sources verbose _ (ls ++ _ :: after) = _
        rw [e2, List.append_assoc]
  exact key before []

theorem joinDots_append (p : List Line) (hp : p ≠ []) (k : Line) :
    joinDots (p ++ [k]) = joinDots p ++ '.' :: k := by
  induction p with
  | nil => exact absurd rfl hp
  | cons x r ih =>
    cases r with
    | nil => rfl
    | cons y r => 
      have := ih (by simp)
      simp only [List.cons_append] at this ⊢
      show x ++ '.' :: joinDots (y :: (r ++ [k])) = (x ++ '.' :: joinDots (y :: r)) ++ '.' :: k
      rw [this]
      simp

theorem joinDots_append_list (p q : List Line) (hp : p ≠ []) (hq : q ≠ []) :
    ∃ tail, joinDots (p ++ q) = joinDots p ++ '.' :: tail := by
  induction q using List.reverseRecOn with
  | nil => exact absurd rfl hq
  | append_singleton q k ih =>
    by_cases h : q = []
    · subst h
      exact ⟨k, by rw [List.nil_append]; exact joinDots_append p hp k⟩
    · obtain ⟨tail, ht⟩ := ih h
      refine ⟨tail ++ '.' :: k, ?_⟩
      rw [← List.append_assoc, joinDots_append (p ++ q) (by simp [hp]), ht]
      simp

/-- The stack for a path: level by level. -/
def stackOf : Nat → List Line → List (Nat × Line)
  | _, [] => []
  | d, k :: ks => stackOf (d + 1) ks ++ [(2 * d, k)]

theorem stackOf_append (d : Nat) (p : List Line) (k : Line) :
    stackOf d (p ++ [k]) = (2 * (d + p.length), k) :: stackOf d p := by
  induction p generalizing d with
  | nil => simp [stackOf]
  | cons x r ih =>
    simp only [List.cons_append, stackOf, ih (d + 1), List.length_cons]
    congr 3
    omega

theorem stackOf_path (d : Nat) (p : List Line) : (stackOf d p).reverse.map Prod.snd = p := by
  induction p generalizing d with
  | nil => rfl
  | cons x r ih => simp [stackOf, ih]

theorem stackOf_lt (d : Nat) (p : List Line) : ∀ e ∈ stackOf d p, e.1 < 2 * (d + p.length) := by
  induction p generalizing d with
  | nil => simp [stackOf]
  | cons x r ih =>
    intro e he
    simp only [stackOf, List.mem_append, List.mem_singleton, List.length_cons] at he ⊢
    rcases he with he | rfl
    · have := ih (d + 1) e he; omega
    · show 2 * d < _; omega

theorem dropWhile_over (pre st : List (Nat × Line)) (n : Nat) (hpre : ∀ e ∈ pre, n ≤ e.1)
    (hst : ∀ e ∈ st, e.1 < n) : (pre ++ st).dropWhile (fun e => decide (e.1 ≥ n)) = st := by
  refine (takeWhile_append_stop pre st ?_ ?_).2
  · intro c hc; simpa using hpre c hc
  · intro c hc
    have : c ∈ st := by
      cases st with
      | nil => simp at hc
      | cons x r => simp at hc; simp [hc]
    simpa using hst c this

theorem annotateFrom_cons (sources : Line → Option Source) (verbose : Bool) (st : List (Nat × Line)) (l : Line)
    (ls : List Line) : annotateFrom sources verbose st (l :: ls) =
      (annotateLine sources verbose st l).2
        ++ annotateFrom sources verbose (annotateLine sources verbose st l).1 ls := rfl

/-- The further lines of a value: nothing is written between them, and the stack stays above the key. -/
theorem more_lines (sources : Line → Option Source) (verbose : Bool) (path : List Line) (hp : path ≠ [])
    (hs : ∀ tail, sources (joinDots path ++ '.' :: tail) = none) (rest : List Line) :
    ∀ (more : List Line) (pre : List (Nat × Line)),
    (∀ l ∈ more, ∀ i k, matchKey l = some (i, k) → 2 * path.length ≤ i.length + 1) →
    (∀ e ∈ pre, 2 * path.length ≤ e.1 + 1) →
    ∃ pre', (∀ e ∈ pre', 2 * path.length ≤ e.1 + 1) ∧
      annotateFrom sources verbose (pre ++ stackOf 0 path) (more ++ rest)
        = more ++ annotateFrom sources verbose (pre' ++ stackOf 0 path) rest := by
  intro more
  induction more with
  | nil => intro pre _ hpre; exact ⟨pre, hpre, rfl⟩
  | cons l ls ih =>
    intro pre hm hpre
    have htail : ∀ x ∈ ls, ∀ i k, matchKey x = some (i, k) → 2 * path.length ≤ i.length + 1 :=
      fun x hx => hm x (by simp [hx])
    rw [List.cons_append, annotateFrom_cons]
    unfold annotateLine
    cases hl : matchKey l with
    | none =>
      obtain ⟨pre', h1, h2⟩ := ih pre htail hpre
      exact ⟨pre', h1, by dsimp only; rw [h2]; simp only [List.cons_append, List.nil_append]⟩
    | some ik =>
      obtain ⟨i, k⟩ := ik
      have hi := hm l (by simp) i k hl
      dsimp only
      -- what the loop drops is within `pre`
      have hdrop : ∃ pre₂, (∀ e ∈ pre₂, 2 * path.length ≤ e.1 + 1) ∧
          (pre ++ stackOf 0 path).dropWhile (fun e => decide (e.1 ≥ i.length)) = pre₂ ++ stackOf 0 path := by
        clear ih htail
        induction pre with
        | nil =>
          refine ⟨[], by simp, ?_⟩
          have := dropWhile_over [] (stackOf 0 path) i.length (by simp) (by
            intro e he
            obtain ⟨p', x, rfl⟩ : ∃ p' x, path = p' ++ [x] :=
              ⟨_, _, (List.dropLast_concat_getLast hp).symm⟩
            rw [stackOf_append] at he
            rw [List.length_append, List.length_singleton] at hi
            rcases List.mem_cons.1 he with rfl | he
            · show 2 * (0 + p'.length) < _; omega
            · have := stackOf_lt 0 p' e he; omega)
          simpa using this
        | cons e r ih2 =>
          by_cases he : e.1 ≥ i.length
          · obtain ⟨q, h1, h2⟩ := ih2 fun x hx => hpre x (by simp [hx])
            exact ⟨q, h1, by simp [he, h2]⟩
          · exact ⟨e :: r, hpre, by simp [he]⟩
      obtain ⟨pre₂, h1, h2⟩ := hdrop
      rw [h2]
      have hnone : sources (joinDots ((((i.length, k) :: (pre₂ ++ stackOf 0 path)).reverse).map Prod.snd)) = none := by
        have : (((i.length, k) :: (pre₂ ++ stackOf 0 path)).reverse).map Prod.snd
            = path ++ ((pre₂.reverse.map Prod.snd) ++ [k]) := by
          rw [List.reverse_cons, List.reverse_append, List.map_append, List.map_append, stackOf_path]
          simp
        rw [this]
        obtain ⟨tail, ht⟩ := joinDots_append_list path (pre₂.reverse.map Prod.snd ++ [k]) hp (by simp)
        rw [ht]
        exact hs tail
      rw [hnone]
      dsimp only
      obtain ⟨pre', g1, g2⟩ := ih ((i.length, k) :: pre₂) htail (by
        intro e he
        rcases List.mem_cons.1 he with rfl | he
        · exact hi
        · exact h1 e he)
      refine ⟨pre', g1, ?_⟩
      have : (i.length, k) :: (pre₂ ++ stackOf 0 path) = ((i.length, k) :: pre₂) ++ stackOf 0 path := rfl
      rw [this, g2]
      simp only [List.cons_append, List.nil_append]

theorem key_line (sources : Line → Option Source) (verbose : Bool) (path : List Line) (key text : Line)
    (hk : PlainKey key) (pre : List (Nat × Line)) (hpre : ∀ e ∈ pre, 2 * path.length ≤ e.1) (rest : List Line) :
    annotateFrom sources verbose (pre ++ stackOf 0 path) ((indent path.length ++ key ++ ':' :: text) :: rest)
      = above sources verbose (indent path.length ++ key ++ ':' :: text, some (path ++ [key]))
        ++ (indent path.length ++ key ++ ':' :: text)
        :: annotateFrom sources verbose (stackOf 0 (path ++ [key])) rest := by
  have hlen : (indent path.length).length = 2 * path.length := by simp [indent]
  have hst : (2 * path.length, key) :: stackOf 0 path = stackOf 0 (path ++ [key]) := by
    rw [stackOf_append, Nat.zero_add]
  rw [annotateFrom]
  unfold annotateLine
  rw [match_key path.length key text hk]
  dsimp only
  rw [hlen, dropWhile_over pre (stackOf 0 path) (2 * path.length) hpre (by
    intro e he; have := stackOf_lt 0 path e he; omega), hst, stackOf_path]
  unfold above
  dsimp only
  cases hs : sources (joinDots (path ++ [key])) with
  | none => simp
  | some s => simp

theorem annotate_render (sources : Line → Option Source) (verbose : Bool) : ∀ (doc : Doc) (path : List Line)
    (pre : List (Nat × Line)) (rest : List Line), Proper sources path.length path doc →
    (∀ e ∈ pre, 2 * path.length ≤ e.1) →
    ∃ pre', (∀ e ∈ pre', 2 * path.length ≤ e.1) ∧
      annotateFrom sources verbose (pre ++ stackOf 0 path)
          ((render path.length path doc).map Prod.fst ++ rest)
        = (render path.length path doc).flatMap (fun x => above sources verbose x ++ [x.1])
          ++ annotateFrom sources verbose (pre' ++ stackOf 0 path) rest := by
  intro doc
  induction doc with
  | done => intro path pre rest _ hpre; exact ⟨pre, hpre, rfl⟩
  | value key text more next ih =>
    intro path pre rest hprop hpre
    obtain ⟨hk, hm, hsrc, hnext⟩ := hprop
    have hcons : ∀ pre₂ : List (Nat × Line), pre₂ ++ stackOf 0 (path ++ [key])
        = (pre₂ ++ [(2 * path.length, key)]) ++ stackOf 0 path := by
      intro pre₂
      rw [stackOf_append, Nat.zero_add]
      simp
    simp only [render, List.cons_append, List.map_cons, List.map_append, List.map_map, List.append_assoc]
    rw [show (indent path.length ++ (key ++ ':' :: text)) = indent path.length ++ key ++ ':' :: text by simp]
    rw [key_line sources verbose path key text hk pre hpre]
    have hmid : ∃ pre₂ : List (Nat × Line), (∀ e ∈ pre₂, 2 * (path ++ [key]).length ≤ e.1 + 1) ∧
        annotateFrom sources verbose (stackOf 0 (path ++ [key]))
          (more ++ ((render path.length path next).map Prod.fst ++ rest))
        = more ++ annotateFrom sources verbose (pre₂ ++ stackOf 0 (path ++ [key]))
            ((render path.length path next).map Prod.fst ++ rest) := by
      by_cases hne : more = []
      · subst hne; exact ⟨[], by simp, rfl⟩
      · have := more_lines sources verbose (path ++ [key]) (by simp) (hsrc hne)
          ((render path.length path next).map Prod.fst ++ rest) more [] (by
            intro l hl i k hik
            have := hm l hl i k hik
            rw [List.length_append, List.length_singleton]; omega) (by simp)
        simpa using this
    obtain ⟨pre₂, h1, h2⟩ := hmid
    obtain ⟨pre', h3, h4⟩ := ih path (pre₂ ++ [(2 * path.length, key)]) rest hnext (by
      intro e he
      rcases List.mem_append.1 he with he | he
      · have := h1 e he
        rw [List.length_append, List.length_singleton] at this; omega
      · rw [List.mem_singleton.1 he]; exact Nat.le_refl _)
    refine ⟨pre', h3, ?_⟩
    have e1 : (more.map (Prod.fst ∘ fun l => ((l, none) : Line × Option (List Line)))) = more := by
      simp [Function.comp_def]
    have e2 : (more.map fun l => ((l, none) : Line × Option (List Line))).flatMap
        (fun x => above sources verbose x ++ [x.1]) = more := by
      clear h2 hm hsrc e1
      induction more with
      | nil => rfl
      | cons a r ih => simpa [above] using ih
    rw [e1, h2, hcons, h4]
    simp only [List.flatMap_cons, List.flatMap_append, e2, List.append_assoc, List.cons_append, List.nil_append]
  | nested key body next ihb ihn =>
    intro path pre rest hprop hpre
    obtain ⟨hk, hbody, hnext⟩ := hprop
    have hcons : ∀ pre₂ : List (Nat × Line), pre₂ ++ stackOf 0 (path ++ [key])
        = (pre₂ ++ [(2 * path.length, key)]) ++ stackOf 0 path := by
      intro pre₂
      rw [stackOf_append, Nat.zero_add]
      simp
    have hlen : (path ++ [key]).length = path.length + 1 := by simp
    simp only [render, List.cons_append, List.map_cons, List.map_append, List.append_assoc]
    rw [show (indent path.length ++ (key ++ [':'])) = indent path.length ++ key ++ ':' :: [] by simp]
    rw [key_line sources verbose path key [] hk pre hpre]
    obtain ⟨pre₂, h1, h2⟩ := ihb (path ++ [key]) [] ((render path.length path next).map Prod.fst ++ rest)
      (by rw [hlen]; exact hbody) (by simp)
    rw [hlen, List.nil_append] at h2
    obtain ⟨pre', h3, h4⟩ := ihn path (pre₂ ++ [(2 * path.length, key)]) rest hnext (by
      intro e he
      rcases List.mem_append.1 he with he | he
      · have := h1 e he
        rw [hlen] at this; omega
      · rw [List.mem_singleton.1 he]; exact Nat.le_refl _)
    refine ⟨pre', h3, ?_⟩
    rw [h2, hcons, h4]
    simp only [List.flatMap_cons, List.flatMap_append, List.append_assoc, List.cons_append, List.nil_append]

/-- **C131.** For every nested configuration with plain keys the comments are where they belong: above the
line of each key whose definition is known, indented like the key, naming the source of exactly that path
(and its docstring if asked for); nowhere else, in particular not inside values of several lines. -/
theorem c131_annotated (sources : Line → Option Source) (verbose : Bool) (doc : Doc)
    (h : Proper sources 0 [] doc) :
    annotate sources verbose ((render 0 [] doc).map Prod.fst)
      = (render 0 [] doc).flatMap fun x => above sources verbose x ++ [x.1] := by
  obtain ⟨pre', _, h2⟩ := annotate_render sources verbose doc [] [] [] h (by simp)
  simpa [annotate, annotateFrom, stackOf] using h2

/-- The configuration `{run: {lr: 0.05, m: [[1.0], [2.0]]}, "opt": {…}}`. -/
def sampleDoc : Doc :=
  .nested "run".toList (.value "lr".toList " 0.05".toList []
    (.value "m".toList [] ["  - [1.0]".toList, "  - [2.0]".toList]
      (.value "note".toList " 'a long text".toList ["    lr: of two lines'".toList] .done)))
    (.nested "opt".toList (.value "lr".toList " 1".toList [] .done) .done)

/-- Sources of `run` and of `opt.lr`. -/
def sampleSources (p : Line) : Option Source :=
  if p = "run".toList then some ⟨"a.py".toList, 3, some ["Doc.".toList]⟩
  else if p = "opt.lr".toList then some ⟨"b.py".toList, 14, none⟩ else none

example : annotate sampleSources true ((render 0 [] sampleDoc).map Prod.fst) =
    ["# Defined in a.py:3".toList, "# Doc.".toList, "run:".toList, "  lr: 0.05".toList, "  m:".toList,
     "  - [1.0]".toList, "  - [2.0]".toList, "  note: 'a long text".toList, "    lr: of two lines'".toList,
     "opt:".toList, "  # Defined in b.py:14".toList, "  lr: 1".toList] := by decide +kernel

theorem sample_none (p tail : Line) (h1 : p.length ≥ 5) (h2 : 'u' ∈ p ∧ 'n' ∈ p) :
    sampleSources (p ++ '.' :: tail) = none := by
  unfold sampleSources
  rw [if_neg, if_neg]
  · intro h
    have h3 : 'u' ∈ "opt.lr".toList := by rw [← h]; simp [h2.1]
    revert h3; decide
  · intro h
    have := congrArg List.length h
    simp at this
    omega

example : Proper sampleSources 0 [] sampleDoc := by
  have hk : ∀ s : String, s.toList ≠ [] → (s.toList.all fun c => c ≠ ':' && !c.isWhitespace && c ≠ '#') = true →
      PlainKey s.toList := by
    intro s h1 h2
    refine ⟨h1, fun c hc => ?_⟩
    have := List.all_eq_true.1 h2 c hc
    simp at this
    exact ⟨this.1.1, this.1.2, this.2⟩
  refine ⟨hk _ (by decide) (by decide), ⟨hk _ (by decide) (by decide), by simp, by simp,
    hk _ (by decide) (by decide), ?_, ?_, hk _ (by decide) (by decide), ?_, ?_, trivial⟩,
    hk _ (by decide) (by decide), ⟨hk _ (by decide) (by decide), by simp, by simp, trivial⟩, trivial⟩
  · intro l hl i k hik
    simp only [List.mem_cons, List.not_mem_nil, or_false] at hl
    rcases hl with rfl | rfl
    · have : matchKey "  - [1.0]".toList = none := by decide
      rw [this] at hik; cases hik
    · have : matchKey "  - [2.0]".toList = none := by decide
      rw [this] at hik; cases hik
  · intro _ tail
    exact sample_none _ tail (by decide) (by decide)
  · intro l hl i k hik
    obtain rfl := List.mem_singleton.1 hl
    have : matchKey "    lr: of two lines'".toList = some ("    ".toList, "lr".toList) := by decide
    rw [this] at hik
    cases hik
    decide
  · intro _ tail
    exact sample_none _ tail (by decide) (by decide)

/-- **C131 (finding).** A key with a space is not recognised: what is below it is taken for what is below its
parent, here `run.my group.lr` for `run.lr`. -/
theorem c131_space_in_key :
    annotate (fun p => if p = "run.lr".toList then some ⟨"a.py".toList, 3, none⟩ else none) false
      ["run:".toList, "  my group:".toList, "    lr: 1".toList]
    = ["run:".toList, "  my group:".toList, "    # Defined in a.py:3".toList, "    lr: 1".toList] := by
  decide +kernel

end Jaqmc.Annotate.Props
