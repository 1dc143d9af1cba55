import Verif.Lemmas.Writers
import Verif.Lemmas.RunLoop
import Verif.Spec.Writers
/-! # CSV statistics: C04, C50 -/
namespace Jaqmc.Writers.Props
open Jaqmc.RunLoop Jaqmc.RunLoop.Spec Jaqmc.Writers Jaqmc.Writers.Spec

theorem csvText_eq {R : Type} (rd : Render R) (h : List Char) (t : List (Nat × R)) :
    csvText rd h t = text (h :: rowTexts rd t) := by
  simp [csvText, text, rowTexts, Function.comp_def]

/-- **C04** (no kill inside the very first header line). Let any valid sequence of writer sessions
happen (each resuming at a step all of whose predecessors were recorded), each possibly killed
inside a `write`.  Then the CSV file is empty with nothing recorded, or it is the header followed by
exactly the rows of the surviving timeline, in order, followed by at most one incomplete line; the
incomplete line is absent if the last session was not killed inside a `write`; and the rows of the
surviving timeline are those of steps `0, 1, …, n-1`. -/
theorem c04_csv_partial {R : Type} (rd : Render R) (H : List Char) (events : List (CsvEvent R))
    (hvalid : Valid 0 (events.map CsvEvent.session))
    (hhead : ∀ e ∈ events, ∀ r ∈ e.stats, rd.header r = H)
    (hH : '\n' ∉ H) (hrow : ∀ i r, '\n' ∉ rd.row i r)
    (htorn : ∀ e ∈ events, ∀ i r m, e.torn = some (i, r, m) → 0 < m ∧
      (e.session.start = 0 → e.session.rows = [] →
        m ≤ (line (rd.row i r)).length ∨ (line H).length + (line (rd.row i r)).length ≤ m)) :
    let t := timeline [] (events.map CsvEvent.session)
    t.map Prod.fst = List.range t.length ∧
    ((runCsv rd [] events = [] ∧ t = []) ∨
     ∃ tail, runCsv rd [] events = csvText rd H t ++ tail ∧ '\n' ∉ tail ∧
       ((∀ e, events.getLast? = some e → e.torn = none) → tail = [])) := by
  intro t
  have steps : ∀ (ss : List (Session R)) (t0 : List (Nat × R)),
      t0.map Prod.fst = List.range t0.length → Valid t0.length ss →
      (timeline t0 ss).map Prod.fst = List.range (timeline t0 ss).length := by
    intro ss
    induction ss with
    | nil => intro t0 h _; exact h
    | cons s ss ih =>
      intro t0 h hv
      obtain ⟨h1, h2, h3⟩ := hv
      have hlen : (t0.take s.start ++ s.rows).length = s.start + s.rows.length := by
        simp; omega
      apply ih
      · rw [hlen, List.map_append, List.map_take, h, h2, List.take_range,
          Nat.min_eq_left h1, List.range_eq_range', List.range_eq_range']
        have := List.range'_append (s := 0) (m := s.start) (n := s.rows.length) (step := 1)
        simpa using this
      · rw [hlen]; exact h3
  refine ⟨steps _ [] rfl hvalid, ?_⟩
  simp only [csvText_eq]
  have main : ∀ (es : List (CsvEvent R)) (c : List Char) (t0 : List (Nat × R)),
      Valid t0.length (es.map CsvEvent.session) →
      (∀ e ∈ es, ∀ r ∈ e.stats, rd.header r = H) →
      (∀ e ∈ es, ∀ i r m, e.torn = some (i, r, m) → 0 < m ∧
        (e.session.start = 0 → e.session.rows = [] →
          m ≤ (line (rd.row i r)).length ∨ (line H).length + (line (rd.row i r)).length ≤ m)) →
      ((c = [] ∧ t0 = []) ∨ ∃ tail, c = text (H :: rowTexts rd t0) ++ tail ∧ '\n' ∉ tail ∧
        (es = [] → tail = [] ∨ ∃ e : CsvEvent R, e ∈ events.getLast? ∧ e.torn ≠ none)) →
      (∀ e ∈ es.getLast?, e ∈ events.getLast?) →
      ((runCsv rd c es = [] ∧ timeline t0 (es.map CsvEvent.session) = []) ∨
       ∃ tail, runCsv rd c es = text (H :: rowTexts rd (timeline t0 (es.map CsvEvent.session))) ++ tail ∧
         '\n' ∉ tail ∧ (tail = [] ∨ ∃ e : CsvEvent R, e ∈ events.getLast? ∧ e.torn ≠ none)) := by
    intro es
    induction es with
    | nil =>
      intro c t0 _ _ _ hinv _
      rcases hinv with h | ⟨tail, h1, h2, h3⟩
      · left; exact h
      · right; exact ⟨tail, h1, h2, h3 rfl⟩
    | cons e es ih =>
      intro c t0 hv hh ht hinv hlast
      obtain ⟨hs1, hs2, hs3⟩ := hv
      have hlen : (t0.take e.session.start ++ e.session.rows).length
          = e.session.start + e.session.rows.length := by simp; omega
      refine ih _ (t0.take e.session.start ++ e.session.rows) (by rw [hlen]; exact hs3)
        (fun x hx => hh x (by simp [hx])) (fun x hx => ht x (by simp [hx])) ?_ ?_
      · -- the file after this session
        have hH' : ∀ r ∈ e.session.rows.map Prod.snd, rd.header r = H :=
          fun r hr => hh e (by simp) r (by simp [CsvEvent.stats, hr])
        -- torn tail analysis
        have tailCase : ∀ (c' : List Char) (t1 : List (Nat × R)), c' = text (H :: rowTexts rd t1) →
            ∃ tail, (match e.torn with
              | none => c'
              | some (i, r, m) =>
                c' ++ (pending rd false i r).take ((pending rd false i r).length - m))
              = text (H :: rowTexts rd t1) ++ tail ∧ '\n' ∉ tail ∧
              (es = [] → tail = [] ∨ ∃ e : CsvEvent R, e ∈ events.getLast? ∧ e.torn ≠ none) := by
          intro c' t1 hc'
          cases htt : e.torn with
          | none => exact ⟨[], by simp [hc'], by simp, fun _ => .inl rfl⟩
          | some q =>
            obtain ⟨i, r, m⟩ := q
            obtain ⟨hm, -⟩ := ht e (by simp) i r m htt
            refine ⟨(pending rd false i r).take ((pending rd false i r).length - m), by rw [hc'], ?_, ?_⟩
            · intro hmem
              simp only [pending, Bool.false_eq_true, if_false, List.nil_append, line] at hmem
              have : (rd.row i r ++ ['\r', '\n']).take ((rd.row i r ++ ['\r', '\n']).length - m)
                  <+: rd.row i r ++ ['\r'] := by
                have e1 : rd.row i r ++ ['\r', '\n'] = (rd.row i r ++ ['\r']) ++ ['\n'] := by simp
                rw [e1, List.take_append_of_le_length (by simp; omega)]
                exact List.take_prefix _ _
              have := this.subset hmem
              simp only [List.mem_append, List.mem_singleton] at this
              rcases this with h | h
              · exact hrow i r h
              · exact absurd h (by decide)
            · intro he
              right
              refine ⟨e, hlast e ?_, by rw [htt]; simp⟩
              rw [he]; simp
        have body : (c = [] ∧ t0 = []) ∨
            truncateTo c e.session.start = text (H :: rowTexts rd (t0.take e.session.start)) := by
          rcases hinv with h | ⟨tail, h1, h2, _⟩
          · left; exact h
          · right
            rw [h1, truncate_text H (rowTexts rd t0) tail _ hH ?_ h2 (by simp [rowTexts]; omega)]
            · simp [rowTexts, List.map_take]
            · intro l hl; simp only [rowTexts, List.mem_map] at hl
              obtain ⟨a, _, rfl⟩ := hl; exact hrow _ _
        rcases body with ⟨rfl, rfl⟩ | hbody
        · have hstart : e.session.start = 0 := by simpa using hs1
          have htr : truncateTo [] e.session.start = [] := by simp [truncateTo]
          unfold csvSession
          dsimp only
          rw [htr]
          cases hrows : e.session.rows with
          | nil =>
            simp only [writeAll, decide_true, List.take_nil, List.append_nil]
            cases htt : e.torn with
            | none => left; simp
            | some q =>
              obtain ⟨i, r, m⟩ := q
              obtain ⟨hm, hm2⟩ := ht e (by simp) i r m htt
              have hHr : rd.header r = H := hh e (by simp) r (by simp [CsvEvent.stats, htt])
              dsimp only
              simp only [pending, if_true, hHr, List.nil_append, List.length_append]
              rcases hm2 hstart hrows with h | h
              · right
                have htc := tailCase (text [H]) [] (by simp [rowTexts])
                rw [htt] at htc
                obtain ⟨tail, h1, h2, h3⟩ := htc
                refine ⟨tail, ?_, h2, h3⟩
                rw [← h1]
                simp only [pending, Bool.false_eq_true, if_false, List.nil_append, text, List.map_cons,
                  List.map_nil, List.flatten_cons, List.flatten_nil, List.append_nil]
                have e1 : (line H).length + (line (rd.row i r)).length - m
                  = (line H).length + ((line (rd.row i r)).length - m) := by omega
                rw [e1, List.take_length_add_append]
              · left
                constructor
                · have e1 : (line H).length + (line (rd.row i r)).length - m = 0 := by omega
                  rw [e1]; rfl
                · trivial
          | cons x rows =>
            right
            rw [decide_eq_true rfl, writeAll_true]
            have hx : rd.header x.2 = H := hH' x.2 (by rw [hrows]; simp)
            rw [hx]
            dsimp only
            have := tailCase (text (H :: rowTexts rd (x :: rows))) (x :: rows) rfl
            rw [List.take_nil, List.nil_append]
            exact this
        · right
          have hne : truncateTo c e.session.start ≠ [] := by rw [hbody]; exact text_ne_nil _ _
          unfold csvSession
          dsimp only
          rw [decide_eq_false hne, writeAll_false, hbody]
          dsimp only
          have e1 : text (H :: rowTexts rd (t0.take e.session.start)) ++ text (rowTexts rd e.session.rows)
              = text (H :: rowTexts rd (t0.take e.session.start ++ e.session.rows)) := by
            rw [← text_append]; simp [rowTexts]
          rw [e1]
          exact tailCase _ _ rfl
      · intro x hx
        apply hlast
        cases es with
        | nil => simp at hx
        | cons y es => simpa [List.getLast?_cons_cons] using hx
  rcases main events [] [] (by simpa using hvalid) hhead htorn (.inl ⟨rfl, rfl⟩) (fun e he => he) with h | ⟨tail, h1, h2, h3⟩
  · left; exact h
  · right
    refine ⟨tail, h1, h2, ?_⟩
    intro hl
    rcases h3 with h3 | ⟨e, he, hne⟩
    · exact h3
    · exact absurd (hl e he) hne

/-- C04 combined with the run loop: the writer sessions of *every* sequence of launches (killed
anywhere, aborted by signals or NaN) on one directory are valid, so `c04_csv_partial` applies. -/
theorem c04_sessions_valid {S K R : Type} (cfg : Config) (st : Stage S K R) (s0 : S)
    (launches : List (Launch K)) : Valid 0 (history cfg st s0 [] launches).2 :=
  history_valid cfg st s0 launches [] 0 (by simp [resume, latest])

/-- A rendering used in examples: header `h`, rows `r`. -/
def demo : Render Unit := ⟨fun _ => ['h'], fun _ _ => ['r']⟩

/-- The hypotheses of `c04_csv_partial` are met by a run that writes three rows, is killed inside
the fourth, and resumes at step 2. -/
example :
    let events : List (CsvEvent Unit) :=
      [⟨⟨0, [(0, ()), (1, ()), (2, ())]⟩, some (3, (), 2)⟩, ⟨⟨2, [(2, ()), (3, ())]⟩, none⟩]
    Valid 0 (events.map CsvEvent.session) ∧
    (∀ e ∈ events, ∀ r ∈ e.stats, demo.header r = ['h']) ∧
    (∀ e ∈ events, ∀ i r m, e.torn = some (i, r, m) → 0 < m ∧
      (e.session.start = 0 → e.session.rows = [] →
        m ≤ (line (demo.row i r)).length ∨ (line ['h']).length + (line (demo.row i r)).length ≤ m)) ∧
    runCsv demo [] events = csvText demo ['h'] [(0, ()), (1, ()), (2, ()), (3, ())] := by
  refine ⟨by simp [Valid, List.range'], by simp [demo], ?_, by decide⟩
  intro e he i r m h
  simp at he
  rcases he with rfl | rfl <;> simp at h
  exact ⟨by omega, by simp⟩

/-- C04 in full fails: if the first launch is killed while the header line is being written, the
restarted run never writes a header, and its first row is glued to the fragment. -/
theorem c04_torn_header :
    runCsv demo [] [⟨⟨0, []⟩, some (0, (), 4)⟩, ⟨⟨0, [(0, ())]⟩, none⟩] = ['h', '\r', 'r', '\r', '\n'] ∧
    runCsv demo [] [⟨⟨0, []⟩, some (0, (), 4)⟩, ⟨⟨0, [(0, ())]⟩, none⟩] ≠ csvText demo ['h'] [(0, ())] := by
  decide

/-- C04 fails for a run that continues from another directory's checkpoint (restore path different
from the save path): started twice from step `5`, the file keeps the rows of both attempts, because
it holds fewer than five rows and nothing is truncated. -/
theorem c04_fork_duplicates :
    runCsv demo [] [⟨⟨5, [(5, ()), (6, ())]⟩, none⟩, ⟨⟨5, [(5, ()), (6, ())]⟩, none⟩] =
      csvText demo ['h'] [(5, ()), (6, ()), (5, ()), (6, ())] := by
  decide

end Jaqmc.Writers.Props
