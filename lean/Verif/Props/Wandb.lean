import Verif.Spec.Wandb
import Mathlib.Data.List.Induction
/-! # C148: what the Weights & Biases writer sends -/

namespace Jaqmc.Wandb.Props
open Jaqmc.Wandb Jaqmc.Wandb.Spec

theorem play_append (a b : List Event) (o : Option (Option ℕ × ℕ)) : play (a ++ b) o = play b (play a o) := by
  induction a generalizing o with
  | nil => rfl
  | cons e a ih => exact ih _

/-- What a write with run `r` sends. -/
theorem write_open (w : Writer) (r : ℕ) (hw : w.run = some r) (step : ℕ) (stats : List (String × Value))
    (W : World) : ∃ l, write w step stats W = some ⟨W.active, W.next, W.events ++ l⟩ ∧
      (∀ e ∈ l, logRun e = some r) ∧ l.filterMap logged = [(step, stats)].filterMap visible := by
  unfold write
  rw [hw]
  dsimp only
  by_cases h : scalars stats = []
  · refine ⟨[], ?_, by simp, ?_⟩
    · rw [if_pos (by rw [h]; rfl), List.append_nil]
    · have : visible (step, stats) = none := by
        unfold visible
        dsimp only
        exact if_pos h
      simp [this]
  · refine ⟨[.log r step (scalars stats)], ?_, by simp [logRun], ?_⟩
    · rw [if_neg (by simpa using h)]
    · have : visible (step, stats) = some (step, scalars stats) := by
        unfold visible
        dsimp only
        exact if_neg h
      simp [this, logged]

theorem body_open (w : Writer) (r : ℕ) (hw : w.run = some r) : ∀ (ops : List Op) (W : World),
    ∃ l, (body w ops W).1 = ⟨W.active, W.next, W.events ++ l⟩ ∧ (∀ e ∈ l, logRun e = some r) ∧
      l.filterMap logged = (written ops).filterMap visible ∧
      ((body w ops W).2 = true ↔ Op.raise ∈ ops) := by
  intro ops
  induction ops with
  | nil => intro W; exact ⟨[], by simp [body], by simp, by simp [written], by simp [body]⟩
  | cons op ops ih =>
    intro W
    cases op with
    | raise => exact ⟨[], by simp [body], by simp, by simp [written], by simp [body]⟩
    | write step stats =>
      obtain ⟨l, h1, h2, h3⟩ := write_open w r hw step stats W
      obtain ⟨l', g1, g2, g3, g4⟩ := ih ⟨W.active, W.next, W.events ++ l⟩
      have hb : body w (.write step stats :: ops) W = body w ops ⟨W.active, W.next, W.events ++ l⟩ := by
        rw [body, h1]
      rw [hb]
      refine ⟨l ++ l', by rw [g1, List.append_assoc], ?_, ?_, ?_⟩
      · intro e he
        rcases List.mem_append.1 he with h | h
        · exact h2 e h
        · exact g2 e h
      · rw [List.filterMap_append, h3, g3, ← List.filterMap_append]
        rfl
      · rw [g4]; simp

theorem play_logs (r : ℕ) (n : ℕ) : ∀ l : List Event, (∀ e ∈ l, logRun e = some r) →
    play l (some (some r, n)) = some (some r, n) := by
  intro l
  induction l with
  | nil => intro _; rfl
  | cons e l ih =>
    intro h
    have he := h e (by simp)
    cases e with
    | log r' step stats =>
      obtain rfl : r' = r := by simpa [logRun] using he
      unfold play
      simp only [Option.bind_some, if_true]
      exact ih fun e he => h e (by simp [he])
    | _ => simp [logRun] at he

theorem logs_inits (r : ℕ) (l : List Event) (h : ∀ e ∈ l, logRun e = some r) :
    l.filterMap inits = [] ∧ l.filterMap finishes = [] := by
  constructor <;>
  · rw [List.filterMap_eq_nil_iff]
    intro e he
    have := h e he
    cases e <;> simp_all [logRun, inits, finishes]

/-- What holds after every act. -/
structure Good (acts : List Act) (s : World × Writer) : Prop where
  closed : s.2.run = none
  played : play s.1.events (some (none, 0)) = some (s.1.active, s.1.next)
  sent : s.1.events.filterMap logged = wanted acts
  paired : s.1.events.filterMap inits = s.1.events.filterMap finishes

theorem wanted_append (a b : List Act) : wanted (a ++ b) = wanted a ++ wanted b := by
  simp [wanted, List.flatMap_append, List.filterMap_append]

theorem good_act (acts : List Act) (a : Act) (s : World × Writer) (h : Good acts s) :
    Good (acts ++ [a]) (act a s).1 := by
  obtain ⟨h1, h2, h3, h4⟩ := h
  obtain ⟨W, w⟩ := s
  dsimp only at h1 h2 h3 h4
  cases a with
  | stage dir name ops =>
    have hw : wanted [Act.stage dir name ops] = (written ops).filterMap visible := by simp [wanted]
    unfold act session
    dsimp only
    cases ha : W.active with
    | some r =>
      dsimp only
      obtain ⟨l, g1, g2, g3, -⟩ := body_open { w with run := some r } r rfl ops W
      rw [g1]
      refine ⟨rfl, ?_, ?_, ?_⟩
      · dsimp only
        rw [play_append, h2, ha]
        exact play_logs r _ l g2
      · dsimp only
        rw [List.filterMap_append, h3, g3, wanted_append, hw]
      · dsimp only
        rw [List.filterMap_append, List.filterMap_append, (logs_inits r l g2).1, (logs_inits r l g2).2, h4]
    | none =>
      dsimp only
      obtain ⟨l, g1, g2, g3, -⟩ := body_open { w with run := some W.next } W.next rfl ops
        ⟨some W.next, W.next + 1, W.events ++ [.init W.next dir name w.project w.runName]⟩
      rw [g1]
      refine ⟨rfl, ?_, ?_, ?_⟩
      · dsimp only
        rw [play_append, play_append, play_append, h2, ha]
        have : play [Event.init W.next dir name w.project w.runName] (some (none, W.next))
            = some (some W.next, W.next + 1) := by simp [play]
        rw [this, play_logs _ _ l g2]
        unfold play
        dsimp only [Option.bind_some]
        rw [if_pos rfl]
        rfl
      · dsimp only
        rw [List.filterMap_append, List.filterMap_append, List.filterMap_append, h3, g3, wanted_append, hw]
        rw [show [Event.init W.next dir name w.project w.runName].filterMap logged = [] from rfl,
          show [Event.finish W.next].filterMap logged = [] from rfl, List.append_nil, List.append_nil]
      · dsimp only
        simp only [List.filterMap_append, (logs_inits _ l g2).1, (logs_inits _ l g2).2, h4]
        rw [show [Event.init W.next dir name w.project w.runName].filterMap inits = [W.next] from rfl,
          show [Event.init W.next dir name w.project w.runName].filterMap finishes = [] from rfl,
          show [Event.finish W.next].filterMap finishes = [W.next] from rfl,
          show [Event.finish W.next].filterMap inits = [] from rfl]
        simp
  | stray step stats =>
    have hw : wanted [Act.stray step stats] = [] := by simp [wanted]
    unfold act write
    dsimp only
    rw [h1]
    exact ⟨h1, h2, by rw [wanted_append, hw, List.append_nil]; exact h3, h4⟩
  | userInit =>
    have hw : wanted [Act.userInit] = [] := by simp [wanted]
    unfold act
    dsimp only
    cases ha : W.active with
    | some r => exact ⟨h1, h2, by rw [wanted_append, hw, List.append_nil]; exact h3, h4⟩
    | none =>
      refine ⟨h1, ?_, ?_, ?_⟩
      · dsimp only
        rw [play_append, h2, ha]
        simp [play]
      · dsimp only
        rw [List.filterMap_append, h3, wanted_append, hw]
        simp [logged]
      · dsimp only
        rw [List.filterMap_append, List.filterMap_append, h4]
        rfl
  | userFinish =>
    have hw : wanted [Act.userFinish] = [] := by simp [wanted]
    unfold act
    dsimp only
    cases ha : W.active with
    | none => exact ⟨h1, by rw [h2, ha], by rw [wanted_append, hw, List.append_nil]; exact h3, h4⟩
    | some r =>
      refine ⟨h1, ?_, ?_, ?_⟩
      · dsimp only
        rw [play_append, h2, ha]
        simp [play]
      · dsimp only
        rw [List.filterMap_append, h3, wanted_append, hw]
        simp [logged]
      · dsimp only
        rw [List.filterMap_append, List.filterMap_append, h4]
        rfl

theorem good_history (project name : Option String) (acts : List Act) :
    Good acts (history acts (start project name)) := by
  induction acts using List.reverseRecOn with
  | nil => exact ⟨rfl, rfl, rfl, rfl⟩
  | append_singleton acts a ih =>
    unfold history at ih ⊢
    rw [List.foldl_append]
    exact good_act acts a _ ih

/-- **C148.** Over any history of a process (stages that end or raise, stray writes, runs the user starts or
ends): W&B gets the real scalars of every write of every stage up to its exception, once, in order and under the
step given, and nothing else; what is sent goes to a run that is open then, and never two are open; the runs the
writer ends are exactly those it started, in the order it started them: each once, and none of the user's.  After
each act the writer is closed. -/
theorem c148_history (project name : Option String) (acts : List Act) (W : World) (w : Writer)
    (h : history acts (start project name) = (W, w)) :
    W.events.filterMap logged = wanted acts ∧
    play W.events (some (none, 0)) = some (W.active, W.next) ∧
    W.events.filterMap inits = W.events.filterMap finishes ∧ w.run = none := by
  have g := good_history project name acts
  rw [h] at g
  exact ⟨g.sent, g.played, g.paired, g.closed⟩

/-- **C148.** A stage leaves the active run as it was, an exception of the stage comes out (and none else), and
the writer then raises at any further write. -/
theorem c148_stage (project name : Option String) (acts : List Act) (dir stage : String) (ops : List Op) :
    (act (.stage dir stage ops) (history acts (start project name))).1.1.active =
      (history acts (start project name)).1.active ∧
    ((act (.stage dir stage ops) (history acts (start project name))).2 = true ↔ Op.raise ∈ ops) ∧
    ∀ step stats, (act (.stray step stats)
      (act (.stage dir stage ops) (history acts (start project name))).1).2 = true := by
  generalize history acts (start project name) = s
  obtain ⟨W, w⟩ := s
  have key : ∀ r ops W, (body { w with run := some r } ops W).1.active = W.active ∧
      ((body { w with run := some r } ops W).2 = true ↔ Op.raise ∈ ops) := by
    intro r ops W
    obtain ⟨l, g1, -, -, g4⟩ := body_open { w with run := some r } r rfl ops W
    rw [g1]
    exact ⟨rfl, g4⟩
  cases ha : W.active with
  | some r =>
    simp only [act, session, ha, write]
    exact ⟨(key r ops W).1.trans ha, (key r ops W).2, fun _ _ => trivial⟩
  | none =>
    simp only [act, session, ha, write]
    exact ⟨trivial, (key _ ops _).2, fun _ _ => trivial⟩

/-- **C148.** A run the writer starts is told the working directory, the stage as job type, and project and name
as configured. -/
theorem c148_init (W : World) (w : Writer) (dir stage : String) (ops : List Op) (ha : W.active = none) :
    ∃ l, (session w dir stage ops W).1.events = W.events ++ .init W.next dir stage w.project w.runName :: l ∧
      l.filterMap starts = [] := by
  unfold session
  rw [ha]
  dsimp only
  obtain ⟨l, g1, g2, -, -⟩ := body_open { w with run := some W.next } W.next rfl ops
    ⟨some W.next, W.next + 1, W.events ++ [.init W.next dir stage w.project w.runName]⟩
  refine ⟨l ++ [.finish W.next], by rw [g1]; simp, ?_⟩
  rw [List.filterMap_append]
  have : l.filterMap starts = [] := by
    rw [List.filterMap_eq_nil_iff]
    intro e he
    have := g2 e he
    cases e <;> simp_all [logRun, starts]
  rw [this]
  rfl

/-- Two stages, the second inside a run of the user and stopped by an exception; of the complex energy nothing
is sent. -/
noncomputable example : (history [.stage "d" "pretrain" [.write 0 [("loss", .real 1), ("samples", .array)]],
      .userInit, .stage "d" "train" [.write 1 [("energy", .complex 1 2)], .write 2 [("loss", .real 3)], .raise,
        .write 3 [("loss", .real 4)]], .stray 9 [("loss", .real 5)], .userFinish]
      (start (some "p") none)).1.events =
    [.init 0 "d" "pretrain" (some "p") none, .log 0 0 [("loss", 1)], .finish 0, .userInit 1,
      .log 1 2 [("loss", 3)], .userFinish 1] := by
  simp [history, act, session, body, write, scalars, start]

/-- **C148 (finding).** Complex scalars are not sent: a write of complex scalars only sends nothing, without an
error. -/
theorem c148_complex (w : Writer) (r : ℕ) (hw : w.run = some r) (step : ℕ) (stats : List (String × Value))
    (hc : ∀ e ∈ stats, ∃ a b, e.2 = .complex a b) (W : World) : write w step stats W = some W := by
  have : scalars stats = [] := by
    unfold scalars
    rw [List.filterMap_eq_nil_iff]
    intro e he
    obtain ⟨a, b, h⟩ := hc e he
    rw [h]
  unfold write
  rw [hw]
  dsimp only
  rw [if_pos (by rw [this]; rfl)]

end Jaqmc.Wandb.Props
