import Verif.Model.Digest
import Verif.Props.RunLoop
/-! # The evaluation digest: C54 -/
namespace Jaqmc.Digest.Props
open Jaqmc.RunLoop Jaqmc.RunLoop.Props Jaqmc.Digest

variable {S K R : Type}

theorem foldl_eff (d : Disk S R) (es : List (Effect S R)) :
    (es.map Ev.eff).foldl apply d = ⟨d.ckpts ++ ckptsOf es, d.rows ++ rowsOf es, d.digest⟩ := by
  induction es generalizing d with
  | nil => simp [ckptsOf, rowsOf]
  | cons e es ih =>
    rw [List.map_cons, List.foldl_cons, ih]
    cases e <;> simp [apply, ckptsOf, rowsOf]

/-- What has been evaluated so far without hard kills: each step below the resume point once; and a
digest only of everything. -/
def Inv (cfg : Config) (d : Disk S R) : Prop :=
  d.rows.map Prod.fst = List.range (resume d.ckpts) ∧ resume d.ckpts ≤ cfg.iterations ∧
  ∀ rows, d.digest = some rows → rows = d.rows ∧ resume d.ckpts = cfg.iterations

theorem resume_run (cfg : Config) (st : Stage S K R) (env : Env) (s0 : S) (key : K) (cs : List (Nat × S))
    (hs : cfg.saveStep ≠ 0) (h1 : resume cs < cfg.iterations) :
    resume (cs ++ ckptsOf (run cfg st env s0 key cs).effects)
      = resume cs + (rowsOf (run cfg st env s0 key cs).effects).length ∧
    resume cs + (rowsOf (run cfg st env s0 key cs).effects).length ≤ cfg.iterations ∧
    (rowsOf (run cfg st env s0 key cs).effects).map Prod.fst
      = List.range' (resume cs) (rowsOf (run cfg st env s0 key cs).effects).length := by
  rcases run_opened cfg st env s0 key cs with ⟨h, _⟩ | ⟨_, _, h3⟩
  · omega
  obtain ⟨pre, i, s, e1, e2, e3⟩ := c07_ends_saved cfg st env s0 key cs hs h1
  have hck := (chain_ckpts h3).2
  obtain ⟨s', k', he, _⟩ := run_eq cfg st env s0 key cs h1
  have hle := loop_rows_le cfg st env (cfg.iterations - resume cs) (resume cs) s' k' env.startTime
  rw [← he] at hle
  refine ⟨?_, by omega, chain_rows h3⟩
  apply Nat.le_antisymm
  · exact resume_append_le _ (by omega) (fun c hc => by have := hck c hc; omega)
  · have hm : (i, s) ∈ cs ++ ckptsOf (run cfg st env s0 key cs).effects := by
      rw [e1]; simp [ckptsOf]
    have := resume_gt _ hm
    dsimp only at this; omega

theorem launch_nothing (cfg : Config) (st : Stage S K R) (s0 : S) (d : Disk S R) (l : Launch K)
    (h : cfg.iterations ≤ resume d.ckpts) : launch cfg st s0 d l = d := by
  have hrun : (run cfg st l.env s0 l.key d.ckpts).opened = none ∧
      (run cfg st l.env s0 l.key d.ckpts).effects = [] := by
    rcases run_opened cfg st l.env s0 l.key d.ckpts with ⟨_, h2, h3⟩ | ⟨h1, _⟩
    · exact ⟨h2, h3⟩
    · omega
  have he : events (run cfg st l.env s0 l.key d.ckpts) = [] := by
    unfold events
    rw [hrun.1, hrun.2]
    cases (run cfg st l.env s0 l.key d.ckpts).outcome <;> rfl
  unfold launch
  simp only [he]
  cases l.kill <;> simp

theorem launch_inv (cfg : Config) (st : Stage S K R) (s0 : S) (hs : cfg.saveStep ≠ 0) (d : Disk S R)
    (l : Launch K) (hk : l.kill = none) (hd : Inv cfg d) : Inv cfg (launch cfg st s0 d l) := by
  by_cases h1 : cfg.iterations ≤ resume d.ckpts
  · rw [launch_nothing cfg st s0 d l h1]; exact hd
  obtain ⟨a1, a2, a3⟩ := resume_run cfg st l.env s0 l.key d.ckpts hs (by omega)
  obtain ⟨i1, i2, i3⟩ := hd
  have hnodig : d.digest = none := by
    cases hdg : d.digest with
    | none => rfl
    | some r => have := i3 r hdg; omega
  obtain ⟨pre, i, s, e1, e2, e3⟩ := c07_ends_saved cfg st l.env s0 l.key d.ckpts hs (by omega)
  have hrows : (d.rows ++ rowsOf (run cfg st l.env s0 l.key d.ckpts).effects).map Prod.fst
      = List.range (resume (d.ckpts ++ ckptsOf (run cfg st l.env s0 l.key d.ckpts).effects)) := by
    rw [List.map_append, i1, a3, a1, List.range_eq_range', List.range_eq_range']
    have := List.range'_append_1 (s := 0) (m := resume d.ckpts)
      (n := (rowsOf (run cfg st l.env s0 l.key d.ckpts).effects).length)
    simpa using this
  unfold launch
  simp only [hk, events, List.foldl_append, foldl_eff]
  cases ho : (run cfg st l.env s0 l.key d.ckpts).outcome with
  | abort => exact ⟨hrows, by dsimp only [List.foldl]; omega, by dsimp only [List.foldl]; rw [hnodig]; simp⟩
  | zeroDiv => exact ⟨hrows, by dsimp only [List.foldl]; omega, by dsimp only [List.foldl]; rw [hnodig]; simp⟩
  | done s' =>
    cases hop : (run cfg st l.env s0 l.key d.ckpts).opened with
    | none => exact ⟨hrows, by dsimp only [List.foldl]; omega, by dsimp only [List.foldl]; rw [hnodig]; simp⟩
    | some k =>
      refine ⟨hrows, by dsimp only [List.foldl, apply]; omega, ?_⟩
      intro rows hr
      dsimp only [List.foldl, apply] at hr ⊢
      have := e3 s' ho
      exact ⟨(Option.some.inj hr).symm, by omega⟩

theorem evaluations_inv (cfg : Config) (st : Stage S K R) (s0 : S) (hs : cfg.saveStep ≠ 0)
    (ls : List (Launch K)) (hk : ∀ l ∈ ls, l.kill = none) (d : Disk S R) (hd : Inv cfg d) :
    Inv cfg (evaluations cfg st s0 d ls) := by
  induction ls generalizing d with
  | nil => exact hd
  | cons l ls ih =>
    exact ih (fun x hx => hk x (by simp [hx])) _ (launch_inv cfg st s0 hs d l (hk l (by simp)) hd)

theorem fresh_inv (cfg : Config) : Inv cfg (fresh : Disk S R) := by
  refine ⟨by simp [fresh, resume, latest], by simp [fresh, resume, latest], by simp [fresh]⟩

/-- **C54** (without hard kills, and if the launch that executes the last step is not interrupted).
After any number of launches interrupted by signals, a launch that still has a step to evaluate and
meets no signal writes a digest of exactly the steps `0 … iterations - 1`, each once; and no digest
that covers anything else is ever written.
Missing: `c54_interrupted_at_end`, `c54_killed_before_digest`. -/
theorem c54_completed_partial (cfg : Config) (st : Stage S K R) (s0 : S) (hs : cfg.saveStep ≠ 0)
    (hnan : ∀ r, st.hasNan r = false) (ls : List (Launch K)) (hk : ∀ l ∈ ls, l.kill = none) :
    (∀ rows, (evaluations cfg st s0 fresh ls).digest = some rows →
      rows.map Prod.fst = List.range cfg.iterations) ∧
    ∀ last : Launch K, last.kill = none → (∀ i, last.env.signal i = false) →
      (evaluations cfg st s0 fresh ls).rows.length < cfg.iterations →
      ∃ rows, (evaluations cfg st s0 fresh (ls ++ [last])).digest = some rows ∧
        rows.map Prod.fst = List.range cfg.iterations := by
  have hinv := evaluations_inv cfg st s0 hs ls hk fresh (fresh_inv cfg)
  refine ⟨fun rows hr => ?_, fun last hkl hsig hlen => ?_⟩
  · obtain ⟨h1, _, h3⟩ := hinv
    obtain ⟨rfl, h⟩ := h3 rows hr
    rw [h1, h]
  · have hinv' := launch_inv cfg st s0 hs _ last hkl hinv
    have he : evaluations cfg st s0 fresh (ls ++ [last])
        = launch cfg st s0 (evaluations cfg st s0 fresh ls) last := by simp [evaluations]
    rw [he]
    have hres : resume (evaluations cfg st s0 fresh ls).ckpts < cfg.iterations := by
      have := congrArg List.length hinv.1
      rw [List.length_map, List.length_range] at this
      omega
    obtain ⟨s, k, _, ho, hop, _⟩ := run_eq cfg st last.env s0 last.key
      (evaluations cfg st s0 fresh ls).ckpts hres
    obtain ⟨s', hdone⟩ := loop_done cfg st last.env hs hsig hnan
      (cfg.iterations - resume (evaluations cfg st s0 fresh ls).ckpts)
      (resume (evaluations cfg st s0 fresh ls).ckpts) s k last.env.startTime
    rw [hdone] at ho
    have hdig : ∃ rows, (launch cfg st s0 (evaluations cfg st s0 fresh ls) last).digest = some rows := by
      unfold launch
      simp only [hkl, events, ho, hop, List.foldl_append, List.foldl_cons, List.foldl_nil, apply]
      exact ⟨_, rfl⟩
    obtain ⟨rows, hr⟩ := hdig
    refine ⟨rows, hr, ?_⟩
    obtain ⟨h1, _, h3⟩ := hinv'
    obtain ⟨rfl, h⟩ := h3 rows hr
    rw [h1, h]

/-- C54 is not vacuous: two launches of a four-step evaluation, the first interrupted at step 1. -/
example :
    let st : Stage Nat Unit Nat := ⟨fun k => (k, k), fun s _ => (s, s + 1), fun s k => (s, k), fun _ => false⟩
    let env (i : Nat) : Env := ⟨0, fun _ => 0, fun j => decide (j = i)⟩
    (evaluations ⟨4, 600, 1⟩ st 0 fresh [⟨env 1, (), none⟩, ⟨env 9, (), none⟩]).digest
      = some [(0, 0), (1, 1), (2, 2), (3, 3)] := by
  decide

/-- Once the last step has a checkpoint, no launch changes the directory: if the digest is not there
then, it never will be. -/
theorem c54_never_later (cfg : Config) (st : Stage S K R) (s0 : S) (d : Disk S R)
    (h : ∃ s, (cfg.iterations - 1, s) ∈ d.ckpts) (ls : List (Launch K)) :
    evaluations cfg st s0 d ls = d := by
  obtain ⟨s, hs⟩ := h
  have : cfg.iterations ≤ resume d.ckpts := by
    have := resume_gt _ hs; dsimp only at this; omega
  induction ls with
  | nil => rfl
  | cons l ls ih =>
    show evaluations cfg st s0 (launch cfg st s0 d l) ls = d
    rw [launch_nothing cfg st s0 d l this]; exact ih

theorem loop_signal_last (cfg : Config) (st : Stage S K R) (env : Env) (hs : cfg.saveStep ≠ 0)
    (hnan : ∀ r, st.hasNan r = false)
    (hsig : ∀ i, env.signal i = decide (i + 1 = cfg.iterations))
    (n step : Nat) (s : S) (k : K) (lsv : Int) (hn : step + (n + 1) = cfg.iterations) :
    (loop cfg st env (n + 1) step s k lsv).2 = .abort ∧
    (∃ pre s', (loop cfg st env (n + 1) step s k lsv).1 = pre ++ [.ckpt (cfg.iterations - 1) s']) ∧
    (rowsOf (loop cfg st env (n + 1) step s k lsv).1).length = n + 1 := by
  induction n generalizing step s k lsv with
  | zero =>
    rw [loop_succ cfg st env 0 step s k lsv _ _ rfl]
    have h1 : env.signal step = true := by rw [hsig]; exact decide_eq_true (by omega)
    rw [if_neg (by simp [hnan]), if_pos h1]
    refine ⟨rfl, ⟨[.row step (st.compute s (st.split k).2).1], (st.compute s (st.split k).2).2, ?_⟩, rfl⟩
    have : cfg.iterations - 1 = step := by omega
    rw [this]; rfl
  | succ n ih =>
    rw [loop_succ cfg st env (n + 1) step s k lsv _ _ rfl]
    have h1 : ¬ (env.signal step = true) := by rw [hsig]; simp; omega
    rw [if_neg (by simp [hnan]), if_neg h1, if_neg hs]
    split
    · obtain ⟨a, ⟨pre, s', b⟩, c⟩ := ih (step + 1) _ _ _ (by omega)
      exact ⟨a, ⟨_ :: _ :: pre, s', by dsimp only; rw [b]; rfl⟩, by simp only [rowsOf, List.length_cons, c]⟩
    · obtain ⟨a, ⟨pre, s', b⟩, c⟩ := ih (step + 1) _ _ _ (by omega)
      exact ⟨a, ⟨_ :: pre, s', by dsimp only; rw [b]; rfl⟩, by simp only [rowsOf, List.length_cons, c]⟩

/-- C54 in full fails.  For every evaluation with at least one step: if a termination signal arrives
while the last step is being executed, all steps are evaluated and saved, but the digest is not
written, and no later launch ever writes it. -/
theorem c54_interrupted_at_end (cfg : Config) (st : Stage S K R) (s0 : S) (hs : cfg.saveStep ≠ 0)
    (hpos : 0 < cfg.iterations) (hnan : ∀ r, st.hasNan r = false) (first : Launch K)
    (hk : first.kill = none) (hsig : ∀ i, first.env.signal i = decide (i + 1 = cfg.iterations))
    (later : List (Launch K)) :
    (evaluations cfg st s0 fresh (first :: later)).rows.map Prod.fst = List.range cfg.iterations ∧
    (evaluations cfg st s0 fresh (first :: later)).digest = none := by
  have hres : resume (fresh : Disk S R).ckpts = 0 := by simp [fresh, resume, latest]
  obtain ⟨s, k, he, ho, hop, _⟩ := run_eq cfg st first.env s0 first.key (fresh : Disk S R).ckpts (by omega)
  rw [hres] at he ho
  obtain ⟨n, hn⟩ : ∃ n, cfg.iterations = n + 1 := ⟨cfg.iterations - 1, by omega⟩
  obtain ⟨l1, ⟨pre, s', l2⟩, l3⟩ := loop_signal_last cfg st first.env hs hnan hsig n 0 s k
    first.env.startTime (by omega)
  have hsub : cfg.iterations - 0 = n + 1 := by omega
  rw [hsub] at he ho
  rw [l1] at ho
  have hl : launch cfg st s0 fresh first
      = ⟨ckptsOf (run cfg st first.env s0 first.key (fresh : Disk S R).ckpts).effects,
          rowsOf (run cfg st first.env s0 first.key (fresh : Disk S R).ckpts).effects, none⟩ := by
    unfold launch
    simp only [hk, events, ho, List.append_nil, foldl_eff]
    rfl
  have hck : ∃ s, (cfg.iterations - 1, s) ∈ (launch cfg st s0 fresh first).ckpts := by
    rw [hl, he, l2]; exact ⟨s', by simp [ckptsOf]⟩
  have := c54_never_later cfg st s0 (launch cfg st s0 fresh first) hck later
  have hev : evaluations cfg st s0 fresh (first :: later) = launch cfg st s0 fresh first := this
  rw [hev, hl]
  refine ⟨?_, rfl⟩
  have hch := loop_chain cfg st first.env (n + 1) 0 s k first.env.startTime
  have := chain_rows hch
  dsimp only
  rw [he, this, l3, hn, List.range_eq_range']

/-- C54 in full fails: a process killed after its last checkpoint and before the digest is complete
leaves a directory without digest for ever (here a two-step evaluation killed after its four rows and
checkpoints, with any number of later launches). -/
theorem c54_killed_before_digest (later : List (Launch Unit)) :
    let st : Stage Nat Unit Nat := ⟨fun k => (k, k), fun s _ => (s, s + 1), fun s k => (s, k), fun _ => false⟩
    let env : Env := ⟨0, fun i => i, fun _ => false⟩
    let d := evaluations ⟨2, -1, 1⟩ st 0 fresh (⟨env, (), some 4⟩ :: later)
    d.rows = [(0, 0), (1, 1)] ∧ d.digest = none := by
  intro st env d
  have : d = evaluations ⟨2, -1, 1⟩ st 0 (launch ⟨2, -1, 1⟩ st 0 fresh ⟨env, (), some 4⟩) later := rfl
  rw [this, c54_never_later _ _ _ _ ⟨2, by decide⟩]
  decide

end Jaqmc.Digest.Props
