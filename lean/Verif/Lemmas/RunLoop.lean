import Verif.Spec.RunLoop
namespace Jaqmc.RunLoop
open Spec

variable {S K R : Type}

/-! ### Trace structure -/

@[simp] theorem rowsOf_append (a b : List (Effect S R)) : rowsOf (a ++ b) = rowsOf a ++ rowsOf b := by
  induction a with
  | nil => rfl
  | cons e a ih => cases e <;> simp [rowsOf, ih]

@[simp] theorem ckptsOf_append (a b : List (Effect S R)) :
    ckptsOf (a ++ b) = ckptsOf a ++ ckptsOf b := by
  induction a with
  | nil => rfl
  | cons e a ih => cases e <;> simp [ckptsOf, ih]

/-- Effects that start with the row of `step`, continue with consecutive rows, and save step `i`
only directly after the row of step `i`. -/
inductive Chain : Nat → List (Effect S R) → Prop
  | nil (step) : Chain step []
  | row (step r es) : Chain (step + 1) es → Chain step (.row step r :: es)
  | save (step r s es) : Chain (step + 1) es → Chain step (.row step r :: .ckpt step s :: es)

theorem loop_chain (cfg : Config) (st : Stage S K R) (env : Env) (n step : Nat) (s : S) (k : K)
    (ls : Int) : Chain step (loop cfg st env n step s k ls).1 := by
  induction n generalizing step s k ls with
  | zero => exact .nil _
  | succ n ih =>
    simp only [loop]
    split
    · exact .save _ _ _ _ (.nil _)
    split
    · exact .save _ _ _ _ (.nil _)
    split
    · exact .row _ _ _ (.nil _)
    split
    · exact .save _ _ _ _ (ih _ _ _ _)
    · exact .row _ _ _ (ih _ _ _ _)

theorem chain_take {step : Nat} {es : List (Effect S R)} (h : Chain step es) (m : Nat) :
    Chain step (es.take m) := by
  induction h generalizing m with
  | nil => simp; exact .nil _
  | row step r es _ ih =>
    cases m with
    | zero => exact .nil _
    | succ m => exact .row _ _ _ (ih m)
  | save step r s es _ ih =>
    match m with
    | 0 => exact .nil _
    | 1 => exact .row _ _ _ (.nil _)
    | m + 2 => exact .save _ _ _ _ (ih m)

theorem chain_rows {step : Nat} {es : List (Effect S R)} (h : Chain step es) :
    (rowsOf es).map Prod.fst = List.range' step (rowsOf es).length := by
  induction h with
  | nil => rfl
  | row step r es _ ih => simp [rowsOf, List.range'_succ, ih]
  | save step r s es _ ih => simp [rowsOf, List.range'_succ, ih]

theorem chain_ckpts {step : Nat} {es : List (Effect S R)} (h : Chain step es) :
    ((ckptsOf es).map Prod.fst).Pairwise (· < ·) ∧
    ∀ c ∈ ckptsOf es, step ≤ c.1 ∧ c.1 < step + (rowsOf es).length := by
  induction h with
  | nil => simp [ckptsOf]
  | row step r es _ ih =>
    refine ⟨ih.1, fun c hc => ?_⟩
    have := ih.2 c hc
    simp only [rowsOf, List.length_cons]; omega
  | save step r s es _ ih =>
    simp only [ckptsOf, List.map_cons, rowsOf, List.length_cons]
    refine ⟨List.pairwise_cons.2 ⟨?_, ih.1⟩, ?_⟩
    · intro a ha
      simp only [List.mem_map] at ha
      obtain ⟨c, hc, rfl⟩ := ha
      have := ih.2 c hc; omega
    · intro c hc
      rcases List.mem_cons.1 hc with rfl | hc
      · dsimp only; omega
      · have := ih.2 c hc; omega

/-! ### Newest checkpoint of an increasing list -/

theorem latest_snoc (cs : List (Nat × S)) (c : Nat × S) (h : ∀ d ∈ cs, d.1 ≤ c.1) :
    latest (cs ++ [c]) = some c := by
  induction cs with
  | nil => rfl
  | cons d cs ih =>
    simp only [List.cons_append, latest, ih (fun x hx => h x (by simp [hx])), h d (by simp), if_true]

theorem latest_none (cs : List (Nat × S)) : latest cs = none ↔ cs = [] := by
  cases cs with
  | nil => simp [latest]
  | cons c cs =>
    simp only [latest]
    cases latest cs with
    | none => simp
    | some d => dsimp only; split <;> simp

theorem latest_append (a b : List (Nat × S)) (h : ∀ x ∈ a, ∀ y ∈ b, x.1 ≤ y.1) (hb : b ≠ []) :
    latest (a ++ b) = latest b := by
  induction a with
  | nil => rfl
  | cons c a ih =>
    have ih' := ih (fun x hx => h x (by simp [hx]))
    simp only [List.cons_append, latest, ih']
    cases hl : latest b with
    | none => exact absurd ((latest_none b).1 hl) hb
    | some d =>
      have hd : d ∈ b := by
        clear ih ih' h hb
        induction b with
        | nil => simp [latest] at hl
        | cons e b ih =>
          simp only [latest] at hl
          cases hlb : latest b with
          | none => rw [hlb] at hl; simp at hl; simp [hl]
          | some f =>
            rw [hlb] at hl
            dsimp only at hl
            split at hl
            · simp at hl; subst hl; simp [ih hlb]
            · simp at hl; simp [hl]
      dsimp only
      rw [if_pos (h c (by simp) d hd)]

theorem latest_mem {cs : List (Nat × S)} {c : Nat × S} (h : latest cs = some c) : c ∈ cs := by
  induction cs generalizing c with
  | nil => simp [latest] at h
  | cons e b ih =>
    simp only [latest] at h
    cases hlb : latest b with
    | none => rw [hlb] at h; simp at h; simp [h]
    | some f =>
      rw [hlb] at h
      dsimp only at h
      split at h
      · simp at h; subst h; simp [ih hlb]
      · simp at h; simp [h]

/-- First step of the next process: one past the newest checkpoint. -/
def resume (cs : List (Nat × S)) : Nat :=
  match latest cs with
  | none => 0
  | some (j, _) => j + 1

theorem latest_max {cs : List (Nat × S)} {c : Nat × S} (h : latest cs = some c) :
    ∀ d ∈ cs, d.1 ≤ c.1 := by
  induction cs generalizing c with
  | nil => simp [latest] at h
  | cons e b ih =>
    simp only [latest] at h
    intro d hd
    cases hlb : latest b with
    | none =>
      rw [hlb] at h; simp at h
      have := (latest_none b).1 hlb
      subst this; subst h
      simp at hd; simp [hd]
    | some f =>
      rw [hlb] at h
      dsimp only at h
      have := ih hlb
      split at h
      · simp at h; subst h
        rcases List.mem_cons.1 hd with rfl | hd
        · assumption
        · exact this d hd
      · simp at h; subst h
        rcases List.mem_cons.1 hd with rfl | hd
        · exact Nat.le_refl _
        · have := this d hd; omega

theorem resume_gt {cs : List (Nat × S)} : ∀ d ∈ cs, d.1 < resume cs := by
  intro d hd
  unfold resume
  cases h : latest cs with
  | none => rw [(latest_none cs).1 h] at hd; simp at hd
  | some c => have := latest_max h d hd; dsimp only; omega

theorem resume_append_le {cs es : List (Nat × S)} (n : Nat)
    (h1 : resume cs ≤ n) (h2 : ∀ c ∈ es, c.1 < n) : resume (cs ++ es) ≤ n := by
  unfold resume
  cases h : latest (cs ++ es) with
  | none => dsimp only; omega
  | some c =>
    dsimp only
    have hm := latest_mem h
    rcases List.mem_append.1 hm with hm | hm
    · have := resume_gt c hm; omega
    · have := h2 c hm; omega

theorem run_opened (cfg : Config) (st : Stage S K R) (env : Env) (s0 : S) (key : K)
    (cs : List (Nat × S)) :
    (cfg.iterations ≤ resume cs ∧ (run cfg st env s0 key cs).opened = none ∧
      (run cfg st env s0 key cs).effects = []) ∨
    (resume cs < cfg.iterations ∧ (run cfg st env s0 key cs).opened = some (resume cs) ∧
      Chain (resume cs) (run cfg st env s0 key cs).effects) := by
  unfold run resume
  cases h : latest cs with
  | none =>
    dsimp only
    split
    · left; exact ⟨by assumption, rfl, rfl⟩
    · right; exact ⟨by omega, rfl, loop_chain ..⟩
  | some c =>
    dsimp only
    split
    · left; exact ⟨by assumption, rfl, rfl⟩
    · right; exact ⟨by omega, rfl, loop_chain ..⟩

theorem happened_chain {p : Process S R} {k : Nat} (h : Chain k p.effects) (kill : Option Nat) :
    Chain k (happened p kill) := by
  unfold happened
  cases kill with
  | none => exact h
  | some n => exact chain_take h n

theorem history_valid (cfg : Config) (st : Stage S K R) (s0 : S) (ls : List (Launch K))
    (cs : List (Nat × S)) (n : Nat) (hn : resume cs ≤ n) :
    Valid n (history cfg st s0 cs ls).2 := by
  induction ls generalizing cs n with
  | nil => trivial
  | cons l ls ih =>
    simp only [history]
    rcases run_opened cfg st l.env s0 l.key cs with ⟨h1, h2, h3⟩ | ⟨h1, h2, h3⟩
    · rw [h2]
      dsimp only
      have : happened (run cfg st l.env s0 l.key cs) l.kill = [] := by
        unfold happened; rw [h3]; cases l.kill <;> simp
      rw [this]
      exact ih _ _ (by simpa [ckptsOf] using hn)
    · rw [h2]
      have hc := happened_chain h3 l.kill
      refine ⟨hn, chain_rows hc, ih _ _ ?_⟩
      have := (chain_ckpts hc).2
      exact resume_append_le _ (by dsimp only; omega) (fun c hcm => by have := this c hcm; dsimp only; omega)

end Jaqmc.RunLoop
