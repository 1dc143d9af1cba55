import Verif.Model.Writers
import Verif.Spec.RunLoop
namespace Jaqmc.Writers
open Jaqmc.RunLoop Jaqmc.RunLoop.Spec

theorem readlines_flatten (l : List Char) : (readlines l).flatten = l := by
  induction l with
  | nil => rfl
  | cons c cs ih =>
    simp only [readlines]
    split
    · simp [ih]
    · split
      next h => rw [h] at ih; simp at ih; simp [← ih]
      next l ls h => rw [h] at ih; simp at ih; simp [ih]

theorem readlines_line (t rest : List Char) (h : '\n' ∉ t) :
    readlines (line t ++ rest) = line t :: readlines rest := by
  unfold line
  induction t with
  | nil =>
    show readlines ('\r' :: '\n' :: rest) = _
    simp [readlines]
  | cons c t ih =>
    simp only [List.mem_cons, not_or] at h
    have := ih h.2
    simp only [List.cons_append, readlines] at this ⊢
    rw [if_neg (Ne.symm h.1), this]

theorem readlines_tail (t : List Char) (h : '\n' ∉ t) (hne : t ≠ []) : readlines t = [t] := by
  induction t with
  | nil => exact absurd rfl hne
  | cons c t ih =>
    simp only [List.mem_cons, not_or] at h
    simp only [readlines, if_neg (Ne.symm h.1)]
    cases t with
    | nil => simp [readlines]
    | cons d t => rw [ih h.2 (by simp)]

/-- The text of a file with the given lines. -/
def text (ls : List (List Char)) : List Char := (ls.map line).flatten

theorem readlines_text (ls : List (List Char)) (tail : List Char) (h : ∀ l ∈ ls, '\n' ∉ l) :
    readlines (text ls ++ tail) = ls.map line ++ readlines tail := by
  induction ls with
  | nil => simp [text]
  | cons l ls ih =>
    have e : text (l :: ls) ++ tail = line l ++ (text ls ++ tail) := by simp [text]
    rw [e, readlines_line _ _ (h l (by simp)), ih (fun x hx => h x (by simp [hx]))]
    simp

theorem text_cons (l : List Char) (ls : List (List Char)) : text (l :: ls) = line l ++ text ls := by
  simp [text]

theorem text_append (a b : List (List Char)) : text (a ++ b) = text a ++ text b := by
  simp [text]

theorem text_ne_nil (l : List Char) (ls : List (List Char)) : text (l :: ls) ≠ [] := by
  simp [text, line]

/-- Truncating a file made of a header, rows and an incomplete line keeps the header and the first
`k` rows, provided there are at least `k`. -/
theorem truncate_text (hd : List Char) (rows : List (List Char)) (tail : List Char) (k : Nat)
    (h0 : '\n' ∉ hd) (h1 : ∀ l ∈ rows, '\n' ∉ l) (h2 : '\n' ∉ tail) (hk : k ≤ rows.length) :
    truncateTo (text (hd :: rows) ++ tail) k = text (hd :: rows.take k) := by
  have hall : ∀ l ∈ hd :: rows, '\n' ∉ l := by
    intro l hl; rcases List.mem_cons.1 hl with rfl | hl
    · exact h0
    · exact h1 l hl
  have hne : text (hd :: rows) ++ tail ≠ [] := by
    intro hc; exact text_ne_nil _ _ (List.append_eq_nil_iff.1 hc).1
  unfold truncateTo
  rw [if_neg hne]
  dsimp only
  rw [readlines_text _ _ hall]
  by_cases ht : tail = []
  · subst ht
    simp only [readlines, List.append_nil, List.length_map, List.length_cons]
    by_cases hk' : rows.length + 1 - 1 ≤ k
    · rw [if_pos hk']
      have : k = rows.length := by omega
      rw [this, List.take_length]
    · rw [if_neg hk', ← List.map_take, Nat.add_comm, List.take_succ_cons]; rfl
  · rw [readlines_tail _ h2 ht]
    have hlen : ((hd :: rows).map line ++ [tail]).length - 1 = rows.length + 1 := by simp
    rw [hlen, if_neg (by omega), List.take_append_of_le_length (by simp; omega), ← List.map_take,
      Nat.add_comm, List.take_succ_cons]
    rfl

variable {R : Type}

/-- The text of complete rows. -/
def rowTexts (rd : Render R) (t : List (Nat × R)) : List (List Char) := t.map (fun e => rd.row e.1 e.2)

theorem writeAll_false (rd : Render R) (c : List Char) (rows : List (Nat × R)) :
    writeAll rd false c rows = (false, c ++ text (rowTexts rd rows)) := by
  induction rows generalizing c with
  | nil => simp [writeAll, rowTexts, text]
  | cons e rows ih =>
    obtain ⟨i, r⟩ := e
    simp only [writeAll, ih, pending, rowTexts, List.map_cons, text_cons]
    simp

theorem writeAll_true (rd : Render R) (e : Nat × R) (rows : List (Nat × R)) :
    writeAll rd true [] (e :: rows) = (false, text (rd.header e.2 :: rowTexts rd (e :: rows))) := by
  obtain ⟨i, r⟩ := e
  simp only [writeAll, writeAll_false, pending, rowTexts, List.map_cons, text_cons]
  simp

end Jaqmc.Writers
