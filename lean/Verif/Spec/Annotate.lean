import Verif.Model.Annotate
/-! # What the annotated configuration should be (C131) -/

namespace Jaqmc.Annotate.Spec
open Jaqmc.Annotate

/-- A nested configuration as `yaml.dump` writes it in block style: a key with a value on its line (and
perhaps further lines: rows of a matrix, items of a list, the rest of a long string), or a key with a nested
mapping below; then the next key. -/
inductive Doc
  | done
  | value (key text : Line) (more : List Line) (next : Doc)
  | nested (key : Line) (body next : Doc)

/-- Two spaces per level. -/
def indent (level : Nat) : Line := List.replicate (2 * level) ' '

/-- The lines of a configuration, each key's line labelled with the path of the key. -/
def render (level : Nat) (path : List Line) : Doc → List (Line × Option (List Line))
  | .done => []
  | .value key text more next =>
    (indent level ++ key ++ ':' :: text, some (path ++ [key])) ::
      (more.map fun l => (l, none)) ++ render level path next
  | .nested key body next =>
    (indent level ++ key ++ [':'], some (path ++ [key])) ::
      render (level + 1) (path ++ [key]) body ++ render level path next

/-- A key that YAML writes as it is. -/
def PlainKey (key : Line) : Prop := key ≠ [] ∧ ∀ c ∈ key, c ≠ ':' ∧ c.isWhitespace = false ∧ c ≠ '#'

/-- Plain keys; further lines of a value do not look like a key unless they are indented more than their own
key; no source is known for anything inside a plain value. -/
def Proper (sources : Line → Option Source) (level : Nat) (path : List Line) : Doc → Prop
  | .done => True
  | .value key _ more next =>
    PlainKey key ∧
    (∀ l ∈ more, ∀ i k, matchKey l = some (i, k) → 2 * level < i.length) ∧
    (more ≠ [] → ∀ tail, sources (joinDots (path ++ [key]) ++ '.' :: tail) = none) ∧
    Proper sources level path next
  | .nested key body next =>
    PlainKey key ∧ Proper sources (level + 1) (path ++ [key]) body ∧ Proper sources level path next

/-- The comments that belong above a line. -/
def above (sources : Line → Option Source) (verbose : Bool) : Line × Option (List Line) → List Line
  | (_, none) => []
  | (_, some path) =>
    match sources (joinDots path) with
    | none => []
    | some s => comments verbose (indent (path.length - 1)) s

/-- A line that YAML ignores. -/
def IsComment (l : Line) : Prop :=
  ∃ blank text, l = blank ++ '#' :: ' ' :: text ∧ ∀ c ∈ blank, c.isWhitespace = true

end Jaqmc.Annotate.Spec
