/-! # Source comments in the saved configuration (C131)

`src/jaqmc/utils/yaml_format.py:83-140`, used by `ConfigManager.to_yaml` (`utils/config.py:377-388`), which
writes `config.yaml` (`workflow/base.py:155-176`).  A text is its list of lines, a line its characters;
`\s` is ASCII whitespace. -/

namespace Jaqmc.Annotate

abbrev Line := List Char

/-- `[^:\s#]`, yaml_format.py:113. -/
def keyChar (c : Char) : Bool := !(c = ':' || c.isWhitespace || c = '#')

/-- `key_pattern.match(line)` and its groups, yaml_format.py:113-118.  The three parts of the expression
match disjoint sets of characters, so that the greedy match is the only one. -/
def matchKey (line : Line) : Option (Line × Line) :=
  let indent := line.takeWhile Char.isWhitespace
  let rest := line.dropWhile Char.isWhitespace
  let key := rest.takeWhile keyChar
  let rest := (rest.dropWhile keyChar).dropWhile Char.isWhitespace
  if key.isEmpty then none
  else match rest with
    | ':' :: _ => some (indent, key)
    | _ => none

/-- `".".join`, yaml_format.py:126. -/
def joinDots : List Line → Line
  | [] => []
  | [k] => k
  | k :: ks => k ++ '.' :: joinDots ks

/-- One entry of the source map: file, line number, docstring in lines. -/
structure Source where
  file : Line
  lineno : Nat
  doc : Option (List Line)

/-- The comments for one key, yaml_format.py:128-134. -/
def comments (verbose : Bool) (indent : Line) (s : Source) : List Line :=
  (indent ++ "# Defined in ".toList ++ s.file ++ ':' :: (toString s.lineno).toList) ::
    match verbose, s.doc with
    | true, some doc => doc.map fun l => indent ++ "# ".toList ++ l
    | _, _ => []

/-- One line, yaml_format.py:115-136: the new stack (its top first) and the lines written. -/
def annotateLine (sources : Line → Option Source) (verbose : Bool) (stack : List (Nat × Line)) (line : Line) :
    List (Nat × Line) × List Line :=
  match matchKey line with
  | none => (stack, [line])
  | some (indent, key) =>
    let stack := (indent.length, key) :: stack.dropWhile fun e => decide (e.1 ≥ indent.length)
    let path := joinDots (stack.reverse.map Prod.snd)
    match sources path with
    | none => (stack, [line])
    | some s => (stack, comments verbose indent s ++ [line])

/-- The loop of yaml_format.py:115-136. -/
def annotateFrom (sources : Line → Option Source) (verbose : Bool) (stack : List (Nat × Line)) :
    List Line → List Line
  | [] => []
  | line :: rest =>
    let r := annotateLine sources verbose stack line
    r.2 ++ annotateFrom sources verbose r.1 rest

/-- `annotate_yaml_with_sources`, yaml_format.py:83-137. -/
def annotate (sources : Line → Option Source) (verbose : Bool) (lines : List Line) : List Line :=
  annotateFrom sources verbose [] lines

end Jaqmc.Annotate
