import Verif.Model.RunLoop
/-!
Model of the file writers: `src/jaqmc/writer/csv.py`, `src/jaqmc/writer/hdf5.py`,
`src/jaqmc/writer/base.py`, and the evaluation stage's own statistics file
(`src/jaqmc/workflow/stage/evaluation.py:44-88`).
-/
namespace Jaqmc.Writers
open Jaqmc.RunLoop

/-! ### CSV, character level -/

/-- `f.readlines()`: split after every newline; a last line without newline is kept. -/
def readlines : List Char → List (List Char)
  | [] => []
  | c :: cs =>
    if c = '\n' then [c] :: readlines cs
    else match readlines cs with
      | [] => [[c]]
      | l :: ls => (c :: l) :: ls

/-- `CSVWriter._truncate_to`, csv.py:61-73. -/
def truncateTo (content : List Char) (initialStep : Nat) : List Char :=
  if content = [] then content
  else
    let lines := readlines content
    if lines.length - 1 ≤ initialStep then content
    else (lines.take (1 + initialStep)).flatten

/-- `csv.writer.writerow` of already rendered fields: the line and its terminator `\r\n`. -/
def line (text : List Char) : List Char := text ++ ['\r', '\n']

/-- How a statistics dictionary is rendered: the header and the row of a step
(csv.py:89-107; see `columns` and `rowFields` below for the selection of fields). -/
structure Render (R : Type) where
  header : R → List Char
  row : Nat → R → List Char

/-- The characters one `write` call hands to the operating system: header first if needed, then the
row; they are flushed together (csv.py:102-111). -/
def pending {R : Type} (rd : Render R) (needsHeader : Bool) (step : Nat) (r : R) : List Char :=
  (if needsHeader then line (rd.header r) else []) ++ line (rd.row step r)

/-- Several `write` calls in a row. -/
def writeAll {R : Type} (rd : Render R) : Bool → List Char → List (Nat × R) → Bool × List Char
  | needs, content, [] => (needs, content)
  | needs, content, (i, r) :: rs => writeAll rd false (content ++ pending rd needs i r) rs

/-- One session of the CSV writer: `open` with `initial_step = start` (csv.py:36-59), the rows
written completely, and, if the process is killed inside the next `write` call, the row it was
writing and the number of characters (counted from the end) that did not reach the file. -/
def csvSession {R : Type} (rd : Render R) (content : List Char) (start : Nat)
    (rows : List (Nat × R)) (torn : Option (Nat × R × Nat)) : List Char :=
  let content := truncateTo content start
  let needsHeader := decide (content = [])
  let (needs, content) := writeAll rd needsHeader content rows
  match torn with
  | none => content
  | some (i, r, missing) =>
    let p := pending rd needs i r
    content ++ p.take (p.length - missing)

/-! ### Which fields go into a row (csv.py:89-106) -/

/-- A statistics value as the writers see it: a scalar (`jnp.isscalar`, i.e. a Python scalar or a
0-d array) or something else, and whether it is a `jax.Array`. -/
structure Stat (V : Type) where
  val : V
  isScalar : Bool
  isJax : Bool

/-- Insert into an increasingly sorted list of keys. -/
def insertKey (le : String → String → Bool) (k : String) : List String → List String
  | [] => [k]
  | x :: xs => if le k x then k :: x :: xs else x :: insertKey le k xs

/-- `sorted(scalar_stats.keys())`; `le` is Python's string order. -/
def sortKeys (le : String → String → Bool) : List String → List String
  | [] => []
  | k :: ks => insertKey le k (sortKeys le ks)

/-- The keys of the scalar statistics, csv.py:90-94. -/
def scalarKeys {V : Type} (stats : List (String × Stat V)) : List String :=
  (stats.filter (fun e => e.2.isScalar)).map Prod.fst

/-- `columns` without the leading `"step"`, csv.py:100. -/
def columns {V : Type} (le : String → String → Bool) (stats : List (String × Stat V)) : List String :=
  sortKeys le (scalarKeys stats)

/-- The row fields after the step number, csv.py:106: `row_dict.get(col, "")`
(`none` is the empty string). -/
def rowFields {V : Type} (le : String → String → Bool) (stats : List (String × Stat V)) :
    List (Option V) :=
  (columns le stats).map (fun c => (stats.lookup c).map Stat.val)

/-! ### HDF5 -/

/-- An HDF5 file: one growing dataset per key. -/
abbrev H5 (V : Type) := List (String × List V)

/-- `h5_append` of one row, hdf5.py:17-25. -/
def h5Append {V : Type} : H5 V → String → V → H5 V
  | [], k, v => [(k, [v])]
  | (k', vs) :: f, k, v => if k' = k then (k', vs ++ [v]) :: f else (k', vs) :: h5Append f k v

/-- `HDF5Writer.write`, hdf5.py:62-69, and `HDF5ReadWrite.write`, evaluation.py:79-88: values that
are not `jax.Array`s are skipped. -/
def h5Write {V : Type} (f : H5 V) (stats : List (String × Stat V)) : H5 V :=
  stats.foldl (fun f e => if e.2.isJax then h5Append f e.1 e.2.val else f) f

/-- `HDF5Writer._truncate_to`, hdf5.py:55-60. -/
def h5Truncate {V : Type} (f : H5 V) (initialStep : Nat) : H5 V :=
  f.map (fun e => (e.1, if e.2.length > initialStep then e.2.take initialStep else e.2))

/-- One session of `HDF5Writer`: open (truncates), then the rows. -/
def h5Session {V : Type} (f : H5 V) (start : Nat) (rows : List (Nat × List (String × Stat V))) : H5 V :=
  rows.foldl (fun f r => h5Write f r.2) (h5Truncate f start)

/-- One session of the evaluation stage's `HDF5ReadWrite` (evaluation.py:50-61): open does not
truncate. -/
def evalSession {V : Type} (f : H5 V) (rows : List (Nat × List (String × Stat V))) : H5 V :=
  rows.foldl (fun f r => h5Write f r.2) f

/-- What a hard kill may leave of an HDF5 file whose latest rows are still in HDF5's buffers:
of each dataset the first `keep key` rows. -/
def h5Kill {V : Type} (keep : String → Nat) (f : H5 V) : H5 V :=
  f.map (fun e => (e.1, e.2.take (keep e.1)))

/-! ### The writer collection -/

/-- `Writers.open` / `Writers.write` (base.py:108-147): only the master process touches the
writers.  `files` are the writers' files, `w` the write functions. -/
def writersWrite {F R : Type} (isMaster : Bool) (w : List (F → Nat → R → F)) (files : List F)
    (step : Nat) (r : R) : List F :=
  if isMaster then (w.zip files).map (fun p => p.1 p.2 step r) else files

end Jaqmc.Writers
