import Verif.Model.Writers
import Verif.Spec.RunLoop
/-! Specification vocabulary for C04–C06. -/
namespace Jaqmc.Writers.Spec
open Jaqmc.RunLoop Jaqmc.Writers

/-- A writer session possibly ended by a kill inside a `write` call (step, statistics, number of
characters missing at the end). -/
structure CsvEvent (R : Type) where
  session : Session R
  torn : Option (Nat × R × Nat)

/-- The CSV file after a sequence of sessions. -/
def runCsv {R : Type} (rd : Render R) : List Char → List (CsvEvent R) → List Char
  | c, [] => c
  | c, e :: es => runCsv rd (csvSession rd c e.session.start e.session.rows e.torn) es

/-- The text of a well-formed CSV file: header line, then one line per row. -/
def csvText {R : Type} (rd : Render R) (header : List Char) (t : List (Nat × R)) : List Char :=
  line header ++ (t.map (fun e => line (rd.row e.1 e.2))).flatten

/-- All statistics of an event. -/
def CsvEvent.stats {R : Type} (e : CsvEvent R) : List R :=
  e.session.rows.map Prod.snd ++ (e.torn.map (fun t => t.2.1)).toList

/-- The dataset of a key in an HDF5 file (empty if absent). -/
def dataset {V : Type} (f : H5 V) (key : String) : List V := (f.lookup key).getD []

/-- A session of the HDF5 writer followed by a process end that leaves the first `keep key` rows of
each dataset on disk. -/
structure H5Event (V : Type) where
  session : Session (List (String × Stat V))
  keep : String → Nat

/-- The HDF5 file after a sequence of sessions. -/
def runH5 {V : Type} : H5 V → List (H5Event V) → H5 V
  | f, [] => f
  | f, e :: es => runH5 (h5Kill e.keep (h5Session f e.session.start e.session.rows)) es

/-- The rows of `key` left on disk by each session reach the step at which the next one resumes. -/
def KeptEnough {V : Type} (key : String) : List (H5Event V) → Prop
  | [] => True
  | [_] => True
  | e :: e' :: es => e'.session.start ≤ e.keep key ∧ KeptEnough key (e' :: es)

/-- A statistics dictionary records `v` under `key` as an array. -/
def Records {V : Type} (key : String) (stats : List (String × Stat V)) (v : V) : Prop :=
  (stats.map Prod.fst).Nodup ∧ ∃ sc, (key, (⟨v, sc, true⟩ : Stat V)) ∈ stats

/-- The evaluation stage's statistics file after a sequence of sessions. -/
def runEval {V : Type} (f : H5 V) (ss : List (Session (List (String × Stat V)))) : H5 V :=
  ss.foldl (fun f s => evalSession f s.rows) f

end Jaqmc.Writers.Spec
