import Verif.Model.Misc
/-!
Specifications for C40, C46, C47, C48, independent of the functions being specified.
-/
namespace Jaqmc.Misc.Spec
open Jaqmc.Misc

/-- `[:format]`. -/
def formatPart : Option Str → Str
  | some f => ':' :: f
  | none => []

/-- A console field as the user writes it: `[alias=]key[:format]`. -/
def writeField (alias : Option Str) (key : Str) (fmt : Option Str) : Str :=
  match alias with
  | some a => a ++ '=' :: (key ++ formatPart fmt)
  | none => key ++ formatPart fmt

/-- A comma-separated list. -/
def commaList : List Str → Str
  | [] => []
  | [s] => s
  | s :: ss => s ++ ',' :: commaList ss

variable {O V : Type}

/-- The module a reference names: a file for names ending in `.py`; otherwise the package's own module
when the package has it, else the absolute one. -/
inductive Names (imp : Imports O) (package : Option Str) (name : Str) : Except RefErr (PyModule O) → Prop
  | file : ['.', 'p', 'y'] <:+ name → Names imp package name (imp.file name)
  | own (pkg : Str) (r : Except RefErr (PyModule O)) : ¬ ['.', 'p', 'y'] <:+ name → package = some pkg →
      imp.relative pkg name = some r → Names imp package name r
  | absoluteInPackage (pkg : Str) : ¬ ['.', 'p', 'y'] <:+ name → package = some pkg →
      imp.relative pkg name = none → Names imp package name (imp.absolute name)
  | absolute : ¬ ['.', 'p', 'y'] <:+ name → package = none →
      Names imp package name (imp.absolute name)

/-- `RuntimeAt c path name required val`: the component tree `c` contains, inside the nested
components named by `path`, a runtime dependency `name` currently holding `val`. -/
inductive RuntimeAt : Comp V → List Str → Str → Bool → Option V → Prop
  | here (n : Str) (req : Bool) (val : Option V) (rest : Comp V) :
      RuntimeAt (.runtime n req val rest) [] n req val
  | inside (n : Str) (c rest : Comp V) (path : List Str) (m : Str) (req : Bool) (val : Option V) :
      RuntimeAt c path m req val → RuntimeAt (.sub n c rest) (n :: path) m req val
  | skipRuntime (n : Str) (r : Bool) (v : Option V) (rest : Comp V) (path : List Str) (m : Str)
      (req : Bool) (val : Option V) :
      RuntimeAt rest path m req val → RuntimeAt (.runtime n r v rest) path m req val
  | skipPlain (n : Str) (v : V) (rest : Comp V) (path : List Str) (m : Str) (req : Bool) (val : Option V) :
      RuntimeAt rest path m req val → RuntimeAt (.plain n v rest) path m req val
  | skipSub (n : Str) (c rest : Comp V) (path : List Str) (m : Str) (req : Bool) (val : Option V) :
      RuntimeAt rest path m req val → RuntimeAt (.sub n c rest) path m req val
  | skipCls (n : Str) (rest : Comp V) (path : List Str) (m : Str) (req : Bool) (val : Option V) :
      RuntimeAt rest path m req val → RuntimeAt (.cls n rest) path m req val

/-- The tree holds no dataclass type as a plain value. -/
def NoClassValues : Comp V → Prop
  | .nil => True
  | .runtime _ _ _ rest => NoClassValues rest
  | .plain _ _ rest => NoClassValues rest
  | .sub _ c rest => NoClassValues c ∧ NoClassValues rest
  | .cls _ _ => False

/-- Some file of the directory has these contents. -/
def Kept (d : Dir) (content : Str) : Prop := ∃ p, d.lookup p = some content

end Jaqmc.Misc.Spec
