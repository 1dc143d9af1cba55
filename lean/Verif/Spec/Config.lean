import Verif.Model.Config
/-! Specification vocabulary for C11–C14. -/
namespace Jaqmc.Config.Spec
open Jaqmc.Config

variable {V : Type}

mutual
/-- Python dictionaries have distinct keys, at every depth. -/
def WF : Entries V → Prop
  | .nil => True
  | .cons k v r => k ∉ r.keys ∧ WFValue v ∧ WF r
def WFValue : Cfg V → Prop
  | .leaf _ => True
  | .dict d => WF d
end

/-- What a layer says about an option path:
* `value v` – it gives the option the (non-dictionary) value `v`;
* `section` – it has a dictionary there;
* `silent` – some key on the way is absent;
* `blocked` – a proper prefix of the path has a non-dictionary value. -/
inductive Says (V : Type) where
  | value (v : V)
  | section (d : Entries V)
  | silent
  | blocked

/-- What a layer says about a path. -/
def says : List Str → Entries V → Says V
  | [], d => .section d
  | k :: p, d =>
    match d.lookup k with
    | none => .silent
    | some (.leaf v) => if p = [] then .value v else .blocked
    | some (.dict sub) => says p sub

mutual
/-- The options (paths of non-dictionary values) in a configuration. -/
def optionPaths : Entries V → List (List Str)
  | .nil => []
  | .cons k v r => optionPathsAt k v ++ optionPaths r
def optionPathsAt (k : Str) : Cfg V → List (List Str)
  | .leaf _ => [[k]]
  | .dict sub => (optionPaths sub).map (fun p => k :: p)
end

/-- No key contains a dot. -/
def DotFree (p : List Str) : Prop := ∀ k ∈ p, '.' ∉ k

end Jaqmc.Config.Spec
