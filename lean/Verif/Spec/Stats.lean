import Verif.Model.Stats
/-! Specifications for C18–C21. -/
namespace Jaqmc.Stats.Spec

section
variable {K : Type} [Field K]

/-- The mean of all values. -/
def globalMean (xs : List K) : K := xs.sum / (xs.length : K)

/-- The (population) variance of all values. -/
def globalVar (xs : List K) : K := (xs.map (fun x => (x - globalMean xs) ^ 2)).sum / (xs.length : K)

end

/-- A name starts with `energy:`. -/
def IsEnergy (k : String) : Prop := ∃ r : List Char, k.toList = "energy:".toList ++ r

section
variable {K : Type} [LinearOrder K]

/-- `x` lies in bin `i` of the increasing bin edges: between edge `i` and edge `i+1`, the upper edge
belonging to the bin only for the last bin. -/
def InBin (edges : List K) (i : Nat) (x : K) : Prop :=
  ∃ lo hi, edges[i]? = some lo ∧ edges[i + 1]? = some hi ∧ lo ≤ x ∧
    (x < hi ∨ (x = hi ∧ i + 2 = edges.length))

/-- A sample lies in a multi-dimensional bin. -/
def InBins : List (List K) → List Nat → List K → Prop
  | [], [], [] => True
  | e :: es, i :: is, x :: xs => InBin e i x ∧ InBins es is xs
  | _, _, _ => False

/-- A sample lies within the histogram's range in every dimension. -/
def InRange : List (List K) → List K → Prop
  | [], [] => True
  | e :: es, x :: xs => (∃ lo hi, e.head? = some lo ∧ e.getLast? = some hi ∧ lo ≤ x ∧ x ≤ hi) ∧ InRange es xs
  | _, _ => False

end
end Jaqmc.Stats.Spec
