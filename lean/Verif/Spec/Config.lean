import Verif.Model.Config
/-
Specification vocabulary for configurations: what is at the end of a path of keys.
-/
namespace SBayes.Config
variable {κ α : Type} [DecidableEq κ]

/-- The value at the end of a path of keys, if there is one. -/
def Val.at : Val κ α → List κ → Option (Val κ α)
  | v, [] => some v
  | .atom _, _ :: _ => none
  | .dict d, k :: p => (d.get k).bind (fun v => v.at p)

mutual
/-- No dictionary (at any level) has a key twice, as in any Python dict. -/
def Val.Distinct : Val κ α → Prop
  | .atom _ => True
  | .dict d => d.Distinct
def Dict.Distinct : Dict κ α → Prop
  | .nil => True
  | .cons k v rest => rest.get k = none ∧ v.Distinct ∧ rest.Distinct
end

/-- `c` leaves path `p` open: on the way there is a dictionary without the next key. -/
def Open (c : Val κ α) (p : List κ) : Prop :=
  ∃ q k r d, p = q ++ k :: r ∧ c.at q = some (.dict d) ∧ d.get k = none

/-- `c` has a value that is not a dictionary on the way to `p`. -/
def Blocked (c : Val κ α) (p : List κ) : Prop :=
  ∃ q k r a, p = q ++ k :: r ∧ c.at q = some (.atom a)

end SBayes.Config
