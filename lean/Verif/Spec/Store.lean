import Verif.Model.Heap
/-
Specification for C01-C03: parameters are plain independent values.  There is no heap, no
sharing flag: copying duplicates a value, and an operation on parameter `i` replaces entry `i`.
(The only things taken from the model are the operation names `Op`/`Items`.)
-/
namespace SBayes.Heap

/-- A parameter as the user thinks of it. -/
structure PV (ρ : Type) where
  grouped : Bool
  rows : List ρ
  version : Nat
  groups : List Nat

/-- Which parameter an operation is called on (`none` for a constructor call). -/
def Op.target {ρ : Type} : Op ρ → Option Nat
  | .create .. => none
  | .copy i | .setValue i _ | .setItems i _ | .edit i _ | .editAbort i _
  | .editGroup i _ _ | .editGroupAbort i _ _ => some i

/-- Does the operation run to its end on this value?  Not if the row does not exist, the body of
the edit raises, or a group is addressed on a parameter without groups.  Copying and construction
are not mutations. -/
def PV.completes {ρ : Type} (v : PV ρ) : Op ρ → Bool
  | .create .. | .copy _ | .editAbort .. | .editGroupAbort .. => false
  | .setValue .. | .edit .. | .setItems _ (.other _) => true
  | .setItems _ (.row g _) => g < v.rows.length
  | .editGroup _ g _ => v.grouped && g < v.rows.length

/-- The rows after an operation on this value (also after an aborted one). -/
def PV.newRows {ρ : Type} (v : PV ρ) : Op ρ → List ρ
  | .create .. | .copy _ => v.rows
  | .setValue _ rows => rows
  | .setItems _ (.row g f) => v.rows.modify g f
  | .setItems _ (.other f) | .edit _ f | .editAbort _ f => f v.rows
  | .editGroup _ g f | .editGroupAbort _ g f => if v.grouped then v.rows.modify g f else v.rows

/-- The group whose change an operation announces. -/
def Op.group {ρ : Type} : Op ρ → Option Nat
  | .setItems _ (.row g _) | .editGroup _ g _ => some g
  | _ => none

/-- The effect of an operation on the one value it is called on: new rows; the version counts the
completed mutations; the counter of an announced group becomes the new version. -/
def PV.apply {ρ : Type} (v : PV ρ) (op : Op ρ) : PV ρ :=
  let version := if v.completes op then v.version + 1 else v.version
  { v with
    rows := v.newRows op
    version := version
    groups := match op.group with
      | some g => if v.grouped && v.completes op then v.groups.set g version else v.groups
      | none => v.groups }

/-- One operation on the store of independent values. -/
def specStep {ρ : Type} (s : List (PV ρ)) (op : Op ρ) : List (PV ρ) :=
  match op with
  | .create grouped rows => s ++ [⟨grouped, rows, 0, List.replicate rows.length 0⟩]
  | .copy i => match s[i]? with
      | some v => s ++ [v]
      | none => s
  | .setValue i _ | .setItems i _ | .edit i _ | .editAbort i _
  | .editGroup i _ _ | .editGroupAbort i _ _ => s.modify i (·.apply op)

/-- A history. -/
def specRun {ρ : Type} (s : List (PV ρ)) (ops : List (Op ρ)) : List (PV ρ) := ops.foldl specStep s

/-- Number of completed mutations of parameter `i` in a history. -/
def completions {ρ : Type} (i : Nat) : List (PV ρ) → List (Op ρ) → Nat
  | _, [] => 0
  | s, op :: ops =>
    (match s[i]? with
      | some v => if op.target = some i ∧ v.completes op then 1 else 0
      | none => 0) + completions i (specStep s op) ops

/-- In this history `set_value` is only called on parameters without groups. -/
def plainSetValueOnly {ρ : Type} : List (PV ρ) → List (Op ρ) → Prop
  | _, [] => True
  | s, op :: ops =>
    (∀ (i : Nat) (rows : List ρ), op = .setValue i rows → ∀ v : PV ρ, s[i]? = some v → v.grouped = false) ∧
    plainSetValueOnly (specStep s op) ops

/-- Is this an edit block whose body raises? -/
def Op.aborts {ρ : Type} : Op ρ → Bool
  | .editAbort .. | .editGroupAbort .. => true
  | _ => false

end SBayes.Heap
