import Verif.Model.Data
/-
Specification vocabulary for the loading of data: what a file entryOf, independently of how it is loaded.
-/
namespace SBayes.Data

/-- What the data say about object `i` in column `name` (`none`: nothing). -/
def entryOf (d : Table) (name : Str) (i : ℕ) : Option Str := (d.col name).bind (fun c => c i)

/-- The state table lists `v` among the states of its `f`-th feature. -/
def Lists (fs : Table) (f : ℕ) (v : Str) : Prop := ∃ p, fs.cols[f]? = some p ∧ ∃ s < fs.nRows, p.2 s = some v

/-- The states of the `f`-th feature are listed without gaps: no missing entry above a state. -/
def NoGaps (fs : Table) (f : ℕ) : Prop :=
  ∀ p, fs.cols[f]? = some p → ∀ s s', s < s' → s' < fs.nRows → (p.2 s').isSome → (p.2 s).isSome

/-- The cost file gives the cost `c` from the object named `a` to the object named `b`. -/
def Gives (f : CostFile) (a b : Str) (c : ℝ) : Prop :=
  ∃ r s, f.index[r]? = some a ∧ f.columns[s]? = some b ∧ f.entry r s = c

/-- `file'` is `file` with its rows in another order: row `i` of `file'` is row `π i` of `file`. -/
def RowsReordered (π : Equiv.Perm ℕ) (file file' : CsvFile) : Prop :=
  file'.nRows = file.nRows ∧ file'.header = file.header ∧ (∀ i, π i < file.nRows ↔ i < file.nRows) ∧
  ∀ i j, file'.cell i j = file.cell (π i) j

/-- Two files that differ only by white space around the cells that are not missing. -/
def SameUpToWhitespace (ws : Char → Bool) (isNA : Str → Bool) (file file' : CsvFile) : Prop :=
  file'.nRows = file.nRows ∧ file'.header = file.header ∧
  ∀ i j, (isNA (file.cell i j) = true ∧ isNA (file'.cell i j) = true) ∨
    (isNA (file.cell i j) = false ∧ isNA (file'.cell i j) = false ∧
      ∃ core pre post pre' post', (∀ ch ∈ pre ++ post ++ pre' ++ post', ws ch = true) ∧
        file.cell i j = pre ++ core ++ post ∧ file'.cell i j = pre' ++ core ++ post')

end SBayes.Data
