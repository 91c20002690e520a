import Verif.Model.Tools
/-
The tool that converts a table of prior parameters (CSV) to the JSON file of a Dirichlet prior: tools/convert_prior_csv_to_json.py.
-/
namespace SBayes.Data

/-- A cell of a column of the table as `pd.read_csv` gives it (convert_prior_csv_to_json.py:19): missing (NaN), a number, or a text. -/
inductive CountCell
  | missing
  | number (v : ℝ)
  | text (s : Str)

/-- The table as read by `pd.read_csv(csv_path, index_col='feature')`, convert_prior_csv_to_json.py:19: the other columns' names, and for
each row the feature and its cells. Simplification: feature names are kept as text (pandas turns a column of only numbers into numbers,
which `json.dump` turns back to text), numbers are real numbers; columns of truth values are not modelled. -/
structure CountsCsv where
  header : List Str
  rows : List (Str × List CountCell)

/-- `{k: v for k, v in row.to_dict().items() if not np.isnan(v)}`, convert_prior_csv_to_json.py:24-27. `np.isnan` of a text raises. -/
def rowDict : List Str → List CountCell → Option (List (Str × ℝ))
  | [], _ => some []
  | _ :: _, [] => some []
  | _ :: ks, .missing :: cs => rowDict ks cs
  | k :: ks, .number v :: cs => (rowDict ks cs).map ((k, v) :: ·)
  | _ :: _, .text _ :: _ => none

/-- `counts_dict[feature] = row_dict`, convert_prior_csv_to_json.py:28. -/
def setRow (d : List (Str × List (Str × ℝ))) (k : Str) (v : List (Str × ℝ)) : List (Str × List (Str × ℝ)) :=
  match d with
  | [] => [(k, v)]
  | p :: r => if p.1 = k then (k, v) :: r else p :: setRow r k v

/-- The loop over the rows, convert_prior_csv_to_json.py:22-28. -/
def convertRows (header : List Str) (d : List (Str × List (Str × ℝ))) : List (Str × List CountCell) →
    Option (List (Str × List (Str × ℝ)))
  | [] => some d
  | r :: rs => do
    let x ← rowDict header r.2
    convertRows header (setRow d r.1 x) rs

/-- The dictionary written to the JSON file, convert_prior_csv_to_json.py:18-32. Reading the file gives the same dictionary. -/
def convertPrior (t : CountsCsv) : Option (List (Str × List (Str × ℝ))) := convertRows t.header [] t.rows

end SBayes.Data
