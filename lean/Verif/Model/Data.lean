import Mathlib.Data.Real.Basic
import Mathlib.Data.List.Lex
import Mathlib.Data.Char
import Mathlib.Algebra.BigOperators.Group.Finset.Basic
import Mathlib.Algebra.Order.Group.Abs
/-
Model of the loading of data: sbayes/util.py (encode_states 257-309, normalize_str 312-315, read_data_csv 318-319,
scale_counts 476-493), sbayes/load_data.py (Objects.from_dataframe 61-82, Features.from_dataframes 117-126,
Confounder.from_dataframe 150-190, read_features_from_csv 285-320), sbayes/preprocessing.py (assign_to_cluster 244-271,
assign_to_confounders 274-305, read_geo_cost_matrix 382-408).

Strings are lists of characters. A csv file is a table of cells (quoting and the splitting of lines are pandas').
A data frame is the number of its rows and a column per name (pandas renames repeated column names, so names are
distinct); a missing value (NaN) is `none`. Any exception is `none`.
-/
namespace SBayes.Data

abbrev Str := List Char

/-- A pandas data frame of strings. -/
structure Table where
  nRows : ℕ
  cols : List (Str × (ℕ → Option Str))

/-- `df[name]`; `none` is a KeyError. -/
def Table.col (d : Table) (name : Str) : Option (ℕ → Option Str) := d.cols.lookup name

/-- A csv file: header and cells. -/
structure CsvFile where
  nRows : ℕ
  header : List Str
  cell : ℕ → ℕ → Str

/-- `str.strip`. Python's set of white-space characters is the parameter `ws`. -/
def strip (ws : Char → Bool) (s : Str) : Str := ((s.dropWhile ws).reverse.dropWhile ws).reverse

/-- `pd.read_csv(csv_path, dtype=str).applymap(normalize_str)`, util.py:312-319. `isNA` is pandas' test for cells that
mean "missing" (`''`, `'NA'`, `'nan'`, ...), applied to the cell as written; the values that are not missing are then
stripped. -/
def readDataCsv (ws : Char → Bool) (isNA : Str → Bool) (f : CsvFile) : Table where
  nRows := f.nRows
  cols := f.header.zipIdx.map (fun h => (h.1, fun i => if isNA (f.cell i h.2) then none else some (strip ws (f.cell i h.2))))

/-! ### Encoding of features -/

/-- `d[k] = v` for a dict, as a list of items. -/
def dictSet (d : List (Str × ℕ)) (k : Str) (v : ℕ) : List (Str × ℕ) :=
  match d with
  | [] => [(k, v)]
  | p :: r => if p.1 = k then (k, v) :: r else p :: dictSet r k v

/-- `dict(zip(s_ext, s_int))`, util.py:281-285: a repeated name keeps its last index. -/
def extToInt (sExt : List Str) : List (Str × ℕ) := sExt.zipIdx.foldl (fun d p => dictSet d p.1 p.2) []

/-- The result of `encode_states`. -/
structure Encoded where
  values : ℕ → ℕ → ℕ → Bool
  states : ℕ → ℕ → Bool
  stateNames : List (List Str)
  naNumber : ℕ

/-- `series.dropna().to_list()` of a column with `n` rows. -/
def dropna (n : ℕ) (c : ℕ → Option Str) : List Str := (List.range n).filterMap c

/-- One pass of the loop over the features, util.py:273-301: `f_idx`, the column of the states table and that of the
data. `features_bin[f_applicable, f_idx] = one_hot[f_enc_applicable]` writes a row of the unit matrix for every
object whose value has an encoding. -/
def encodeFeature (nObjects nStates fIdx : ℕ) (fStates fRaw : ℕ → Option Str) (e : Encoded) : Option Encoded :=
  let sExt := dropna nStates fStates
  let code := extToInt sExt
  let fEnc : ℕ → Option ℕ := fun i => (fRaw i).bind (fun v => code.lookup v)
  if ∀ v ∈ dropna nObjects fRaw, v ∈ sExt then
    some {
      values := fun i f s => if f = fIdx then (match fEnc i with | some k => s == k | none => e.values i f s)
                             else e.values i f s
      states := fun f s => if f = fIdx then (fStates s).isSome else e.states f s
      stateNames := e.stateNames ++ [sExt]
      naNumber := e.naNumber + (List.range nObjects).countP (fun i => (fEnc i).isNone) }
  else none

/-- The loop `for f_idx in range(n_features)`, util.py:273-301. -/
def encodeLoop (data : Table) (nStates : ℕ) : ℕ → List (Str × (ℕ → Option Str)) → Encoded → Option Encoded
  | _, [], e => some e
  | fIdx, (name, fStates) :: rest, e => do
    let fRaw ← data.col name
    let e' ← encodeFeature data.nRows nStates fIdx fStates fRaw e
    encodeLoop data nStates (fIdx + 1) rest e'

/-- `encode_states(data.loc[:, feature_states.columns], feature_states)`, load_data.py:123-124 and util.py:257-309. -/
def encodeStates (data featureStates : Table) : Option Encoded :=
  encodeLoop data featureStates.nRows 0 featureStates.cols
    { values := fun _ _ _ => false, states := fun _ _ => false, stateNames := [], naNumber := 0 }

/-! ### Confounders -/

/-- Insertion into a strictly increasing list. -/
def insertUnique {α : Type*} [LinearOrder α] (x : α) : List α → List α
  | [] => [x]
  | y :: ys => if x < y then x :: y :: ys else if x = y then y :: ys else y :: insertUnique x ys

/-- `np.unique`: the distinct values in increasing order. -/
def unique {α : Type*} [LinearOrder α] (l : List α) : List α := l.foldr insertUnique []

structure Confounder where
  groupNames : List Str
  assignment : ℕ → ℕ → Bool

def allGroup : Str := "<ALL>".toList

/-- `Confounder.from_dataframe`, load_data.py:150-190. `groupNames = none` is Python's `None`. -/
def confounderFromDataframe (data : Table) (name : Str) (groupNames : Option (List Str)) : Option Confounder :=
  match data.col name with
  | none =>
    match groupNames with
    | none => none                                   -- `len(None)`: TypeError
    | some gs =>
      if gs = [allGroup] then some { groupNames := gs, assignment := fun g _ => g == 0 }
      else none                                      -- KeyError
  | some bySite =>
    let inData := unique (dropna data.nRows bySite)
    let names := groupNames.getD inData
    if (∀ g ∈ names, g ∈ inData) ∧ (∀ g ∈ inData, g ∈ names) then
      some { groupNames := names
             assignment := fun g i => decide (i < data.nRows) &&
               (match names[g]? with
                | some gName => bySite i == some gName
                | none => false) }
    else none                                        -- AssertionError

/-! ### Objects and the whole data set -/

structure Objects where
  ids : List (Option Str)
  locations : List (Option ℝ × Option ℝ)
  names : List (Option Str)

/-- `Objects.from_dataframe`, load_data.py:61-82. `float` is the conversion of a cell; a missing or unreadable
coordinate is `none` (NaN or an exception: not distinguished). -/
def objectsFromDataframe (float : Option Str → Option ℝ) (data : Table) : Option Objects := do
  let x ← data.col "x".toList
  let y ← data.col "y".toList
  let id ← data.col "id".toList
  let name := (data.col "name".toList).getD id
  some { ids := (List.range data.nRows).map id
         locations := (List.range data.nRows).map (fun i => (float (x i), float (y i)))
         names := (List.range data.nRows).map name }

/-- One pass of `for c, groups in groups_by_confounder.items()`, load_data.py:308-309. -/
def readConfounder (data : Table) (c : Str × Option (List Str)) : Option (Str × Confounder) := do
  let x ← confounderFromDataframe data c.1 c.2
  some (c.1, x)

structure Dataset where
  objects : Objects
  features : Encoded
  confounders : List (Str × Confounder)

/-- `read_features_from_csv`, load_data.py:285-320 (log messages left out). -/
def readFeatures (ws : Char → Bool) (isNA : Str → Bool) (float : Option Str → Option ℝ)
    (dataFile statesFile : CsvFile) (groupsByConfounder : List (Str × Option (List Str))) : Option Dataset := do
  let data := readDataCsv ws isNA dataFile
  let featureStates := readDataCsv ws isNA statesFile
  let features ← encodeStates data featureStates
  let objects ← objectsFromDataframe float data
  let confounders ← groupsByConfounder.mapM (readConfounder data)
  some { objects := objects, features := features, confounders := confounders }

/-! ### Geographical costs -/

/-- The cost file as a data frame: row names, column names, and the number in each cell. Cells that are missing or not
numbers are not modelled. -/
structure CostFile where
  index : List Str
  columns : List Str
  entry : ℕ → ℕ → ℝ

/-- `np.allclose(M, M.T)` with the default tolerances, for an n×n matrix. -/
def Allclose (n : ℕ) (m : ℕ → ℕ → ℝ) : Prop :=
  ∀ i < n, ∀ j < n, |m i j - m j i| ≤ 1 / 10 ^ 8 + 1 / 10 ^ 5 * |m j i|

/-- `costs.loc[object_names, object_names]`, preprocessing.py:396: `none` if a name has no row (KeyError). A name with two
rows gives a matrix that is not square, on which the next step fails: also `none`. -/
def sortedCosts (objectNames : List Str) (f : CostFile) : Option (ℕ → ℕ → ℝ) :=
  if ∀ x ∈ objectNames, f.index.count x = 1 ∧ x ∈ f.columns then
    some (fun i j => f.entry (f.index.idxOf (objectNames.getD i [])) (f.columns.idxOf (objectNames.getD j [])))
  else none

open Classical in
/-- `read_geo_cost_matrix`, preprocessing.py:382-408. -/
noncomputable def readGeoCostMatrix (objectNames : List Str) (f : CostFile) : Option (ℕ → ℕ → ℝ) :=
  if (∀ x ∈ f.columns, x ∈ objectNames) ∧ (∀ x ∈ objectNames, x ∈ f.columns) then
    match sortedCosts objectNames f with
    | none => none
    | some m =>
      if ¬ Allclose objectNames.length m then some (fun i j => (m i j + m j i) / 2) else some m
  else none

/-! ### Scaling of counts -/

open Classical in
/-- `scale_counts`, util.py:476-493, for one row of `n` states; `eps` is `EPS`. -/
noncomputable def scaleCounts (eps scaleTo : ℝ) (n : ℕ) (counts : ℕ → ℝ) : ℕ → ℝ :=
  let sum := ∑ s ∈ Finset.range n, counts s
  let sum' := if sum = 0 then eps else sum
  let factor := scaleTo / sum'
  let factor' := if factor < 1 then factor else 1
  fun s => counts s * factor'

/-! ### Simulated sites -/

/-- `assign_to_cluster`, preprocessing.py:244-271: the cluster ids and the membership of `n` sites. -/
def assignToCluster (n : ℕ) (cluster : ℕ → ℤ) : List ℤ × (ℕ → ℕ → Bool) :=
  let ids := unique (((List.range n).map cluster).filter (fun z => z ≠ 0))
  (ids, fun k i => match ids[k]? with | some z => decide (i < n) && (cluster i == z) | none => false)

/-- `assign_to_confounders`, preprocessing.py:274-305, for one confounder. `confounder is not None` is the constant `True`, so
nothing is filtered (287). -/
def assignToConfounder (n : ℕ) (confounder : ℕ → Str) : List Str × (ℕ → ℕ → Bool) :=
  let groups := unique ((List.range n).map confounder)
  (groups, fun q i => match groups[q]? with | some s => decide (i < n) && (confounder i == s) | none => false)

/-- A column of the canvas as `load_canvas` reads it, preprocessing.py:37-42: an empty cell becomes `'0'`. -/
def canvasColumn (cell : ℕ → Str) : ℕ → Str := fun i => if (cell i).length < 1 then "0".toList else cell i

end SBayes.Data
