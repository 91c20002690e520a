import Verif.Model.Data
/-
Model of the tools that prepare input files: sbayes/tools/extract_feature_states.py (collect_feature_states 42-50,
dict_to_df 53-62, main 97-134), sbayes/tools/extract_universal_prior_counts.py (81-100),
sbayes/tools/extract_inheritance_prior_counts.py (81-104), and of the code that reads the resulting prior:
sbayes/model/prior.py (parse_concentration_json 148-154, parse_concentration_dict 156-170).
Command line, dialogs and the text formats (csv quoting, json) are not modelled. Dicts and sets of strings are lists: a
set is kept in increasing order, which is also the order the tool writes (`ORDER_STATES`, 117-122).
-/
namespace SBayes.Data

/-- `METADATA_COLUMNS`, extract_feature_states.py:44. -/
def metadata : List Str := ["id".toList, "name".toList, "family".toList, "x".toList, "y".toList]

/-- `collect_feature_states`, extract_feature_states.py:42-50: for each remaining column its set of values. `none`:
ValueError, a required column is missing. -/
def collectFeatureStates (ws : Char → Bool) (isNA : Str → Bool) (file : CsvFile) : Option (List (Str × List Str)) :=
  if ∀ m ∈ metadata, m ∈ file.header then
    some (((readDataCsv ws isNA file).cols.filter (fun p => decide (p.1 ∉ metadata))).map
      (fun p => (p.1, unique (dropna file.nRows p.2))))
  else none

/-- extract_feature_states.py:102-114: the features must match; the values are added (`set.update`). -/
def mergeStates (old new : List (Str × List Str)) : Option (List (Str × List Str)) :=
  if (∀ p ∈ old, p.1 ∈ new.map (fun q => q.1)) ∧ (∀ p ∈ new, p.1 ∈ old.map (fun q => q.1)) then
    some (old.map (fun p => (p.1, unique (p.2 ++ (new.lookup p.1).getD []))))
  else none

/-- The loop over the input files, 98-114, after the first. -/
def mergeFiles (ws : Char → Bool) (isNA : Str → Bool) : List (Str × List Str) → List CsvFile → Option (List (Str × List Str))
  | acc, [] => some acc
  | acc, file :: rest => do
    let new ← collectFeatureStates ws isNA file
    let acc' ← mergeStates acc new
    mergeFiles ws isNA acc' rest

/-- `dict_to_df(...).to_csv(output_path, index=False)`, 53-62 and 124-134: columns padded with empty cells to the length
of the longest. `none`: `max` of no features. -/
def statesFile (d : List (Str × List Str)) : Option CsvFile :=
  if d = [] then none
  else some { nRows := (d.map (fun p => p.2.length)).foldr max 0
              header := d.map (fun p => p.1)
              cell := fun i j => ((d.map (fun p => p.2)).getD j []).getD i [] }

/-- `main` of extract_feature_states.py, 97-134: the state file for a list of data files. -/
def extractFeatureStates (ws : Char → Bool) (isNA : Str → Bool) (files : List CsvFile) : Option CsvFile :=
  match files with
  | [] => none
  | file :: rest => do
    let d ← collectFeatureStates ws isNA file
    let d' ← mergeFiles ws isNA d rest
    statesFile d'

/-! ### Prior counts -/

/-- `np.sum(features.values[members], axis=0)`: extract_inheritance_prior_counts.py:89-91; with all objects as members
extract_universal_prior_counts.py:87. -/
def memberCounts (n : ℕ) (e : Encoded) (member : ℕ → Bool) (f s : ℕ) : ℕ :=
  (List.range n).countP (fun i => member i && e.values i f s)

/-- The counts after the optional call of `scale_counts` (extract_inheritance_prior_counts.py:93-95, extract_universal_prior_counts.py:89-91). -/
noncomputable def scaledCounts (eps : ℝ) (scaleTo : Option ℝ) (nStates : ℕ) (counts : ℕ → ℝ) : ℕ → ℝ :=
  match scaleTo with
  | none => counts
  | some m => scaleCounts eps m nStates counts

/-- `counts_dict[feature][state] = v`, a repeated state name keeps the last value. -/
noncomputable def setItem (d : List (Str × ℝ)) (k : Str) (v : ℝ) : List (Str × ℝ) :=
  match d with
  | [] => [(k, v)]
  | p :: r => if p.1 = k then (k, v) :: r else p :: setItem r k v

/-- The dictionary that is written to the prior file: extract_universal_prior_counts.py:93-97,
extract_inheritance_prior_counts.py:97-101. `names` are the features with their state names. -/
noncomputable def priorDict (eps c0 : ℝ) (scaleTo : Option ℝ) (n nStates : ℕ) (e : Encoded) (member : ℕ → Bool)
    (names : List (Str × List Str)) : List (Str × List (Str × ℝ)) :=
  names.zipIdx.map (fun f => (f.1.1, f.1.2.zipIdx.foldl (fun d s => setItem d s.1
    (c0 + scaledCounts eps scaleTo nStates (fun t => (memberCounts n e member f.2 t : ℝ)) s.2)) []))

/-- `parse_concentration_dict`, prior.py:156-170, with `initial_counts = 1`; `none` is a KeyError. -/
noncomputable def parseConcentration (initial : ℝ) (d : List (Str × List (Str × ℝ))) (names : List (Str × List Str)) :
    Option (List (List ℝ)) :=
  names.mapM (fun f => f.2.mapM (fun s => do
    let df ← d.lookup f.1
    let v ← df.lookup s
    some (initial + v)))

end SBayes.Data
