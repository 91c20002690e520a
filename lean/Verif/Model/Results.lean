import Verif.Model.Log
import Mathlib.Algebra.Order.Floor.Defs
/-
Model of sbayes/results.py: reading the files back. Text files are strings with `'\n'` after every line.
`pd.read_csv(path, delimiter="\t")` (180-187) is modelled for files without quotes and with distinct column names
(pandas would rename duplicates): split into lines and fields, `parse : Str → EReal` on the fields.
-/
namespace SBayes.Log

/-- What is on disk after the lines `ls` were written, each followed by `"\n"`. -/
def fileText (ls : List Str) : Str := ls.flatMap (fun l => l ++ ['\n'])

/-- `decode_cluster`, util.py:49-51: `int(ch)` is non-zero. Only digits occur. -/
def decodeCluster (s : Str) : List Bool := s.map (fun ch => ch != '0')

/-- `parse_cluster_columns`, util.py:60-63. -/
def parseClusters (s : Str) : List (List Bool) := (s.splitOn '\t').map decodeCluster

/-- `clusters_list[j].append(parsed_sample[j])` for all `j`, results.py:175-176; an IndexError (more columns than
in the first line) is `none`. -/
def appendSample (acc : List (List (List Bool))) (sample : List (List Bool)) : Option (List (List (List Bool))) :=
  if sample.length ≤ acc.length then
    some (acc.zipIdx.map (fun a => match sample[a.2]? with
      | some c => a.1 ++ [c]
      | none => a.1))
  else none

/-- `np.array(clusters_list, dtype=bool)`, results.py:178: the lists must have the same lengths, at both levels (else a ValueError). -/
def npArray (r : List (List (List Bool))) : Option (List (List (List Bool))) :=
  if (∀ a ∈ r, a.length = (r.headD []).length) ∧ ∀ c ∈ r.flatten, c.length = (r.flatten.headD []).length then some r else none

/-- `Results.read_clusters`, results.py:141-178, cluster-major. -/
def readClusters (text : Str) : Option (List (List (List Bool))) :=
  let lines := text.splitOn '\n'
  let n := ((lines.headD []).splitOn '\t').length
  ((lines.filter (fun l => l.length ≠ 0)).foldlM (fun acc l => appendSample acc (parseClusters l))
    (List.replicate n [])).bind npArray

/-- A data frame: column names and rows. -/
structure Frame where
  columns : List Str
  rows : List (List EReal)

/-- `Results.read_stats`, results.py:180-187 (`skip_blank_lines` is pandas' default). -/
def readStats (parse : Str → EReal) (text : Str) : Frame :=
  let lines := (text.splitOn '\n').filter (fun l => l.length ≠ 0)
  { columns := (lines.headD []).splitOn '\t', rows := (lines.drop 1).map (fun l => (l.splitOn '\t').map parse) }

/-- `parameters[name].to_numpy(dtype=float)`; `none` is a KeyError. -/
noncomputable def Frame.col (d : Frame) (name : Str) : Option (List EReal) :=
  if name ∈ d.columns then some (d.rows.map (fun r => r.getD (d.columns.idxOf name) 0)) else none

/-- `Results.drop_burnin`, results.py:27-37. The number dropped is computed from the clusters file and used for
both; `int(·)` is the floor of a non-negative number. Floating-point rounding of the product is not modelled. -/
noncomputable def dropBurnin {α : Type*} (clusters : List (List α)) (params : Frame) (burnIn : ℝ) :
    List (List α) × Frame :=
  let n := (clusters.headD []).length
  let b := ⌊burnIn * (n : ℝ)⌋₊
  (clusters.map (fun c => c.drop b), { params with rows := params.rows.drop b })

/-- `key.startswith(pre)`. -/
def startsWith (pre key : Str) : Bool := pre.isPrefixOf key

/-- `a, b, c = key.split("_", maxsplit=2)`; `none` is the ValueError of unpacking. -/
def split3 (key : Str) : Option (Str × Str × Str) :=
  match key.dropWhile (fun ch => ch != '_') with
  | [] => none
  | _ :: r => match r.dropWhile (fun ch => ch != '_') with
    | [] => none
    | _ :: t => some (key.takeWhile (fun ch => ch != '_'), r.takeWhile (fun ch => ch != '_'), t)

/-- `a, _, b = key.partition("_")`. -/
def partition2 (key : Str) : Str × Str :=
  (key.takeWhile (fun ch => ch != '_'), (key.dropWhile (fun ch => ch != '_')).drop 1)

/-- The loop used three times (results.py:309-325, 329-343, 351-357): among the columns starting with `pre`,
collect the second part of the name, without duplicates and without `skip`. -/
def collect (pre : Str) (skip : List Str) (columns : List Str) : Option (List Str) :=
  columns.foldlM (fun acc key =>
    if startsWith pre key then
      match split3 key with
      | none => none
      | some (_, x, _) => some (if x ∈ skip then acc else if x ∈ acc then acc else acc ++ [x])
    else some acc) []

/-- `Results.get_groups_by_confounder`, results.py:299-345; the dict in insertion order. -/
def groupsByConfounder (columns : List Str) : Option (List (Str × List Str)) :=
  match collect (lit "w_") [lit "areal"] columns with
  | none => none
  | some confs => confs.mapM (fun c => (collect (c ++ lit "_") [] columns).map (fun gs => (c, gs)))

/-- `Results.get_cluster_names`, results.py:347-357. -/
def clusterNames (columns : List Str) : Option (List Str) := collect (lit "areal_") [] columns

/-- One iteration of the loop of `extract_features_and_states`, results.py:384-395. -/
def extractStep (plen : ℕ) (acc : List Str × List (List Str)) (c : Str) : List Str × List (List Str) :=
  let fs := partition2 (c.drop (plen + 1))
  let acc := if fs.1 ∈ acc.1 then acc else (acc.1 ++ [fs.1], acc.2 ++ [[]])
  (acc.1, acc.2.modify (acc.1.idxOf fs.1) (fun l => l ++ [fs.2]))

/-- `extract_features_and_states`, results.py:362-397. -/
def extractFeatures (columns : List Str) (pre : Str) : List Str × List (List Str) :=
  (columns.filter (startsWith (pre ++ lit "_"))).foldl (extractStep pre.length) ([], [])

/-- `np.column_stack` of a list of columns, each of length `n`: row-major. -/
noncomputable def columnStack (n : ℕ) (cols : List (List EReal)) : List (List EReal) :=
  (List.range n).map (fun t => cols.map (fun c => c.getD t 0))

/-- `parse_weights`, results.py:198-222: for each feature name its array (samples × components). -/
noncomputable def parseWeights (d : Frame) (confs features : List Str) : Option (List (Str × List (List EReal))) :=
  features.mapM (fun f =>
    ((lit "areal" :: confs).mapM (fun c => d.col (lit "w_" ++ c ++ lit "_" ++ f))).map
      (fun cols => (f, columnStack d.rows.length cols)))

/-- `parse_probs`, results.py:224-249. -/
noncomputable def parseProbs (d : Frame) (features : List Str) (states : List (List Str)) (pre : Str) :
    Option (List (Str × List (List EReal))) :=
  (features.zip states).mapM (fun fs =>
    (fs.2.mapM (fun s => d.col (pre ++ lit "_" ++ fs.1 ++ lit "_" ++ s))).map
      (fun cols => (fs.1, columnStack d.rows.length cols)))

/-- `read_dictionary`, results.py:189-196. -/
noncomputable def readDictionary (d : Frame) (key : Str) : List (Str × List EReal) :=
  (d.columns.filter (startsWith key)).filterMap (fun c => (d.col c).map (fun v => (c, v)))

/-- What `Results.__init__` (results.py:39-82) computes from the two tables. -/
structure Loaded where
  clusters : List (List (List Bool))
  groups : List (Str × List Str)
  clusterNames : List Str
  features : List Str
  states : List (List Str)
  sampleId : List EReal
  weights : List (Str × List (List EReal))
  areal : List (Str × List (Str × List (List EReal)))
  confounding : List (Str × List (Str × List (Str × List (List EReal))))
  posterior : List EReal
  likelihood : List EReal
  prior : List EReal
  posteriorSingle : List (Str × List EReal)
  likelihoodSingle : List (Str × List EReal)
  priorSingle : List (Str × List EReal)

/-- `Results.__init__`, results.py:39-82. `none` is an exception (KeyError, ValueError, or the IndexError of
`self.cluster_names[0]`). -/
noncomputable def loadResults (clusters : List (List (List Bool))) (params : Frame) (burnIn : ℝ) :
    Option Loaded := do
  let (cl, d) := dropBurnin clusters params burnIn
  let groups ← groupsByConfounder d.columns
  let names ← Log.clusterNames d.columns
  let first ← names.head?
  let fs := extractFeatures d.columns (lit "areal_" ++ first)
  let sampleId ← d.col (lit "Sample")
  let weights ← parseWeights d (groups.map Prod.fst) fs.1
  let areal ← names.mapM (fun a => (parseProbs d fs.1 fs.2 (lit "areal_" ++ a)).map (fun v => (a, v)))
  let conf ← groups.mapM (fun cg =>
    (cg.2.mapM (fun g => (parseProbs d fs.1 fs.2 (cg.1 ++ lit "_" ++ g)).map (fun v => (g, v)))).map
      (fun v => (cg.1, v)))
  let post ← d.col (lit "posterior")
  let lh ← d.col (lit "likelihood")
  let prior ← d.col (lit "prior")
  return { clusters := cl, groups := groups, clusterNames := names, features := fs.1, states := fs.2,
           sampleId := sampleId, weights := weights, areal := areal, confounding := conf,
           posterior := post, likelihood := lh, prior := prior,
           posteriorSingle := readDictionary d (lit "post_"), likelihoodSingle := readDictionary d (lit "lh_"),
           priorSingle := readDictionary d (lit "prior_") }

end SBayes.Log
