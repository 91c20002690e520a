import Mathlib.Data.EReal.Operations
import Mathlib.Algebra.BigOperators.Group.Finset.Basic
/-
Model of the text loggers of a run: sbayes/sampling/loggers.py (ResultsLogger 16-51, ParametersCSVLogger 54-203,
ClustersLogger 206-245) and the helpers in sbayes/util.py (encode_cluster 43-46, format_cluster_columns 54-57,
get_permutations 1208-1210, get_best_permutation 1213-1230).

Strings are lists of characters; a text file is the list of its lines (the `'\n'` at the end of each write is
added in Model/Results.lean, where the files are read back). Numbers are extended reals, so that a log-probability
may be −∞; `float_format % x` is an arbitrary function `fmt : EReal → Str`.
Arrays are functions on indices together with their sizes (`K` clusters, `N` objects).
-/
namespace SBayes.Log

abbrev Str := List Char

/-- A string literal of the source code. -/
def lit (s : String) : Str := s.toList

/-- `str` of a non-negative integer inside an f-string. -/
def num (n : ℕ) : Str := Nat.toDigits 10 n

/-- The names in the data: `data.features.names` with `state_names`, `data.confounders` with `group_names`. -/
structure Schema where
  features : List (Str × List Str)
  confs : List (Str × List Str)

/-- The contents of a sample at the time it is logged. `lh1 c e` and `prior1 c e` are `model.likelihood` and
`model.prior` of the sample in which the clusters are replaced by the single cluster `c` with effect `e` and the
source is removed (loggers.py:185-194). -/
structure Snapshot where
  step : ℕ
  lh : EReal
  prior : EReal
  clusters : ℕ → ℕ → Bool
  weights : ℕ → ℕ → ℝ
  clusterEffect : ℕ → ℕ → ℕ → ℝ
  confEffect : ℕ → ℕ → ℕ → ℕ → ℝ
  lh1 : (ℕ → Bool) → (ℕ → ℕ → ℝ) → EReal
  prior1 : (ℕ → Bool) → (ℕ → ℕ → ℝ) → EReal

/-! ### Column names: ParametersCSVLogger.write_header, loggers.py:76-128 -/

def sizeName (i : ℕ) : Str := lit "size_a" ++ num i
def wArealName (f : Str) : Str := lit "w_areal_" ++ f
def wConfName (c f : Str) : Str := lit "w_" ++ c ++ lit "_" ++ f
/-- Note the `i_a+1` (109): columns of the areal effect count from 1, all others from 0. -/
def arealName (i : ℕ) (f s : Str) : Str := lit "areal_a" ++ num (i + 1) ++ lit "_" ++ f ++ lit "_" ++ s
def confName (c g f s : Str) : Str := c ++ lit "_" ++ g ++ lit "_" ++ f ++ lit "_" ++ s
def postName (i : ℕ) : Str := lit "post_a" ++ num i
def lhName (i : ℕ) : Str := lit "lh_a" ++ num i
def priorName (i : ℕ) : Str := lit "prior_a" ++ num i

/-- `column_names`, loggers.py:80-125. -/
def header (S : Schema) (K : ℕ) (contrib : Bool) : List Str :=
  [lit "Sample", lit "posterior", lit "likelihood", lit "prior"] ++
  (List.range K).map sizeName ++
  S.features.flatMap (fun f => wArealName f.1 :: S.confs.map (fun c => wConfName c.1 f.1)) ++
  (List.range K).flatMap (fun a => S.features.flatMap (fun f => f.2.map (fun s => arealName a f.1 s))) ++
  S.confs.flatMap (fun c => c.2.flatMap (fun g => S.features.flatMap (fun f =>
    f.2.map (fun s => confName c.1 g f.1 s)))) ++
  (if contrib then (List.range K).flatMap (fun i => [postName i, lhName i, priorName i]) else [])

/-! ### Matching clusters: util.py:1208-1230 -/

/-- `list(permutations(l))` for `l` of length `n`: itertools emits them in lexicographic order of positions. -/
def lexPerms : ℕ → List ℕ → List (List ℕ)
  | 0, _ => [[]]
  | n + 1, l => l.flatMap (fun x => (lexPerms n (l.erase x)).map (fun p => x :: p))

/-- `get_permutations(n)`, util.py:1208-1210. -/
def getPermutations (n : ℕ) : List (List ℕ) := lexPerms n (List.range n)

/-- Python's `max(x :: xs, key=key)`: the first element with the largest key. -/
def maxKey {α : Type*} (key : α → ℕ) (x : α) : List α → α
  | [] => x
  | y :: ys => maxKey key (if key x < key y then y else x) ys

/-- `clustering_agreement(p)` = `np.sum(prev_area_sum * areas[p, :])`, util.py:1218-1220. -/
def agreement (K N : ℕ) (areas : ℕ → ℕ → Bool) (prev : ℕ → ℕ → ℕ) (p : List ℕ) : ℕ :=
  ∑ i ∈ Finset.range K, ∑ j ∈ Finset.range N, prev i j * (if areas (p.getD i 0) j then 1 else 0)

/-- `get_best_permutation`, util.py:1213-1223. -/
def bestPermutation (K N : ℕ) (areas : ℕ → ℕ → Bool) (prev : ℕ → ℕ → ℕ) : List ℕ :=
  match getPermutations K with
  | [] => []
  | p :: ps => maxKey (agreement K N areas prev) p ps

/-- Indexing by the permutation, `value[permutation, ...]` (loggers.py:139-140, 233), or not at all when
`match_clusters` is off (145-147, 238). -/
def relabel (perm : Option (List ℕ)) (i : ℕ) : ℕ :=
  match perm with
  | none => i
  | some p => p.getD i 0

/-! ### Logger state -/

/-- State shared by both loggers: `file is not None`, the file on disk, `match_clusters`, `cluster_sum`
(and `column_names` for the statistics logger). -/
structure LogState where
  isOpen : Bool
  file : List Str
  matchC : Bool
  sum : ℕ → ℕ → ℕ
  columns : List Str

/-- A logger as constructed (loggers.py:18-29, 60-76, 211-218); `disk` is what the path held before. -/
def newLogger (disk : List Str) (matchC : Bool) : LogState :=
  { isOpen := false, file := disk, matchC := matchC, sum := fun _ _ => 0, columns := [] }

/-- Common part of `_write_sample` (loggers.py:134-147, 227-238): the permutation used, and the new
`cluster_sum`. -/
def matchStep (K N : ℕ) (st : LogState) (x : Snapshot) : Option (List ℕ) × (ℕ → ℕ → ℕ) :=
  if st.matchC then
    let p := bestPermutation K N x.clusters st.sum
    (some p, fun i j => st.sum i j + (if x.clusters (relabel (some p) i) j then 1 else 0))
  else (none, st.sum)

/-- The assignments `row[...] = ...` of `_write_sample` in program order, loggers.py:149-198. -/
noncomputable def rowItems (S : Schema) (K N : ℕ) (contrib : Bool) (perm : Option (List ℕ)) (x : Snapshot) :
    List (Str × EReal) :=
  let clusters := fun i => x.clusters (relabel perm i)
  let clusterEffect := fun i => x.clusterEffect (relabel perm i)
  [(lit "Sample", ((x.step : ℝ) : EReal)), (lit "posterior", x.lh + x.prior), (lit "likelihood", x.lh),
    (lit "prior", x.prior)] ++
  (List.range K).map (fun i => (sizeName i, ((((List.range N).countP (fun j => clusters i j) : ℕ) : ℝ) : EReal))) ++
  S.features.zipIdx.flatMap (fun f => (wArealName f.1.1, ((x.weights f.2 0 : ℝ) : EReal)) ::
    (S.confs.zipIdx 1).map (fun c => (wConfName c.1.1 f.1.1, ((x.weights f.2 c.2 : ℝ) : EReal)))) ++
  (List.range K).flatMap (fun a => S.features.zipIdx.flatMap (fun f => f.1.2.zipIdx.map (fun s =>
    (arealName a f.1.1 s.1, ((clusterEffect a f.2 s.2 : ℝ) : EReal))))) ++
  S.confs.zipIdx.flatMap (fun c => c.1.2.zipIdx.flatMap (fun g => S.features.zipIdx.flatMap (fun f =>
    f.1.2.zipIdx.map (fun s =>
      (confName c.1.1 g.1 f.1.1 s.1, ((x.confEffect c.2 g.2 f.2 s.2 : ℝ) : EReal)))))) ++
  (if contrib then (List.range K).flatMap (fun i =>
    [(lhName i, x.lh1 (clusters i) (clusterEffect i)), (priorName i, x.prior1 (clusters i) (clusterEffect i)),
      (postName i, x.lh1 (clusters i) (clusterEffect i) + x.prior1 (clusters i) (clusterEffect i))]) else [])

/-- `row[k]` of a Python dict filled by the assignments in order: the last assignment to `k`; `none` is a
KeyError. -/
def dictGet (items : List (Str × EReal)) (k : Str) : Option EReal :=
  (items.reverse.find? (fun kv => kv.1 = k)).map (fun kv => kv.2)

/-- `"\t".join(l)`. -/
def tabJoin (l : List Str) : Str := ['\t'].intercalate l

/-- `write_sample` of the statistics logger: open and write the header if necessary (36-40, 76-128), then the row
(130-203). `none` is a KeyError. -/
noncomputable def writeParams (S : Schema) (K N : ℕ) (contrib : Bool) (fmt : EReal → Str) (st : LogState) (x : Snapshot) :
    Option LogState :=
  let st := if st.isOpen then st else
    { isOpen := true, file := [tabJoin (header S K contrib)], matchC := if K ≤ 1 then false else st.matchC,
      sum := fun _ _ => 0, columns := header S K contrib }
  let m := matchStep K N st x
  match st.columns.mapM (dictGet (rowItems S K N contrib m.1 x)) with
  | none => none
  | some vals => some { st with file := st.file ++ [tabJoin (vals.map fmt)], sum := m.2 }

/-- `encode_cluster`, util.py:43-46. -/
def encodeCluster (c : List Bool) : Str := c.map (fun b => if b then '1' else '0')

/-- `format_cluster_columns`, util.py:54-57. -/
def formatClusters (cs : List (List Bool)) : Str := tabJoin (cs.map encodeCluster)

/-- `write_sample` of the clusters logger (36-40, 219-241): no header line. -/
def writeClusters (K N : ℕ) (st : LogState) (x : Snapshot) : LogState :=
  let st := if st.isOpen then st else
    { isOpen := true, file := [], matchC := if K ≤ 1 then false else st.matchC,
      sum := fun _ _ => 0, columns := st.columns }
  let m := matchStep K N st x
  { st with
    file := st.file ++
      [formatClusters ((List.range K).map (fun i => (List.range N).map (fun j => x.clusters (relabel m.1 i) j)))],
    sum := m.2 }

/-- `close`, loggers.py:46-48; `none` is the AttributeError of closing a logger that never wrote. -/
def closeLog (st : LogState) : Option LogState :=
  if st.isOpen then some { st with isOpen := false } else none

/-- What MCMC does to the loggers: `log_sample_statistics` (mcmc.py:395-396) and the closing loop (307-309). -/
inductive Event
  | write (x : Snapshot)
  | close

/-- The two text loggers of a run under one event; both get every event, the statistics logger first
(mcmc_setup.py:111-115). -/
noncomputable def logStep (S : Schema) (K N : ℕ) (contrib : Bool) (fmt : EReal → Str) :
    LogState × LogState → Event → Option (LogState × LogState)
  | (p, c), .write x =>
    match writeParams S K N contrib fmt p x with
    | none => none
    | some p' => some (p', writeClusters K N c x)
  | (p, c), .close =>
    match closeLog p, closeLog c with
    | some p', some c' => some (p', c')
    | _, _ => none

/-- A whole history of events. -/
noncomputable def logRun (S : Schema) (K N : ℕ) (contrib : Bool) (fmt : EReal → Str) (st : LogState × LogState)
    (es : List Event) : Option (LogState × LogState) :=
  es.foldlM (logStep S K N contrib fmt) st

end SBayes.Log
