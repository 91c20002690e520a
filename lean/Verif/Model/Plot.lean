import Verif.Model.Postproc
import Verif.Model.Results
import Mathlib.Analysis.Real.Sqrt
/-
Model of the computations in sbayes/plot.py (what is drawn, not how) and of the neighbourhood graphs in
sbayes/util.py:122-178. Samples of one cluster are functions from the `N` objects to Bool. Exceptions are `none`;
frequencies over no sample at all (NaN in numpy) are `none` as well.
-/
namespace SBayes.Plot
open SBayes.Post

/-- A location on the map. -/
abbrev Loc := ℝ × ℝ

/-- Euclidean distance (util.py:164, and what cKDTree.query measures). -/
noncomputable def edist (a b : Loc) : ℝ := Real.sqrt ((a.1 - b.1) ^ 2 + (a.2 - b.2) ^ 2)

/-- `(a + b) / 2`, util.py:161. -/
noncomputable def midpoint (a b : Loc) : Loc := ((a.1 + b.1) / 2, (a.2 + b.2) / 2)

/-- `compute_delaunay`, util.py:122-143, as the test whether `i` and `j` are connected. For fewer than four points
it is the complete graph; otherwise the triangulation is scipy's (`qhull`), which is not modelled. -/
def computeDelaunay (qhull : List Loc → ℕ → ℕ → Bool) (locs : List Loc) : ℕ → ℕ → Bool :=
  if locs.length < 4 then fun i j => i != j else qhull locs

/-- The loop over the matrix, util.py:154-160: `np.ndenumerate` goes through it row by row. -/
def delaunayConnections (n : ℕ) (adj : ℕ → ℕ → Bool) : List (ℕ × ℕ) :=
  ((List.range n).flatMap (fun i => (List.range n).map (fun j => (i, j)))).foldl
    (fun acc ij => if adj ij.1 ij.2 then
      (if (ij.2, ij.1) ∈ acc then acc else acc ++ [ij]) else acc) []

/-- `np.sort(·, axis=1)` of one row, util.py:161. -/
def sortPair (p : ℕ × ℕ) : ℕ × ℕ := (min p.1 p.2, max p.1 p.2)

/-- `gabriel_graph_from_delaunay`, util.py:146-178. The distance from the midpoint to the nearest location is at
least `r * 0.999` exactly when the distance to every location is. Without any edge `np.sort` raises (axis 1 of an
empty array). -/
noncomputable def gabriel (adj : ℕ → ℕ → Bool) (locs : List Loc) : Option (List (ℕ × ℕ)) :=
  let cs := delaunayConnections locs.length adj
  if cs = [] then none else
    some ((cs.filter (fun p =>
      let a := locs.getD p.1 (0, 0)
      let b := locs.getD p.2 (0, 0)
      let r := edist a b / 2
      decide (∀ c ∈ locs, r * (999 / 1000) ≤ edist c (midpoint a b)))).map sortPair)

/-- `x / n` in numpy: NaN (`none`) for 0/0. -/
noncomputable def ratio (x n : ℕ) : Option ℝ := if n = 0 then none else some ((x : ℝ) / (n : ℝ))

/-- A line of the map: its two ends and its weight. -/
structure Line (N : ℕ) where
  a : Fin N
  b : Fin N
  weight : Option ℝ

/-- `cluster_freq >= min_posterior_frequency`, plot.py:361-362; NaN compares as false. -/
noncomputable def isFrequent {N : ℕ} (cluster : List (Fin N → Bool)) (minFreq : ℝ) (i : Fin N) : Bool :=
  match ratio (cluster.countP (fun s => s i)) cluster.length with
  | none => false
  | some x => decide (minFreq ≤ x)

/-- The weight of the line between two objects, plot.py:397-399. -/
noncomputable def together {N : ℕ} (cluster : List (Fin N → Bool)) (i j : Fin N) : Option ℝ :=
  ratio (cluster.countP (fun s => s i && s j)) cluster.length

/-- The edges for a consensus map, plot.py:379-391, as positions in the list of marked objects. -/
noncomputable def consensusEdges (qhull : List Loc → ℕ → ℕ → Bool) (locs : List Loc) : Option (List (ℕ × ℕ)) :=
  if locs.length > 3 then gabriel (computeDelaunay qhull locs) locs
  else if locs.length = 3 then some [(0, 1), (1, 2), (2, 0)]
  else if locs.length = 2 then some [(0, 1)]
  else some []

/-- The edges for a density map, plot.py:370-375. `np.meshgrid(a, a)`, transposed and reshaped, lists all pairs; the
first entry of a pair varies slowest. -/
def densityEdges (N : ℕ) : List (ℕ × ℕ) :=
  ((List.range N).flatMap (fun i => (List.range N).map (fun j => (i, j)))).filter (fun p => decide (p.1 < p.2))

/-- The line of one edge, plot.py:395-400: positions are looked up in the marked objects. -/
def lineOf {N : ℕ} (indices : List (Fin N)) (w : Fin N → Fin N → Option ℝ) (e : ℕ × ℕ) : Option (Line N) :=
  match indices[e.1]?, indices[e.2]? with
  | some i, some j => some ⟨i, j, w i j⟩
  | _, _ => none

/-- `Plot.clusters_to_graph`, plot.py:346-404: the marked objects and the lines. -/
noncomputable def clustersToGraph {N : ℕ} (qhull : List Loc → ℕ → ℕ → Bool) (samples : List (Fin N → Bool))
    (loc : Fin N → Loc) (burnIn : ℝ) (density : Bool) (minFreq : ℝ) : Option ((Fin N → Bool) × List (Line N)) :=
  let cluster := dropCeil samples burnIn
  let inGraph : Fin N → Bool := if density then fun _ => true else isFrequent cluster minFreq
  let indices : List (Fin N) := (List.finRange N).filter inGraph
  let locs := indices.map loc
  let edges := if density then some (densityEdges N) else consensusEdges qhull locs
  match edges with
  | none => none
  | some es =>
    match es.mapM (lineOf indices (together cluster)) with
    | none => none
    | some lines => some (inGraph, lines)

/-- The samples of one cluster that a plot looks at: `Results.drop_burnin` (results.py:27-37, with the burn-in of the
*map*, plot.py:231-236) and then the plot's own burn-in (plot.py:349-350, 1697-1699; postprocessing.py:16-17). -/
noncomputable def plotted {α : Type*} (logged : List α) (mapBurnIn plotBurnIn : ℝ) : List α :=
  dropCeil (logged.drop ⌊mapBurnIn * (logged.length : ℝ)⌋₊) plotBurnIn

/-- What one pie shows, plot.py:1739-1748: for each cluster the number of samples with the object, then the number
of samples minus their sum. -/
def pieSlices {N K : ℕ} (clusters : Fin K → List (Fin N → Bool)) (nSamples : ℕ) (l : Fin N) : List ℤ :=
  let perLang := (List.finRange K).map (fun k => (((clusters k).countP (fun s => s l) : ℕ) : ℤ))
  perLang ++ [(nSamples : ℤ) - perLang.sum]

/-- The number of rows of the grid, plot.py:1709. -/
def nRows (nPlots nCol : ℕ) : ℕ := (nPlots + nCol - 1) / nCol

/-- The cell (row, column) of object `l`, plot.py:1734-1735. -/
def cell (nRow l : ℕ) : ℕ × ℕ := (l - nRow * (l / nRow), l / nRow)

/-- `Plot.plot_pies`, plot.py:1690-1784: the pies with their cells. A grid without columns raises
(ZeroDivisionError), as does one without rows (ValueError of `plt.subplots`). With one row or one column `axs` is
not two-dimensional and `axs[ax_row, ax_col]` raises. A negative slice raises in matplotlib. `samples` is what is
left after both burn-ins. -/
def plotPies {N K : ℕ} (clusters : Fin K → List (Fin N → Bool)) (nSamples nCol : ℕ) :
    Option (List ((ℕ × ℕ) × List ℤ)) :=
  let nRow := nRows N nCol
  if nCol = 0 then none
  else if nRow = 0 then none
  else if nRow = 1 ∨ nCol = 1 then none
  else
    let pies := (List.finRange N).map (fun l : Fin N => (cell nRow (l : ℕ), pieSlices clusters nSamples l))
    if pies.all (fun p => p.2.all (fun x => decide (0 ≤ x))) then some pies else none

/-- The position at which a long label is broken, plot.py:1754-1756: the first blank or dash closest to the middle
(distances times two, to stay in the integers). -/
def breakAt (label : List Char) : Option ℕ :=
  let cands := (List.range label.length).filter (fun i => label.getD i 'x' == ' ' || label.getD i 'x' == '-')
  cands.foldl (fun best i => match best with
    | none => some i
    | some b => if Int.natAbs (2 * (i : ℤ) - label.length) < Int.natAbs (2 * (b : ℤ) - label.length)
        then some i else some b) none

/-- The label under a pie, plot.py:1751-1760. -/
def pieLabel (label : List Char) : List Char :=
  if (' ' ∈ label ∨ '-' ∈ label) ∧ 10 < label.length then
    match breakAt label with
    | none => label
    | some b =>
      if ' ' ∈ label then label.take b ++ ['\n'] ++ label.drop (b + 1)
      else label.take b ++ ['-', '\n'] ++ label.drop (b + 1)
  else label

/-- The legend with log-likelihoods, plot.py:706-721: the numbers printed behind Z₁, Z₂, …: the means, sorted in
decreasing order (any way of sorting gives the same numbers), truncated by `int`. -/
noncomputable def legendEntries (lhPerCluster : List (List ℝ)) : List ℤ :=
  (((lhPerCluster.map mean).mergeSort (fun a b => decide (b ≤ a))).map
    (fun x => if 0 ≤ x then ⌊x⌋ else ⌈x⌉))

/-- An entry of the correspondence table: number, name, colour. -/
structure Entry (C : Type) where
  id : ℕ
  name : List Char
  color : C
deriving DecidableEq

/-- The entries of the correspondence table in order, plot.py:807-824. A cluster without colour raises. -/
def tableEntries {C : Type} (objects : List (ℕ × List Char)) (labels : List (List ℕ)) (colors : List C) (black : C)
    (showAll : Bool) : Option (List (Entry C)) :=
  (objects.mapM (fun o =>
    let hits := (List.range labels.length).filter (fun s => decide (o.1 ∈ labels.getD s []))
    if hits.isEmpty then some (if showAll then [Entry.mk o.1 o.2 black] else [])
    else hits.mapM (fun s => (colors[s]?).map (fun c => Entry.mk o.1 o.2 c)))).map List.flatten

/-- A cell of the table: text and colour. -/
abbrev Cell (C : Type) := List Char × C

/-- The table, plot.py:826-852: the entries are dealt out to the rows in turn (two cells each), then short rows are
filled up with empty cells. `num` is `str(id + 1)`. Without entries `table_fill[0]` raises, without columns the
division does. -/
def tableRows {C : Type} (num : ℕ → List Char) (fill : C) (nCol : ℕ) (es : List (Entry C)) :
    Option (List (List (Cell C))) :=
  let nRow := nRows es.length nCol
  if nCol = 0 ∨ nRow = 0 then none
  else
    let dealt := es.zipIdx.foldl (fun (rows : List (List (Cell C))) e =>
      rows.modify (e.2 % nRow) (fun r => r ++ [(num (e.1.id + 1), e.1.color), (e.1.name, e.1.color)]))
      (List.replicate nRow [])
    some (dealt.map (fun r => r ++ List.replicate (nCol * 2 - r.length) ([], fill)))

end SBayes.Plot
