import Verif.Model.Plot
/-
Model of the map as a whole, sbayes/plot.py: `posterior_map` (866-950) with `get_extent` (253-277), `initialize_map` (418-422),
`get_cluster_colors` (424-432), `visualize_clusters` (467-541), `add_labels` and `annotate_label` (434-465). What is drawn where and in
which colour; not the base map, the overview map, the legend of the line widths, the projection, nor the style.
-/
namespace SBayes.WholeMap
open SBayes.Plot SBayes.Post

/-- A colour: one of those in the configuration, black, or an entry of the table of the colour map `gist_rainbow` (256 entries). -/
inductive Color (C : Type)
  | given (c : C)
  | black
  | rainbow (i : ℕ)
  deriving DecidableEq

/-- `cfg_content['labels']`, plot.py:914: `all`, `in_cluster`, or another value (no labels). -/
inductive LabelMode
  | all | inCluster | off
  deriving DecidableEq

/-- The settings that matter, in the parts `content`, `geo`, `graphic` and `legend` of the map. -/
structure Cfg (C : Type) where
  density : Bool
  minFreq : ℝ
  burnIn : ℝ
  labels : LabelMode
  extentX : Option (ℝ × ℝ)
  extentY : Option (ℝ × ℝ)
  colors : List C
  languageLabel : Bool
  legendAdd : Bool
  legendLh : Bool
  tableAdd : Bool
  showAll : Bool

/-- The part of the plane that is shown. -/
structure Extent where
  xMin : ℝ
  xMax : ℝ
  yMin : ℝ
  yMax : ℝ

/-- One direction of `get_extent`, plot.py:254-262 and 264-271: the range of the locations with a margin, unless it is configured. The
minimum over no location raises. -/
noncomputable def range1 (cfg : Option (ℝ × ℝ)) (margin : ℝ) (xs : List ℝ) : Option (ℝ × ℝ) :=
  match cfg with
  | some r => some r
  | none =>
    match xs with
    | [] => none
    | x :: r =>
      let lo := r.foldl min x
      let hi := r.foldl max x
      some (lo - (hi - lo) * margin, hi + (hi - lo) * margin)

/-- `get_extent`, plot.py:253-277. -/
noncomputable def getExtent {C : Type} (cfg : Cfg C) (locs : List Loc) : Option Extent := do
  let x ← range1 cfg.extentX (3 / 10) (locs.map Prod.fst)
  let y ← range1 cfg.extentY (1 / 10) (locs.map Prod.snd)
  some ⟨x.1, x.2, y.1, y.2⟩

/-- `cm(np.linspace(0, 1, n, endpoint=False))`: the colour map has 256 entries, and position `i / n` is entry `int(256 * i / n)`. -/
def rainbow {C : Type} (n : ℕ) : List (Color C) := (List.range n).map fun i => .rainbow (256 * i / n)

/-- The colours of the clusters, plot.py:483-498 with `get_cluster_colors`, 424-432. -/
def clusterColors {C : Type} (custom : List C) (K : ℕ) : List (Color C) :=
  if custom.length = 0 then rainbow K
  else if custom.length < K then custom.map .given ++ rainbow (K - custom.length)
  else custom.map .given

/-- A text of the legend: the title, or `Z_i` with the log-likelihood, if there is one. -/
inductive LegendText
  | title
  | cluster (i : ℕ) (lh : Option ℤ)
  deriving DecidableEq

/-- A label on the map: position, number, colour. -/
structure Label (C : Type) where
  at_ : Loc
  number : ℕ
  color : Color C

/-- What the map shows. -/
structure Picture (C : Type) (N : ℕ) where
  extent : Extent
  points : List Loc
  clusterPoints : List (Fin N × Color C)
  lines : List (Line N × Color C)
  labels : List (Label C)
  legend : Option (List (LegendText × Option (Color C)))
  table : Option (List (Entry (Color C)))

/-- The colour of the label of object `i`, plot.py:443-452, after the clusters `j`, ... have been looked at. -/
def labelColor {C : Type} (density : Bool) (i : ℕ) : List (List ℕ × Color C) → Color C × Bool → Color C × Bool
  | [], r => r
  | (lab, c) :: rest, r => labelColor density i rest (if i ∈ lab then (if density then r.1 else c, true) else r)

/-- `add_labels`, plot.py:434-458. -/
noncomputable def addLabels {C : Type} {N : ℕ} (cfg : Cfg C) (loc : Fin N → Loc) (labels : List (List ℕ)) (colors : List (Color C))
    (e : Extent) : List (Label C) :=
  (List.finRange N).filterMap fun i : Fin N =>
    let r := labelColor cfg.density i (labels.zip colors) (.black, false)
    if cfg.labels = .inCluster ∧ r.2 = false then none
    else some ⟨((loc i).1 + (e.xMax - e.xMin) / 200, (loc i).2 + (e.yMax - e.yMin) / 200), i + 1, r.1⟩

/-- The texts of the legend, plot.py:470-480 (`cluster_labels_legend`; with log-likelihoods: 706-721). -/
noncomputable def legendTexts (withLh : Bool) (lh : List (List ℝ)) (K : ℕ) : List LegendText :=
  if withLh then .title :: (legendEntries lh).zipIdx.map fun x => .cluster (x.2 + 1) (some x.1)
  else (List.range K).map fun i => .cluster (i + 1) none

/-- The table of names, plot.py:922-940 with `add_correspondence_table`: if it is asked for, languages are labelled, and there is at least
one label. On density maps it has all objects. -/
def mapTable {C : Type} {N : ℕ} (cfg : Cfg C) (names : Fin N → List Char) (clusterLabels : List (List ℕ)) (colors : List (Color C)) :
    Option (Option (List (Entry (Color C)))) :=
  let tableLabels := if cfg.density then [List.range N] else clusterLabels
  if cfg.tableAdd && cfg.languageLabel && tableLabels.any (fun l => !l.isEmpty) then
    (tableEntries ((List.finRange N).map fun i : Fin N => ((i : ℕ), names i)) tableLabels colors .black cfg.showAll).map some
  else some none

/-- `posterior_map`, plot.py:866-950, with `visualize_clusters`, 467-541. `clusters k` are the samples of cluster `k`, `lh` the
log-likelihoods of the single clusters. -/
noncomputable def posteriorMap {C : Type} {N K : ℕ} (cfg : Cfg C) (qhull : List Loc → ℕ → ℕ → Bool) (names : Fin N → List Char)
    (loc : Fin N → Loc) (clusters : Fin K → List (Fin N → Bool)) (lh : List (List ℝ)) : Option (Picture C N) := do
  let e ← getExtent cfg ((List.finRange N).map loc)
  let colors := clusterColors cfg.colors K
  let graphs ← (List.finRange K).mapM fun k => clustersToGraph qhull (clusters k) loc cfg.burnIn cfg.density cfg.minFreq
  let drawn := graphs.zip colors
  let clusterLabels : List (List ℕ) :=
    if cfg.languageLabel then graphs.map fun g => ((List.finRange N).filter g.1).map Fin.val else []
  let texts := legendTexts (cfg.legendAdd && cfg.legendLh) lh K
  let handles : List (Option (Color C)) := (if cfg.legendAdd && cfg.legendLh then [none] else []) ++ (drawn.map fun d => some d.2)
  let table ← mapTable cfg names clusterLabels colors
  some
    { extent := e
      points := (List.finRange N).map loc
      clusterPoints := if cfg.density then [] else
        drawn.flatMap fun d => ((List.finRange N).filter d.1.1).map fun i => (i, d.2)
      lines := drawn.flatMap fun d => d.1.2.map fun l => (l, d.2)
      labels := if cfg.labels = .off then [] else addLabels cfg loc clusterLabels colors e
      legend := if cfg.legendAdd then some (texts.zip handles) else none
      table := table }

end SBayes.WholeMap
