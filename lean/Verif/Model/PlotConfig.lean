import Verif.Model.Config
import Verif.Model.SimConfig
/-
Model of the settings for plots: `Plot.load_config`, `convert_config` and `verify_config` (sbayes/plot.py:102-148), with the defaults in
sbayes/config/default_config_plot.json.

The file has been read: JSON numbers are rational numbers here, lists have plain values as items. The directory for the plots is created if
it does not exist (plot.py:135-136): left out.
-/
namespace SBayes.PlotConfig
open SBayes.Config (Val Dict setDefaults)
open SBayes.Log (lit)

/-- Strings. -/
abbrev Str := SBayes.Log.Str

/-- Values in the JSON file that are not dictionaries; a `tuple` is a list after `convert_config`. -/
inductive Atom
  | str (s : Str)
  | num (q : ℚ)
  | bool (b : Bool)
  | null
  | list (l : List Atom)
  | tuple (l : List Atom)

abbrev Raw := Dict Str Atom

/-- A dictionary literal. -/
def toDict : List (Str × Val Str Atom) → Raw
  | [] => .nil
  | (k, v) :: r => .cons k v (toDict r)

/-- A dictionary literal as a value. -/
def sub (l : List (Str × Val Str Atom)) : Val Str Atom := .dict (toDict l)

/-- A plain value. -/
def one (a : Atom) : Val Str Atom := .atom a

/-- default_config_plot.json:2-8. -/
def defaultResults : Val Str Atom :=
  sub [(lit "path_in", sub [(lit "clusters", one (.str (lit "<REQUIRED>"))), (lit "stats", one (.str (lit "<REQUIRED>")))]), (lit
    "path_out", one (.str (lit "./plots")))]

/-- default_config_plot.json:9-13. -/
def defaultData : Val Str Atom :=
  sub [(lit "features", one (.str (lit "<REQUIRED>"))), (lit "feature_states", one (.str (lit "<REQUIRED>"))), (lit "projection",
    one (.str (lit "EPSG:4326")))]

/-- default_config_plot.json, `map.content`. -/
def defaultMapContent : Val Str Atom :=
  sub [(lit "type", one (.str (lit "consensus_map"))), (lit "min_posterior_frequency", one (.num (1 / 2))), (lit "labels", one
    (.str (lit "in_cluster"))), (lit "plot_families", one (.bool true)), (lit "burn_in", one (.num (1 / 5)))]

/-- default_config_plot.json, `map.geo`. -/
def defaultMapGeo : Val Str Atom :=
  sub [(lit "map_projection", one (.str (lit "epsg:4326"))), (lit "base_map", sub [(lit "add", one (.bool true)), (lit
    "geojson_polygon", one (.str (lit "<DEFAULT>"))), (lit "geojson_line", one (.str (lit "<DEFAULT>")))]), (lit "extent", sub
    [(lit "x", one (.list [])), (lit "y", one (.list []))])]

/-- default_config_plot.json, `map.graphic`. -/
def defaultMapGraphic : Val Str Atom :=
  sub [(lit "languages", sub [(lit "size", one (.num 15)), (lit "color", one (.str (lit "grey"))), (lit "label", one (.bool
    true))]), (lit "clusters", sub [(lit "size", one (.num 20)), (lit "color", one (.list [])), (lit "width", one (.num 2)), (lit
    "alpha", one (.num 1))]), (lit "families", sub [(lit "size", one (.num 200)), (lit "color", one (.list [])), (lit "buffer",
    one (.num (3 / 10))), (lit "shape", one (.num 1))]), (lit "base_map", sub [(lit "polygon", sub [(lit "color", one (.str (lit
    "white"))), (lit "outline_color", one (.str (lit "grey"))), (lit "outline_width", one (.num (1 / 2)))]), (lit "line", sub
    [(lit "color", one (.str (lit "skyblue"))), (lit "width", one (.num 1))])])]

/-- default_config_plot.json, `map.legend`. -/
def defaultMapLegend : Val Str Atom :=
  sub [(lit "clusters", sub [(lit "add", one (.bool true)), (lit "position", one (.list [.num (1 / 100), .num (3 / 10)])), (lit
    "log-likelihood", one (.bool false))]), (lit "lines", sub [(lit "add", one (.bool false)), (lit "position", one (.list [.num
    (2 / 5), .num (1 / 5)])), (lit "reference_frequency", one (.list [.num (1 / 5), .num (3 / 5), .num (4 / 5)]))]), (lit
    "families", sub [(lit "add", one (.bool false)), (lit "position", one (.list [.num (1 / 50), .num (49 / 50)]))]), (lit
    "correspondence", sub [(lit "add", one (.bool false)), (lit "font_size", one (.num 12)), (lit "table_height", one (.num (1 /
    5))), (lit "n_columns", one (.num 4)), (lit "color_labels", one (.bool false)), (lit "show_all", one (.bool false))]), (lit
    "overview", sub [(lit "add", one (.bool false)), (lit "position", one (.list [.num (31 / 50), .num (3 / 5)])), (lit "width",
    one (.num 4)), (lit "height", one (.num 4)), (lit "extent", sub [(lit "x", one (.list [])), (lit "y", one (.list []))])])]

/-- default_config_plot.json, `map.output`. -/
def defaultMapOutput : Val Str Atom :=
  sub [(lit "width", one (.num 30)), (lit "height", one (.num 15)), (lit "format", one (.str (lit "pdf"))), (lit "resolution", one
    (.num 400))]

/-- default_config_plot.json:14-120. -/
def defaultMap : Val Str Atom :=
  sub [(lit "content", defaultMapContent), (lit "geo", defaultMapGeo), (lit "graphic", defaultMapGraphic), (lit "legend",
    defaultMapLegend), (lit "output", defaultMapOutput)]

/-- default_config_plot.json:121-152. -/
def defaultWeightPlot : Val Str Atom :=
  sub [(lit "content", sub [(lit "features", one (.list [])), (lit "burn_in", one (.num (1 / 5)))]), (lit "legend", sub [(lit
    "labels", sub [(lit "add", one (.bool true)), (lit "names", one (.list [.str (lit "C"), .str (lit "U"), .str (lit "I")])),
    (lit "font_size", one (.num 6))]), (lit "title", sub [(lit "add", one (.bool true)), (lit "font_size", one (.num 6)), (lit
    "position", one (.list [.num 0, .num 1]))])]), (lit "output", sub [(lit "width_subplot", one (.num 2)), (lit "height_subplot",
    one (.num 2)), (lit "format", one (.str (lit "pdf"))), (lit "resolution", one (.num 300)), (lit "n_columns", one (.num 5))])]

/-- default_config_plot.json:153-180. -/
def defaultPreferencePlot : Val Str Atom :=
  sub [(lit "content", sub [(lit "features", one (.list [])), (lit "preference", one (.list [])), (lit "burn_in", one (.num (1 /
    5)))]), (lit "legend", sub [(lit "labels", sub [(lit "add", one (.bool true)), (lit "font_size", one (.num 6))]), (lit
    "title", sub [(lit "add", one (.bool true)), (lit "font_size", one (.num 6)), (lit "position", one (.list [.num 0, .num
    1]))])]), (lit "output", sub [(lit "width_subplot", one (.num 3)), (lit "height_subplot", one (.num 3)), (lit "format", one
    (.str (lit "pdf"))), (lit "resolution", one (.num 300)), (lit "n_columns", one (.num 5))])]

/-- default_config_plot.json:181-208. -/
def defaultFeaturePlot : Val Str Atom :=
  sub [(lit "legend", sub [(lit "labels", sub [(lit "add", one (.bool true)), (lit "font_size", one (.num 8)), (lit "names", one
    (.list [.str (lit "contact"), .str (lit "universal"), .str (lit "inheritance")]))]), (lit "title", sub [(lit "add", one (.bool
    true)), (lit "font_size", one (.num 6)), (lit "position", one (.list [.num 0, .num 1]))])]), (lit "output", sub [(lit
    "width_subplot", one (.num 3)), (lit "height_subplot", one (.num 3)), (lit "format", one (.str (lit "pdf"))), (lit
    "resolution", one (.num 300)), (lit "n_columns", one (.num 5))])]

/-- default_config_plot.json:209-224. -/
def defaultDicPlot : Val Str Atom :=
  sub [(lit "content", sub [(lit "model", one (.list [])), (lit "burn_in", one (.num (1 / 5)))]), (lit "graphic", sub [(lit
    "labels", one (.list [])), (lit "line_plot", one (.bool true))]), (lit "output", sub [(lit "width", one (.num 9)), (lit
    "height", one (.num 6)), (lit "format", one (.str (lit "pdf"))), (lit "resolution", one (.num 300))])]

/-- default_config_plot.json:225-238. -/
def defaultPiePlot : Val Str Atom :=
  sub [(lit "content", sub [(lit "burn_in", one (.num (1 / 5)))]), (lit "output", sub [(lit "width", one (.num 5)), (lit "height",
    one (.num 2)), (lit "n_columns", one (.num 4)), (lit "spacing_horizontal", one (.num (1 / 10))), (lit "spacing_vertical", one
    (.num (1 / 10))), (lit "format", one (.str (lit "pdf"))), (lit "resolution", one (.num 300))])]

/-- `DEFAULT_CONFIG`, plot.py:53 and default_config_plot.json. -/
def defaults : Raw :=
  toDict [(lit "results", defaultResults), (lit "data", defaultData), (lit "map", defaultMap), (lit "weight_plot",
    defaultWeightPlot), (lit "preference_plot", defaultPreferencePlot), (lit "feature_plot", defaultFeaturePlot), (lit "dic_plot",
    defaultDicPlot), (lit "pie_plot", defaultPiePlot)]

/-- `tuple(v)` if `v` is a list, plot.py:144-145. The items are left as they are. -/
def Atom.convert : Atom → Atom
  | .list l => .tuple l
  | a => a

mutual
/-- The new value of a key, plot.py:141-145. -/
def convertVal : Val Str Atom → Val Str Atom
  | .atom a => .atom a.convert
  | .dict d => .dict (convertConfig d)
/-- `convert_config`, plot.py:138-145. -/
def convertConfig : Raw → Raw
  | .nil => .nil
  | .cons k v rest => .cons k (convertVal v) (convertConfig rest)
end

/-- `config[k1][k2]...`; `none`: a `KeyError`, or a `TypeError` if there is no dictionary. -/
def lookup : Val Str Atom → List Str → Option (Val Str Atom)
  | v, [] => some v
  | .atom _, _ :: _ => none
  | .dict d, k :: p => match d.get k with
    | some v => lookup v p
    | none => none

/-- `config[k1]...[kn] = w`; `none` as for `lookup` of all keys but the last. -/
def assign : Val Str Atom → List Str → Val Str Atom → Option (Val Str Atom)
  | _, [], w => some w
  | .atom _, _ :: _, _ => none
  | .dict d, [k], w => some (.dict (d.set k w))
  | .dict d, k :: k' :: p, w => match d.get k with
    | some v => match assign v (k' :: p) w with
      | some v' => some (.dict (d.set k v'))
      | none => none
    | none => none

/-- `not v`, plot.py:119. -/
def falsy : Val Str Atom → Bool
  | .atom (.str s) => s.isEmpty
  | .atom (.num q) => q == 0
  | .atom (.bool b) => !b
  | .atom .null => true
  | .atom (.list l) => l.isEmpty
  | .atom (.tuple l) => l.isEmpty
  | .dict .nil => true
  | .dict (.cons _ _ _) => false

/-- `v == 'density_map'`, plot.py:122. -/
def isDensityMap : Val Str Atom → Bool
  | .atom (.str s) => s == lit "density_map"
  | _ => false

/-- `fix_relative_path`, util.py:1169-1183; `Path(v)` raises unless `v` is a text. -/
def fixPath (base : Str) : Val Str Atom → Option Str
  | .atom (.str s) => some (SBayes.SimConfig.fixRelativePath base s)
  | _ => none

/-- The keys of a dictionary. -/
def keys : Raw → List Str
  | .nil => []
  | .cons k _ rest => k :: keys rest

/-- `for i in v`, plot.py:132-133: the items of a list, the characters of a text, the keys of a dictionary. -/
def items : Val Str Atom → Option (List (Val Str Atom))
  | .atom (.str s) => some (s.map fun c => .atom (.str [c]))
  | .atom (.list l) => some (l.map .atom)
  | .atom (.tuple l) => some (l.map .atom)
  | .dict d => some ((keys d).map fun k => .atom (.str k))
  | _ => none

/-- `[fix_relative_path(i, self.base_directory) for i in v]`, plot.py:132-133. -/
def fixPaths (base : Str) (v : Val Str Atom) : Option (List Str) := (items v).bind fun l => l.mapM (fixPath base)

/-- What is known after `load_config`. -/
structure Loaded where
  config : Val Str Atom
  pathPlots : Str
  pathFeatures : Str
  pathFeatureStates : Str
  clusterPaths : List Str
  statsPaths : List Str

/-- Lines 119-120: the projection of the map. -/
def setProjection (config : Val Str Atom) : Option (Val Str Atom) := do
  let p ← lookup config [lit "map", lit "geo", lit "map_projection"]
  if falsy p then
    let q ← lookup config [lit "data", lit "projection"]
    assign config [lit "map", lit "geo", lit "map_projection"] q
  else some config

/-- Lines 122-123: no coloured labels on density maps. -/
def setLabels (config : Val Str Atom) : Option (Val Str Atom) := do
  let t ← lookup config [lit "map", lit "content", lit "type"]
  if isDensityMap t then
    assign config [lit "map", lit "legend", lit "correspondence", lit "color_labels"] (.atom (.bool false))
  else some config

/-- `load_config` after the file has been read, plot.py:110-133 (`verify_config` does nothing, 147-148). `none`: an exception. -/
def loadConfig (base : Str) (user : Raw) : Option Loaded := do
  let config := Val.dict (convertConfig (setDefaults user defaults))
  let config ← setProjection config
  let config ← setLabels config
  let pathPlots ← fixPath base (← lookup config [lit "results", lit "path_out"])
  let pathFeatures ← fixPath base (← lookup config [lit "data", lit "features"])
  let pathFeatureStates ← fixPath base (← lookup config [lit "data", lit "feature_states"])
  let clusterPaths ← fixPaths base (← lookup config [lit "results", lit "path_in", lit "clusters"])
  let statsPaths ← fixPaths base (← lookup config [lit "results", lit "path_in", lit "stats"])
  some ⟨config, pathPlots, pathFeatures, pathFeatureStates, clusterPaths, statsPaths⟩

end SBayes.PlotConfig
