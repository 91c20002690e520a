import Verif.Model.Config
import Verif.Model.Postproc
import Mathlib.Data.List.Sort
import Mathlib.Order.Lattice
/-
Model of the main function of the plots, sbayes/plot.py: which plots are made (`main` 1800-1847, `plot_map` 1850-1866, `load_config`
102-136 as far as it adds the defaults), which files are combined (`iterate_over_models` 227-240), and the DIC plot (`plot_dic`
1422-1489). What is drawn in the other plots is not part of this file. A plot function is assumed to end without an exception.
-/
namespace SBayes.PlotMain
open SBayes.Config (Dict Val setDefaults)
open SBayes.Log (lit)

abbrev Str := SBayes.Log.Str

/-- `PlotType`, plot.py:1787-1797. -/
inductive PlotType
  | map | weights | preference | pie | feature | dic
  deriving DecidableEq

/-- The values of `PlotType`, plot.py:1788-1793. -/
def PlotType.value : PlotType → Str
  | .map => lit "map"
  | .weights => lit "weights_plot"
  | .preference => lit "preference_plot"
  | .pie => lit "pie_plot"
  | .feature => lit "feature_plot"
  | .dic => lit "dic_plot"

/-- `list(PlotType)`. -/
def PlotType.all : List PlotType := [.map, .weights, .preference, .pie, .feature, .dic]

/-- An element of the list `plot_types`: a member of the enumeration, or anything else, e.g. a text. A text is not equal to
a member of an `Enum`, also if it is its value. -/
inductive Request
  | member (t : PlotType)
  | text (s : Str)
  deriving DecidableEq

/-- The part of the configuration in which a plot function looks up its settings: plot.py:873-877, 1257, 1324, 1367, 1429, 1693. -/
def settingsKey : PlotType → Str
  | .map => lit "map"
  | .weights => lit "weight_plot"
  | .preference => lit "preference_plot"
  | .pie => lit "pie_plot"
  | .feature => lit "feature_plot"
  | .dic => lit "dic_plot"

/-- The keys of config/default_config_plot.json. -/
def defaultKeys : List Str :=
  [lit "results", lit "data", lit "map", lit "weight_plot", lit "preference_plot", lit "feature_plot", lit "dic_plot", lit "pie_plot"]

/-- A plot that is made: its type and the model, or all models (the DIC plot). -/
abbrev Plotted := PlotType × Option Str

section
variable {α : Type}

/-- `should_be_plotted`, plot.py:1812-1816. -/
def shouldBePlotted (cfg : Dict Str α) (types : List Request) (t : PlotType) : Bool :=
  (cfg.get t.value).isSome && types.contains (.member t)

/-- The plots of one model, plot.py:1818-1843; whether there was no exception. `args` are the arguments of the command line (`none` if
`main` is called without), in them the feature name, if given. -/
def plotModel (cfg : Dict Str α) (types : List Request) (args : Option (Option Str)) (m : Str) : List Plotted × Bool :=
  let made := ([.map, .weights, .preference, .pie].filter (shouldBePlotted cfg types)).map fun t => (t, some m)
  if shouldBePlotted cfg types .feature then
    match args with
    | none => (made, false)
    | some none => (made, true)
    | some (some _) => (made ++ [(.feature, some m)], true)
  else (made, true)

/-- The loop over the models, plot.py:1818. -/
def plotModels (cfg : Dict Str α) (types : List Request) (args : Option (Option Str)) : List Str → List Plotted × Bool
  | [] => ([], true)
  | m :: ms =>
    let r := plotModel cfg types args m
    if r.2 then (r.1 ++ (plotModels cfg types args ms).1, (plotModels cfg types args ms).2) else r

/-- `main`, plot.py:1800-1847, for the configuration file `user` and the defaults `defaults`. -/
def main (user defaults : Dict Str α) (plotTypes : Option (List Request)) (args : Option (Option Str)) (models : List Str) :
    List Plotted × Bool :=
  let types := plotTypes.getD (PlotType.all.map .member)
  let cfg := setDefaults user defaults
  let r := plotModels cfg types args models
  if r.2 then (r.1 ++ (if shouldBePlotted cfg types .dic then [(.dic, none)] else []), true) else r

/-- The settings that a plot uses. -/
def settings (user defaults : Dict Str α) (t : PlotType) : Option (Val Str α) := (setDefaults user defaults).get (settingsKey t)
end

/-- The value of the setting `min_posterior_frequency`: a number, several numbers (a list in the file, a tuple after `convert_config`,
plot.py:139-145), or (not from a file) one of the types `tuple`, `list`, `set`. -/
inductive Threshold
  | num (x : ℝ)
  | many (xs : List ℝ)
  | typeObject

/-- `plot_map`, plot.py:1850-1866: the thresholds of the maps that are drawn (`none`: a density map, without threshold). The test in
line 1859 asks whether the *value* is one of the types `tuple`, `list` and `set`; iterating over a type raises. An unknown type of
map raises. -/
def plotMap (mapType : Str) (t : Threshold) : Option (List (Option Threshold)) :=
  if mapType = lit "density_map" then some [none]
  else if mapType = lit "consensus_map" then
    match t with
    | .typeObject => none
    | t => some [some t]
  else none

/-! ### Which files are combined -/

/-- A path: its parts. Paths are compared by their parts. -/
abbrev Path := List Str

/-- `path.stem`: the last part without its last suffix (a name that starts with a dot has none). -/
def stem (p : Path) : Str :=
  let name := p.getLastD []
  match name.reverse.span (· ≠ '.') with
  | (_, []) => name
  | (_, _ :: r) => if r = [] ∨ name.getLast? = some '.' then name else r.reverse

/-- The name of a model, plot.py:230: `_, _, model_name = stem.partition('_')`. -/
def modelName (p : Path) : Str := ((stem p).dropWhile (· ≠ '_')).drop 1

/-- `sorted` of paths. -/
def sortPaths (ps : List Path) : List Path := ps.insertionSort (· ≤ ·)

/-- The files that are loaded together, plot.py:228-229. -/
def filePairs (clusters stats : List Path) : List (Path × Path) := (sortPaths clusters).zip (sortPaths stats)

/-- `self.results[model_name] = results`. -/
def insertResult {ρ : Type} (d : List (Str × ρ)) (m : Str) (r : ρ) : List (Str × ρ) :=
  if d.any (fun e => e.1 == m) then d.map (fun e => if e.1 = m then (m, r) else e) else d ++ [(m, r)]

/-- `iterate_over_models`, plot.py:227-240: the models in turn, and the dictionary `self.results` at the end. -/
def iterateOverModels {ρ : Type} (load : Path → Path → ρ) (clusters stats : List Path) : List (Str × ρ) × List (Str × ρ) :=
  let models := (filePairs clusters stats).map fun x => (modelName x.1, load x.1 x.2)
  (models, models.foldl (fun d x => insertResult d x.1 x.2) [])

/-! ### The DIC plot -/

/-- `available_models[i-1]`: a negative index counts from the end. -/
def pyIndex {β : Type} (l : List β) (i : ℤ) : Option β :=
  if 0 ≤ i then l[i.toNat]? else if -i ≤ l.length then l[(l.length + i).toNat]? else none

/-- `plot_dic`, plot.py:1436-1453: the models and their values, from the log-likelihoods of the models. -/
noncomputable def plotDic (results : List (Str × List ℝ)) (chosen : List ℤ) (burnIn : ℝ) : Option (List (Str × ℝ)) := do
  let x ← if chosen = [] then some (results.map Prod.fst) else chosen.mapM fun i => pyIndex (results.map Prod.fst) (i - 1)
  x.mapM fun m => do
    let lh ← (results.find? fun e => e.1 == m).map Prod.snd
    let y ← SBayes.Post.computeDic lh burnIn
    pure (m, y)

end SBayes.PlotMain
