import Verif.Model.PlotConfig
import Verif.Spec.Config
/-
Specification for the settings of plots (C113).
-/
namespace SBayes.PlotConfig
open SBayes.Log (lit)

/-- The same value, with tuples of the same items in the place of lists. -/
def Same (a b : Atom) : Prop := (∀ l, a ≠ .list l) ∧ b = a ∨ ∃ l, a = .list l ∧ b = .tuple l

/-- A path relative to a directory: absolute paths stay as they are, the empty path is the directory. -/
def resolved (dir p : Str) : Str := if p.head? = some '/' then p else if p = [] then dir else dir ++ '/' :: p

/-- Where the projection of the map is set. -/
def pProj : List Str := [lit "map", lit "geo", lit "map_projection"]

/-- Where the projection of the data is set. -/
def pData : List Str := [lit "data", lit "projection"]

/-- Where the type of the map is set. -/
def pType : List Str := [lit "map", lit "content", lit "type"]

/-- Where coloured labels are set. -/
def pLab : List Str := [lit "map", lit "legend", lit "correspondence", lit "color_labels"]

/-- Where the directory for plots, and the input files, are set. -/
def pOut : List Str := [lit "results", lit "path_out"]
def pFeatures : List Str := [lit "data", lit "features"]
def pStates : List Str := [lit "data", lit "feature_states"]
def pClusters : List Str := [lit "results", lit "path_in", lit "clusters"]
def pStats : List Str := [lit "results", lit "path_in", lit "stats"]

end SBayes.PlotConfig
