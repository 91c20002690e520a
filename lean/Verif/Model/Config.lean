import Verif.Model.Log
/-
Model of configuration and command line: sbayes/util.py (set_defaults 1240-1263, update_recursive 1266-1284,
iter_items_recursive 1287-1304, fix_relative_path 1169-1183), sbayes/config/config.py (SBayesConfig.from_config_file
384-407, SBayesConfig.validate_operators 376-381), sbayes/cli.py (runner 44-53, main 56-88), sbayes/mcmc_setup.py
(get_sample_loggers 102-120).

A configuration is a nested dictionary with keys `κ` and atomic values `α` (everything that is not a dict). Dictionaries
are values here: `cfg[key] = default_cfg[key]` shares the default's sub-dictionary in Python, so a later change of `cfg`
would change the default as well; that sharing is not modelled.
-/
namespace SBayes.Config

mutual
/-- A value in a configuration: a dictionary or anything else. -/
inductive Val (κ α : Type)
  | atom (a : α)
  | dict (d : Dict κ α)
/-- The items of a dictionary, in insertion order. -/
inductive Dict (κ α : Type)
  | nil
  | cons (k : κ) (v : Val κ α) (rest : Dict κ α)
end

variable {κ α : Type} [DecidableEq κ]

/-- `cfg.get(key)`. -/
def Dict.get : Dict κ α → κ → Option (Val κ α)
  | .nil, _ => none
  | .cons k v rest, x => if x = k then some v else rest.get x

/-- `cfg[key] = value`: in place if the key exists, else at the end. -/
def Dict.set : Dict κ α → κ → Val κ α → Dict κ α
  | .nil, x, w => .cons x w .nil
  | .cons k v rest, x, w => if x = k then .cons k w rest else .cons k v (rest.set x w)

mutual
/-- What `set_defaults` does with a key that exists in both, util.py:1256-1261. -/
def keepVal (old : Val κ α) : Val κ α → Val κ α
  | .atom _ => old
  | .dict b => match old with
    | .atom a => .atom a
    | .dict a => .dict (setDefaults a b)
/-- `set_defaults(cfg, default_cfg)`, util.py:1240-1263. -/
def setDefaults (cfg : Dict κ α) : Dict κ α → Dict κ α
  | .nil => cfg
  | .cons k v rest =>
    setDefaults (match cfg.get k with
      | none => cfg.set k v
      | some old => cfg.set k (keepVal old v)) rest
end

mutual
/-- What `update_recursive` stores under a key, util.py:1277-1282. -/
def newVal (old : Option (Val κ α)) : Val κ α → Val κ α
  | .atom a => .atom a
  | .dict b => match old with
    | some (.dict a) => .dict (updateRecursive a b)
    | _ => .dict b
/-- `update_recursive(cfg, new_cfg)`, util.py:1266-1284. -/
def updateRecursive (cfg : Dict κ α) : Dict κ α → Dict κ α
  | .nil => cfg
  | .cons k v rest => updateRecursive (cfg.set k (newVal (cfg.get k) v)) rest
end

mutual
def iterVal (k : κ) (loc : List κ) : Val κ α → List (κ × α × List κ)
  | .atom a => [(k, a, loc)]
  | .dict d => iterItems (loc ++ [k]) d
/-- `iter_items_recursive(cfg, loc)`, util.py:1287-1304. -/
def iterItems (loc : List κ) : Dict κ α → List (κ × α × List κ)
  | .nil => []
  | .cons k v rest => iterVal k loc v ++ iterItems loc rest
end

/-! ### The command line -/

abbrev Str := SBayes.Log.Str

/-- Atomic values in the settings of the command line: numbers of clusters and of runs, and whatever else. -/
inductive Atom
  | int (n : ℕ)
  | other (s : Str)
deriving DecidableEq

abbrev Cfg := Dict Str Atom

/-- `run_configurations`, cli.py:71-80: `product(i_run_range, n_clusters_range, ...)` as pairs (run, clusters). -/
def runConfigurations (runs : ℕ) (clusters : List ℕ) : List (ℕ × ℕ) :=
  (List.range runs).flatMap (fun r => clusters.map (fun k => (r, k)))

/-- `custom_settings` of `runner`, cli.py:51: note that the settings given to `main` are not passed on. -/
def runnerSettings (k : ℕ) : Cfg :=
  .cons (SBayes.Log.lit "model") (.dict (.cons (SBayes.Log.lit "clusters") (.atom (.int k)) .nil))
    (.cons (SBayes.Log.lit "mcmc") (.dict (.cons (SBayes.Log.lit "runs") (.atom (.int 1)) .nil)) .nil)

/-- The configuration of one run: `from_config_file(path, custom_settings)`, config.py:384-407, before validation. -/
def runConfig (file : Cfg) (k : ℕ) : Cfg := updateRecursive file (runnerSettings k)

/-- What the range of runs is taken from: `main(config, custom_settings=...)`, cli.py:63-72. -/
def mainConfig (file : Cfg) (custom : Option Cfg) : Cfg :=
  match custom with
  | none => file
  | some c => updateRecursive file c

/-- The kinds of result files. -/
inductive Kind | stats | clusters | likelihood | operatorStats
deriving DecidableEq

/-- Path of a result file below the results directory, mcmc_setup.py:103-109. -/
def resultFile (kind : Kind) (k run : ℕ) : Str :=
  let base := SBayes.Log.lit "K" ++ SBayes.Log.num k ++ SBayes.Log.lit "/"
  match kind with
  | .stats => base ++ SBayes.Log.lit "stats_K" ++ SBayes.Log.num k ++ SBayes.Log.lit "_" ++ SBayes.Log.num run ++ SBayes.Log.lit ".txt"
  | .clusters => base ++ SBayes.Log.lit "clusters_K" ++ SBayes.Log.num k ++ SBayes.Log.lit "_" ++ SBayes.Log.num run ++ SBayes.Log.lit ".txt"
  | .likelihood => base ++ SBayes.Log.lit "likelihood_K" ++ SBayes.Log.num k ++ SBayes.Log.lit "_" ++ SBayes.Log.num run ++ SBayes.Log.lit ".h5"
  | .operatorStats => base ++ SBayes.Log.lit "operator_stats_K" ++ SBayes.Log.num k ++ SBayes.Log.lit "_" ++ SBayes.Log.num run ++ SBayes.Log.lit ".txt"

end SBayes.Config
