import Verif.Model.Config
import Verif.Model.Simulation
/-
Model of the configuration of a simulation: `Simulation.load_config_simulation` and `verify_config` (sbayes/simulation.py:81-114) with
the defaults in sbayes/config/default_config_simulation.json, the paths of the written files (simulation.py:178-179, 191-193), and
`simulate_assignment_probabilities` as far as it reads `n_states` (sbayes/preprocessing.py:333-345).

JSON numbers are rational numbers, so `int(n_features * v)` is exact, while Python rounds `v` and the product to floats.
-/
namespace SBayes.SimConfig
open SBayes.Config

/-- Strings. -/
abbrev Str := SBayes.Log.Str

/-- Values in the JSON file that are not dictionaries; `other`: lists, booleans, null. -/
inductive Atom
  | str (s : Str)
  | num (q : ℚ)
  | other (i : ℕ)
  deriving DecidableEq

abbrev Raw := Dict Str Atom

/-- `REQUIRED`, simulation.py:38. -/
def required : Atom := .str (SBayes.Log.lit "<REQUIRED>")

/-- The default for `n_states`, default_config_simulation.json:7-11. -/
def defaultStates : Raw :=
  .cons (SBayes.Log.lit "2") (.atom (.num (2 / 5))) (.cons (SBayes.Log.lit "3") (.atom (.num (3 / 10)))
    (.cons (SBayes.Log.lit "4") (.atom (.num (3 / 10))) .nil))

/-- `DEFAULT_CONFIG_SIMULATION`, simulation.py:39 and default_config_simulation.json:1-14. -/
def defaults : Raw :=
  .cons (SBayes.Log.lit "canvas") (.atom required)
    (.cons (SBayes.Log.lit "results") (.dict (.cons (SBayes.Log.lit "path") (.atom (.str [])) .nil))
    (.cons (SBayes.Log.lit "n_features") (.atom (.num 20))
    (.cons (SBayes.Log.lit "n_states") (.dict defaultStates)
    (.cons (SBayes.Log.lit "cluster_effect") (.atom required)
    (.cons (SBayes.Log.lit "confounding_effects") (.atom required) .nil)))))

/-- `fix_relative_path`, util.py:1169-1183: `Path("")` is the current directory, so that `base / ""` is `base`. Other normalisations by
`pathlib` are left out. -/
def fixRelativePath (base p : Str) : Str :=
  if p.head? = some '/' then p else if p = [] then base else base ++ '/' :: p

/-- What is known after `load_config_simulation`: the configuration and the directory for the results. -/
structure Loaded where
  config : Raw
  pathResults : Str

/-- `load_config_simulation` after the file has been read, simulation.py:88-104, with `verify_config`, 106-114. `none`: an exception (a
required value is missing; `config['results']` or `config['canvas']` is no dictionary or path). -/
def loadConfigSimulation (base : Str) (user : Raw) : Option Loaded :=
  let config := setDefaults user defaults
  if (iterItems [] config).any (fun i => decide (i.2.1 = required)) then none
  else match config.get (SBayes.Log.lit "canvas") with
  | some (.atom (.str canvas)) =>
    let config := config.set (SBayes.Log.lit "canvas") (.atom (.str (fixRelativePath base canvas)))
    match config.get (SBayes.Log.lit "results") with
    | some (.dict results) => match results.get (SBayes.Log.lit "path") with
      | some (.atom (.str path)) => some { config := config, pathResults := fixRelativePath base path }
      | _ => none
    | _ => none
  | _ => none

/-- Where `write_to_csv` writes a file, simulation.py:178-179, 191-193: `config['results']['path'] + '/' + name`, relative to the directory of the
configuration file. -/
def writtenFile (base path name : Str) : Str := fixRelativePath base (path ++ '/' :: name)

/-- `int(k)` for a key of `n_states` in plain digits, preprocessing.py:334-335. -/
def readNat (k : Str) : Option ℕ :=
  if k ≠ [] ∧ k.all Char.isDigit then some (k.foldl (fun a ch => 10 * a + (ch.toNat - 48)) 0) else none

/-- The shares of features, preprocessing.py:333-335: for each item of `n_states` the number of states and `int(n_features * v)`. -/
def shares (nFeatures : ℕ) : Raw → Option (List (ℕ × ℕ))
  | .nil => some []
  | .cons k (.atom (.num v)) rest => do
    let s ← readNat k
    let l ← shares nFeatures rest
    some ((s, ⌊nFeatures * v⌋.toNat) :: l)
  | .cons _ _ _ => none

/-- `n_states_per_feature` before the shuffle, preprocessing.py:333-341, from the loaded configuration. -/
def statesPerFeature (config : Raw) (draws : ℕ → ℕ) : Option (List ℕ) :=
  match config.get (SBayes.Log.lit "n_features"), config.get (SBayes.Log.lit "n_states") with
  | some (.atom (.num n)), some (.dict d) =>
    if n.isInt ∧ 0 ≤ n then do
      let l ← shares n.num.toNat d
      SBayes.Sim.nStatesPerFeature n.num.toNat l draws
    else none
  | _, _ => none

end SBayes.SimConfig
