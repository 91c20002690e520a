import Verif.Model.Results
/- Writing the result files of a run and reading them back. -/
namespace SBayes.Log

/-- The samples of a run, one after the other, are given to the loggers, which are then closed (mcmc.py:295-300, 307-309, 388-396);
the files are loaded by `Results.from_csv_files(clusters_path, parameters_path, burn_in)`, results.py:128-139. `disk`, `disk'` is what
the files held before. `none` is an exception. -/
noncomputable def saveAndLoad (S : Schema) (K N : ℕ) (contrib : Bool) (fmt : EReal → Str) (parse : Str → EReal) (disk disk' : List Str)
    (burnIn : ℝ) (xs : List Snapshot) : Option Loaded :=
  match logRun S K N contrib fmt (newLogger disk true, newLogger disk' true) (xs.map Event.write ++ [Event.close]) with
  | none => none
  | some pc =>
    match readClusters (fileText pc.2.file) with
    | none => none
    | some cl => loadResults cl (readStats parse (fileText pc.1.file)) burnIn

end SBayes.Log
