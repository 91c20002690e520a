import Verif.Model.Parallel
/- Spec for the runs of one command: a process on its own for some operations, the lines it adds to a log, and what a user has
to take care of. -/
namespace SBayes.Par

/-- A process alone on the disk, after `n` operations. -/
def alone (d : Disk) (p : Prog) : ℕ → Disk × Prog
  | 0 => (d, p)
  | n + 1 => alone (step d p).1 (step d p).2 n

/-- What a process adds to the file `log`, one text after the other, if the files that it reads are those of `d`. -/
def added (log : Path) (d : Disk) : Prog → List Str
  | .done => []
  | .read p next =>
    match d p with
    | none => []
    | some t => added log d (next t)
  | .op (.append p t) next => if p = log then t :: added log d next else added log d next
  | .op (.create _) next => added log d next
  | .op (.writeAt _ _ _) next => added log d next

/-- What a user has to take care of: configuration and data files are not in the results directory; the configuration file
does not have the name of the log. Copying a file in blocks leaves nothing out. -/
structure Command.Tidy (E : Command) : Prop where
  config : ¬ (E.base ++ ['/']) <+: E.config
  data : ∀ c, ∀ p ∈ E.dataFiles c, ¬ (E.base ++ ['/']) <+: p
  name : basename E.config ≠ SBayes.Log.lit "experiment.log"
  blocks : ∀ c, (E.blocks c).flatten = c

/-- The kinds of the text files. -/
def kindOf : SBayes.Log.File → SBayes.Config.Kind
  | .stats => .stats
  | .clusters => .clusters
  | .opStats => .operatorStats

/-- The operations on the text files among those of a run. -/
def textOp : RunOp → Option SBayes.Log.DiskOp
  | .create .stats => some (.create .stats)
  | .create .clusters => some (.create .clusters)
  | .create .operatorStats => some (.create .opStats)
  | .append .stats t => some (.append .stats t)
  | .append .clusters t => some (.append .clusters t)
  | .append .operatorStats t => some (.append .opStats t)
  | _ => none

/-- A time of the calendar, with a year of four digits. -/
structure Time.Valid (t : Time) : Prop where
  year : t.year < 10000
  month : t.month < 100
  day : t.day < 100
  hour : t.hour < 100
  minute : t.minute < 100

end SBayes.Par
