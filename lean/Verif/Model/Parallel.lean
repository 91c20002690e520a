import Verif.Model.CrashLog
import Verif.Model.Config
/-
Model of what the runs of one command do to the disk (sbayes/cli.py:15-88, sbayes/experiment_setup.py:24-71,
sbayes/mcmc_setup.py:100-122, sbayes/util.py:218-230): every run is a program that reads files and writes files; the runs of a
command are executed one after the other, or by the processes of a pool, in which case their operations are interleaved.

Simplified: directories are not modelled (they are created with `exist_ok=True`), nor is the output on the screen. A line of
the log is added to its file by one operation (`FileHandler` opens it with mode 'a' and writes and flushes each message). All
random draws of a run are fixed. A process that cannot open a file for reading ends with an exception; other exceptions are a
session that ends early.
-/
namespace SBayes.Par
open SBayes.Log (lit)

abbrev Str := SBayes.Log.Str
abbrev Path := SBayes.Log.Str

/-- An operation that changes a file: `open(path, "w")`; writing at the end of the file; writing at a position of the file
(the position of an open file descriptor). -/
inductive Op
  | create (p : Path)
  | append (p : Path) (text : Str)
  | writeAt (p : Path) (pos : ℕ) (text : Str)

/-- The file that an operation changes. -/
def Op.path : Op → Path
  | .create p => p
  | .append p _ => p
  | .writeAt p _ _ => p

/-- Contents of the files that exist. -/
abbrev Disk := Path → Option Str

/-- Writing `text` at position `pos`: what is there is overwritten, a gap is filled with zero characters. -/
def overwrite (old : Str) (pos : ℕ) (text : Str) : Str :=
  old.take pos ++ List.replicate (pos - old.length) (Char.ofNat 0) ++ text ++ old.drop (pos + text.length)

/-- Effect of an operation. -/
def doOp (d : Disk) : Op → Disk
  | .create p => Function.update d p (some [])
  | .append p t => Function.update d p (some ((d p).getD [] ++ t))
  | .writeAt p pos t => Function.update d p (some (overwrite ((d p).getD []) pos t))

/-- What a process still has to do: it has ended; it reads a file and goes on depending on the contents; it changes a file. -/
inductive Prog
  | done
  | read (p : Path) (next : Str → Prog)
  | op (o : Op) (next : Prog)

/-- One operation of a process. -/
def step (d : Disk) : Prog → Disk × Prog
  | .done => (d, .done)
  | .read p next =>
    match d p with
    | none => (d, .done)
    | some t => (d, next t)
  | .op o next => (doOp d o, next)

/-- A process on its own, until it ends; whether it ended without an exception. -/
def finish (d : Disk) : Prog → Disk × Bool
  | .done => (d, true)
  | .read p next =>
    match d p with
    | none => (d, false)
    | some t => finish d (next t)
  | .op o next => finish (doOp d o) next

/-- Operations one after the other. -/
def ops (os : List Op) (next : Prog) : Prog := os.foldr .op next

/-- Reading some files, one after the other. -/
def readAll : List Path → (List Str → Prog) → Prog
  | [], next => next []
  | p :: ps, next => .read p fun t => readAll ps fun ts => next (t :: ts)

/-! ### One command -/

/-- `os.path.basename`. -/
def basename (p : Path) : Str := (p.reverse.takeWhile (· ≠ '/')).reverse

/-- What a run does to the disk after the data are read (cli.py:33-38): messages of the log, and operations on its result
files (mcmc_setup.py:102-120). -/
inductive RunOp
  | log (msg : Str)
  | create (kind : SBayes.Config.Kind)
  | append (kind : SBayes.Config.Kind) (text : Str)
  | writeAt (kind : SBayes.Config.Kind) (pos : ℕ) (text : Str)

/-- A command: the results directory (experiment_setup.py:61), the configuration file, the blocks in which it is copied, the
messages of `log_experiment` (70-71), the data files that a configuration names, and what a run does after reading them, for
given contents of the configuration and data files, run and number of clusters. -/
structure Command where
  base : Path
  config : Path
  blocks : Str → List Str
  hello : List Str
  dataFiles : Str → List Path
  session : Str → List Str → ℕ → ℕ → List RunOp

namespace Command
variable (E : Command)

/-- A path in the results directory. -/
def inBase (name : Str) : Path := E.base ++ '/' :: name

/-- The log file, experiment_setup.py:66. -/
def logPath : Path := E.inBase (lit "experiment.log")

/-- The copy of the configuration, experiment_setup.py:53. -/
def copyPath : Path := E.inBase (basename E.config)

/-- A result file, mcmc_setup.py:103-109. -/
def filePath (kind : SBayes.Config.Kind) (k run : ℕ) : Path := E.inBase (SBayes.Config.resultFile kind k run)

/-- `shutil.copy`: the file is opened for writing, which empties it, and the blocks are written one after the other. -/
def writeBlocks (p : Path) : ℕ → List Str → List Op
  | _, [] => []
  | pos, b :: bs => .writeAt p pos b :: writeBlocks p (pos + b.length) bs

/-- `Experiment.__init__`, experiment_setup.py:24-55, 58-71: the configuration is read, the log file opened, messages are
logged (if wanted), the configuration is copied. -/
def init (log : Bool) (next : Str → Prog) : Prog :=
  .read E.config fun c =>
    .op (.append E.logPath []) <|
      ops (if log then E.hello.map (.append E.logPath) else []) <|
        .read E.config fun c' =>
          .op (.create E.copyPath) <| ops (writeBlocks E.copyPath 0 (E.blocks c')) (next c)

/-- The operations of a run on the disk. -/
def runOp (run k : ℕ) : RunOp → Op
  | .log msg => .append E.logPath msg
  | .create kind => .create (E.filePath kind k run)
  | .append kind t => .append (E.filePath kind k run) t
  | .writeAt kind pos t => .writeAt (E.filePath kind k run) pos t

/-- `runner` and `run_experiment`, cli.py:15-53. -/
def runner (x : ℕ × ℕ) : Prog :=
  E.init true fun c => readAll (E.dataFiles c) fun ds => ops ((E.session c ds x.1 x.2).map (E.runOp x.1 x.2)) .done

/-- One run after the other, until one of them fails: cli.py:83-85. -/
def sequential (d : Disk) : List (ℕ × ℕ) → Disk
  | [] => d
  | x :: xs =>
    let r := finish d (E.runner x)
    if r.2 then sequential r.1 xs else r.1

/-- The runs of a pool, cli.py:86-88: which process makes the next operation is decided by a schedule. Entry `i` of the
schedule: run number `i` makes its next operation. Every schedule of the processes of the pool is of this kind, however many
processes there are, and whichever process executes which runs. -/
def pool : Disk × List Prog → List ℕ → Disk × List Prog
  | w, [] => w
  | (d, ps), i :: s =>
    match ps[i]? with
    | none => pool (d, ps) s
    | some p => pool ((step d p).1, ps.set i (step d p).2) s

/-- `main`, cli.py:56-88, up to the execution of the runs: its own `Experiment`, without messages. -/
def prepare (d : Disk) : Disk × Bool := finish d (E.init false fun _ => .done)

/-- `main` with at most one process. -/
def mainSequential (d : Disk) (runs : ℕ) (clusters : List ℕ) : Disk :=
  let r := E.prepare d
  if r.2 then E.sequential r.1 (SBayes.Config.runConfigurations runs clusters) else r.1

/-- `main` with several processes, while the pool is working: after the operations of the schedule. The second part is what
the runs still have to do. -/
def mainPool (d : Disk) (runs : ℕ) (clusters : List ℕ) (s : List ℕ) : Disk × List Prog :=
  let r := E.prepare d
  if r.2 then pool (r.1, (SBayes.Config.runConfigurations runs clusters).map E.runner) s else (r.1, [])

end Command

/-! ### The name of an experiment -/

/-- Two decimal digits. -/
def two (n : ℕ) : Str := [Nat.digitChar (n / 10 % 10), Nat.digitChar (n % 10)]

/-- A date and time. -/
structure Time where
  (year month day hour minute second micro : ℕ)

/-- `str(datetime)`: the microseconds are left out if they are zero. -/
def Time.str (t : Time) (micro : Str) : Str :=
  two (t.year / 100) ++ two t.year ++ ['-'] ++ two t.month ++ ['-'] ++ two t.day ++ [' '] ++ two t.hour ++ [':'] ++ two t.minute ++
    [':'] ++ two t.second ++ if t.micro = 0 then [] else '.' :: micro

/-- `set_experiment_name`, util.py:218-230, from the text of the current time. -/
def experimentName (now : Str) : Str :=
  let s := now.takeWhile (· ≠ '.')
  let s := s.take (s.length - 3)
  (s.map fun c => if c = ':' then '-' else c).map fun c => if c = ' ' then '_' else c

end SBayes.Par
