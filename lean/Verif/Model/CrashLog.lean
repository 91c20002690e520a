import Verif.Model.OpStats
/-
Model of what is on disk while a run is being logged (sbayes/sampling/loggers.py:36-48, 241-246, 293-300;
sbayes/sampling/mcmc.py:388-396; sbayes/mcmc_setup.py:102-120): the sequence of file operations of the text loggers, and
the state of the disk if the process is killed in between.

The text files of the statistics and clusters loggers are line-buffered (`buffering=1`, loggers.py:43): every `write` of a
line reaches the file before the next statement. A killed `write` may leave a beginning of its text. The statistics of the
operators are buffered and reach the file when it is closed, at the end of the `with` block. The likelihood file (HDF5) is
not modelled. A file that does not exist is an empty file.
-/
namespace SBayes.Log

/-- The three text files of a run (mcmc_setup.py:105-109). -/
inductive File | stats | clusters | opStats
  deriving DecidableEq

/-- An operation on the disk: `open(path, "w")` empties the file; text is added at its end. -/
inductive DiskOp
  | create (f : File)
  | append (f : File) (text : Str)

/-- Contents of the files. -/
abbrev Disk := File → Str

/-- Effect of one operation. -/
def diskStep (d : Disk) : DiskOp → Disk
  | .create f => Function.update d f []
  | .append f t => Function.update d f (d f ++ t)

/-- The disk if the process is killed during operation number `n` (from 0), of whose text `k` characters were written. -/
def crash (d : Disk) (ops : List DiskOp) (n k : ℕ) : Disk :=
  let d' := (ops.take n).foldl diskStep d
  match ops[n]? with
  | some (.append f t) => diskStep d' (.append f (t.take k))
  | _ => d'

/-- The operations of logging one sample, `log_sample_statistics` (mcmc.py:395-396), by loggers in states `pc` before and
`pc'` after it: the statistics logger (open and header if it is the first sample, loggers.py:36-44, 128; then the row, 215),
the clusters logger (36-44, 251), the operator statistics (293-300). -/
def sampleOps (pc pc' : LogState × LogState) (ops : List OpCount) : List DiskOp :=
  (if pc.1.isOpen then [] else [.create .stats, .append .stats (tabJoin pc'.1.columns ++ ['\n'])]) ++
  [.append .stats (pc'.1.file.getLastD [] ++ ['\n'])] ++
  (if pc.2.isOpen then [] else [.create .clusters]) ++
  [.append .clusters (pc'.2.file.getLastD [] ++ ['\n'])] ++
  [.create .opStats, .append .opStats (opFile ops)]

/-- All disk operations of logging the samples `xs`, each with the counts of the operators at that time. -/
noncomputable def trace (S : Schema) (K N : ℕ) (contrib : Bool) (fmt : EReal → Str) :
    LogState × LogState → List (Snapshot × List OpCount) → Option (List DiskOp)
  | _, [] => some []
  | pc, x :: xs =>
    match logStep S K N contrib fmt pc (.write x.1) with
    | none => none
    | some pc' => (trace S K N contrib fmt pc' xs).map fun t => sampleOps pc pc' x.2 ++ t

end SBayes.Log
