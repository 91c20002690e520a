import Verif.Model.CrashLog
/- Reading an interrupted file: its complete lines. -/
namespace SBayes.Log

/-- The lines that end with a line break. -/
def completeLines (text : Str) : List Str := (text.splitOn '\n').dropLast

/-- The events of logging the first `m` of the samples. -/
def firstWrites (m : ℕ) (xs : List (Snapshot × List OpCount)) : List Event := (xs.take m).map fun x => .write x.1

end SBayes.Log
