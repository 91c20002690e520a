import Verif.Model.Results
import Verif.Model.MCMC
/-
Model of the operator statistics: `OperatorStatsLogger` (sbayes/sampling/loggers.py:283-331) and the equally formatted
`OperatorStats`/`print_statistics` (sbayes/sampling/mcmc.py:25-69, 409-415), with the names of the operator classes
(operators.py:97-99, sbayes_sampling.py:373-451).

The file is a string. Floating-point rounding before the rounding to two decimals is not modelled.
-/
namespace SBayes.Log
open SBayes.MCMC

/-- What the logger reads from an operator: `operator_name`, `accepts`, `rejects` (operators.py:48-49, 83-99). -/
structure OpCount where
  name : Str
  accepts : ℕ
  rejects : ℕ

/-- `str.ljust(s, w)`. -/
def ljust (s : Str) (w : ℕ) : Str := s ++ List.replicate (w - s.length) ' '

/-- `p / q` rounded to the nearest integer, ties to even. -/
def roundHalfEven (p q : ℕ) : ℕ :=
  if 2 * (p % q) < q then p / q
  else if q < 2 * (p % q) then p / q + 1
  else if p / q % 2 = 0 then p / q else p / q + 1

/-- `'%.2f%%' % (100 * accepts / total)`, loggers.py:323. -/
def percent2 (accepts total : ℕ) : Str :=
  let r := roundHalfEven (10000 * accepts) total
  num (r / 100) ++ lit "." ++ num (r % 100 / 10) ++ num (r % 100 % 10) ++ lit "%"

/-- `get_log_message_header`, loggers.py:302-310 and mcmc.py:48-56. -/
def opHeader : Str :=
  tabJoin [ljust (lit "OPERATOR") 20, ljust (lit "ACCEPTS") 8, ljust (lit "REJECTS") 8, ljust (lit "TOTAL") 8, lit "ACC. RATE"]

/-- `get_log_message_row`, loggers.py:312-325 and mcmc.py:58-69. -/
def opRow (o : OpCount) : Str :=
  if o.accepts + o.rejects = 0 then
    tabJoin [ljust o.name 20, ljust (lit "-") 8, ljust (lit "-") 8, ljust (lit "-") 8, ljust (lit "-") 10]
  else
    tabJoin [ljust o.name 20, ljust (num o.accepts) 8, ljust (num o.rejects) 8, ljust (num (o.accepts + o.rejects)) 8,
      percent2 o.accepts (o.accepts + o.rejects)]

/-- `write_to`, loggers.py:297-300. -/
def opFile (ops : List OpCount) : Str := fileText (opHeader :: ops.map opRow)

/-- `write_sample`, loggers.py:293-295: the file is opened with mode `'w'`, its old content `_disk` is lost. -/
def writeOpStats (_disk : Str) (ops : List OpCount) : Str := opFile ops

/-- `operator_name`, operators.py:97-99, of the operators in `get_operators` (sbayes_sampling.py:373-451): the name of the
class. -/
def className {M : ℕ} (sampleSource : Bool) : OpKind M → Str
  | .cluster variant => if sampleSource then (if variant then lit "AlterClusterGibbsish2" else lit "AlterClusterGibbsish")
      else lit "AlterCluster"
  | .source => lit "GibbsSampleSource"
  | .weights => if sampleSource then lit "GibbsSampleWeights" else lit "AlterWeights"
  | .clusterEffect => if sampleSource then lit "GibbsSampleClusterEffect" else lit "AlterClusterEffect"
  | .confounding _ => if sampleSource then lit "GibbsSampleConfoundingEffects" else lit "AlterConfoundingEffects"

/-- What the logger writes in state `s` of a run: `logger.operators` are the operators of the sampler (mcmc.py:159-161). -/
def opCounts {σ : Type} {nC P : ℕ} (name : Fin P → Str) (s : State σ nC P) : List OpCount :=
  (List.finRange P).map fun i => ⟨name i, s.opAcc i, s.opRej i⟩

end SBayes.Log
