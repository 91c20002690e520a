import Verif.Model.Logged
/-
Model of the likelihood file of a run, `likelihood_K<k>_<run>.h5`: `LikelihoodLogger` (sbayes/sampling/loggers.py:253-280, on
top of `ResultsLogger`, 36-48) and the choice of the loggers (sbayes/mcmc_setup.py:102-120).

The HDF5 file is its one table: a width and rows. The numbers are stored with single precision (`Float32Col`,
loggers.py:271); the conversion is a parameter `r` of the model. Compression and checksums are left out.
-/
namespace SBayes.Sampler
open SBayes.Lik

variable {𝕜 : Type} [Field 𝕜] {K N F S M : ℕ} {nG : Fin M → ℕ}

/-- An extendable array of a pytables file with its second dimension fixed. -/
structure Table (𝕜 : Type) where
  width : ℕ
  rows : List (List 𝕜)

/-- `create_earray(..., shape=(0, width))`, loggers.py:266-277: pytables takes dimensions of length 0 for extendable ones, and
raises if there is more than one of them. -/
def createTable (width : ℕ) : Option (Table 𝕜) := if width = 0 then none else some ⟨width, []⟩

/-- `EArray.append` of one row, loggers.py:280: pytables raises if the row does not have the width of the table. -/
def Table.append (r : 𝕜 → 𝕜) (t : Table 𝕜) (row : List 𝕜) : Option (Table 𝕜) :=
  if row.length = t.width then some ⟨t.width, t.rows ++ [row.map r]⟩ else none

/-- `ResultsLogger.write_sample` with the methods of `LikelihoodLogger`, loggers.py:36-44, 264-280; the state of the logger is
`none` before the file is opened. A sample without likelihoods of observations (`None`) makes `[None, ...]` raise. -/
def writeLikelihood (r : 𝕜 → 𝕜) (st : Option (Table 𝕜)) (e : Entry 𝕜 K N F S M nG) : Option (Table 𝕜) :=
  match (match st with
    | none => createTable (N * F)
    | some t => some t : Option (Table 𝕜)) with
  | none => none
  | some t =>
    match e.attrs.obs with
    | none => none
    | some row => t.append r row

/-- Logging of several samples, mcmc.py:290-298, 388-396. The outer `none` is an exception. -/
def writeLikelihoods (r : 𝕜 → 𝕜) :
    Option (Table 𝕜) → List (Entry 𝕜 K N F S M nG) → Option (Option (Table 𝕜))
  | st, [] => some st
  | st, e :: es =>
    match writeLikelihood r st e with
    | none => none
    | some t => writeLikelihoods r (some t) es

/-- The likelihood file after logging the samples `es`: `LikelihoodLogger` is among the loggers of a run unless it samples
from the prior (mcmc_setup.py:117-118). `some none`: there is no such file. -/
def likelihoodFile (r : 𝕜 → 𝕜) (fromPrior : Bool) (es : List (Entry 𝕜 K N F S M nG)) : Option (Option (Table 𝕜)) :=
  if fromPrior then some none else writeLikelihoods r none es

end SBayes.Sampler
