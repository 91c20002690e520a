import Verif.Model.Build
import Verif.Model.WholeRun
import Verif.Model.Util
/-
Model of the construction of the samplers for warm-up and main run: `ClusterMCMC.__init__`
(sbayes/sampling/sbayes_sampling.py:29-77) with `MCMC.__init__` (sbayes/sampling/mcmc.py:110-160), the cluster operators
in `get_operators` (sbayes_sampling.py:347-461), and `ClusterMCMCWarmup.__init__` (470-489).
-/
namespace SBayes.Settings

/-- An attribute that is one value, or a list with a value for each chain. -/
inductive Attr (α : Type)
  | one (a : α)
  | perChain (l : List α)

/-- What a cluster operator knows: `p_grow_connected`, and `max_size` of the models of the chains (operators.py:785, 882, 1011:
`self.model_by_chain[sample.chain].max_size`). -/
structure ClusterOp where
  pGrow : Attr ℚ
  maxSizes : List ℕ

/-- A sampler: attributes, and operators. -/
structure Sampler where
  nChains : ℕ
  initialSize : ℕ
  maxSize : Attr ℤ
  pGrow : Attr ℚ
  ops : List ClusterOp

/-- `get_operators`, sbayes_sampling.py:373-401 and 425-433: two cluster operators with source sampling, one without; each takes
`self.p_grow_connected` and `self.posterior_per_chain`. -/
def getClusterOps (sampleSource : Bool) (pGrow : Attr ℚ) (maxSizes : List ℕ) : List ClusterOp :=
  if sampleSource then [⟨pGrow, maxSizes⟩, ⟨pGrow, maxSizes⟩] else [⟨pGrow, maxSizes⟩]

/-- `ClusterMCMC.__init__`, sbayes_sampling.py:29-77, and `MCMC.__init__`, mcmc.py:132-136: the models are copied for each
chain, and the operators are built. -/
def clusterMCMC (sampleSource : Bool) (modelMax initialSize nChains : ℕ) (pGrow : ℚ) : Sampler :=
  { nChains := nChains, initialSize := initialSize, maxSize := .one modelMax, pGrow := .one pGrow
    ops := getClusterOps sampleSource (.one pGrow) (List.replicate nChains modelMax) }

/-- `ClusterMCMCWarmup.__init__`, sbayes_sampling.py:474-489, after the constructor of `ClusterMCMC`: `choices` are the draws of
`_random.choices`: whether a chain gets 0.95. -/
def clusterMCMCWarmup (sampleSource : Bool) (modelMax initialSize nChains : ℕ) (pGrow : ℚ) (choices : List Bool) : Sampler :=
  let s := clusterMCMC sampleSource modelMax initialSize nChains pGrow
  { s with
    maxSize := .perChain (Util.maxSizeList ((initialSize + modelMax) / 2 : ℕ) (3 * modelMax / 2 : ℕ) nChains 4)
    pGrow := .perChain (choices.map fun b => if b then 95 / 100 else pGrow) }

end SBayes.Settings
