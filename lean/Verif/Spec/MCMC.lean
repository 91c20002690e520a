import Verif.Model.MCMC
import Mathlib.Algebra.BigOperators.Group.Finset.Basic
import Mathlib.Data.Real.Basic
/- Specifications for the sampling loop. -/
namespace SBayes.MCMC
variable {σ D : Type} {nC P : ℕ}

/-- The contract of an operator: it leaves the passed sample as it is, unless it is a Gibbs step, which
modifies the passed sample and returns it, to be accepted unconditionally. -/
def Contract (op : D → σ → OpResult σ) : Prop :=
  ∀ w x, (op w x).orig = x ∨ ((op w x).cand = (op w x).orig ∧ (op w x).logQ = ⊥ ∧ (op w x).logQBack ≠ ⊥)

/-- Number of events that used operator `i`. -/
def uses (es : List (Event D nC P)) (i : Fin P) : ℕ := (es.filter fun e => e.op = i).length

/-- The sample after `k` steps. -/
def after (next : ℕ → σ → σ) (init : σ) : ℕ → σ
  | 0 => init
  | k + 1 => next k (after next init k)

/-- The logarithm of a probability, `-inf` for 0. -/
noncomputable def elog (q : ℝ) : EReal := if q = 0 then ⊥ else (Real.log q : ℝ)

/-- The probability with the given logarithm, 0 for `-inf`. -/
noncomputable def mass (l : EReal) : ℝ := if l = ⊥ then 0 else Real.exp l.toReal

/-- The books of a run. -/
structure Books (L Pr : σ → EReal) (es : List (Event D nC P)) (s : State σ nC P) : Prop where
  ll : ∀ c, s.ll c = L (s.sample c)
  prior : ∀ c, s.prior c = Pr (s.sample c)
  used : ∀ i, s.acc i + s.rej i = uses es i
  total : s.total = ∑ i, s.acc i
  opAcc : s.opAcc = s.acc
  opRej : s.opRej = s.rej

/-- Which entry of the configuration an operator belongs to. -/
inductive Family | clusters | weights | clusterEffect | source | confounding
  deriving DecidableEq

def familyOf {M : ℕ} : OpKind M → Family
  | .cluster _ => .clusters
  | .weights => .weights
  | .clusterEffect => .clusterEffect
  | .source => .source
  | .confounding _ => .confounding

def OpConfig.get (cfg : OpConfig) : Family → ℝ
  | .clusters => cfg.clusters
  | .weights => cfg.weights
  | .clusterEffect => cfg.clusterEffect
  | .source => cfg.source
  | .confounding => cfg.confoundingEffects

/-- If the current state is distributed (proportionally) as `pi` on `S`, so is the next one: expectations
of all functions are the same before and after. -/
def Invariant (S : Finset σ) (pi : σ → ℝ) (k : σ → MH.Rand σ) : Prop :=
  ∀ g : σ → ℝ, ∑ x ∈ S, pi x * MH.E (k x) g = ∑ x ∈ S, pi x * g x

end SBayes.MCMC
