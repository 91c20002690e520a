import Verif.Model.Likelihood
/- Specifications used in the statements about the likelihood. -/
namespace SBayes.Lik
variable {𝕜 : Type} [Field 𝕜] {N F S G C K M : ℕ} {nG : Fin M → ℕ}

/-- No object belongs to two groups. -/
def DisjointGroups (groups : Fin G → Fin N → Bool) : Prop :=
  ∀ i j n, groups i n = true → groups j n = true → i = j

/-- State `s` was observed for feature `f` of object `n`. -/
def Observed (x : Features N F S) (n : Fin N) (f : Fin F) (s : Fin S) : Prop :=
  ∀ s', x n f s' = true ↔ s' = s

/-- Nothing was observed for feature `f` of object `n`. -/
def Missing (x : Features N F S) (n : Fin N) (f : Fin F) : Prop := ∀ s, x n f s = false

/-- `order` visits every group (an arbitrary traversal order of the set of all groups). -/
def VisitsAll (order : List (Fin G)) : Prop := ∀ g, g ∈ order

/-- What the likelihood of one component should be: the probability of the observed state in the
group of the object, 0 if the object is in no group, 1 if nothing was observed. -/
structure IsComponentLh (x : Features N F S) (probs : Fin G → Fin F → Fin S → 𝕜)
    (groups : Fin G → Fin N → Bool) (v : Fin N → Fin F → 𝕜) : Prop where
  missing : ∀ n f, Missing x n f → v n f = 1
  member : ∀ n f s i, Observed x n f s → groups i n = true → v n f = probs i f s
  outside : ∀ n f s, Observed x n f s → (∀ i, groups i n = false) → v n f = 0

end SBayes.Lik
