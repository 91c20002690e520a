import Verif.Spec.Sampler
import Verif.Spec.Prior
/-
Specification of C100: the same data, settings and parameters in another order. Row `n`, feature `f`, state `s`, confounder `c`, group `g`
and cluster `k` of the new order are row `obj n`, feature `feat f`, ... of the old one.
-/
namespace SBayes.Reorder
open SBayes.Lik SBayes.Prior SBayes.Clusters SBayes.Effects SBayes.Posterior SBayes.Kernel

/-- Another order of the objects, features, states (of each feature), confounders, groups (of each confounder) and clusters. -/
structure Reordering (K N F S M : ℕ) (nG nG' : Fin M → ℕ) where
  obj : Equiv.Perm (Fin N)
  feat : Equiv.Perm (Fin F)
  state : Fin F → Equiv.Perm (Fin S)
  conf : Equiv.Perm (Fin M)
  group : (c : Fin M) → Fin (nG' c) ≃ Fin (nG (conf c))
  clus : Equiv.Perm (Fin K)

variable {K N F S M : ℕ} {nG nG' : Fin M → ℕ} (r : Reordering K N F S M nG nG')

/-- Component 0 is the cluster, the others are the confounders in order. -/
def Reordering.comp : Equiv.Perm (Fin (M + 1)) where
  toFun := Fin.cases 0 fun c => (r.conf c).succ
  invFun := Fin.cases 0 fun c => (r.conf.symm c).succ
  left_inv i := by refine Fin.cases ?_ (fun c => ?_) i <;> simp
  right_inv i := by refine Fin.cases ?_ (fun c => ?_) i <;> simp

/-- The clusters. -/
def Reordering.clusters (z : Clus K N) : Clus K N := fun k n => z (r.clus k) (r.obj n)

/-- The weights. -/
def Reordering.weights (w : Fin F → Fin (M + 1) → ℝ) : Fin F → Fin (M + 1) → ℝ := fun f i => w (r.feat f) (r.comp i)

/-- Numbers for every feature and state. -/
def Reordering.table {α : Type} (e : Fin F → Fin S → α) : Fin F → Fin S → α := fun f s => e (r.feat f) (r.state f s)

/-- The cluster effects. -/
def Reordering.clusterEffect (e : Fin K → Fin F → Fin S → ℝ) : Fin K → Fin F → Fin S → ℝ := fun k => r.table (e (r.clus k))

/-- The confounding effects. -/
def Reordering.confEffect (e : (c : Fin M) → Fin (nG c) → Fin F → Fin S → ℝ) : (c : Fin M) → Fin (nG' c) → Fin F → Fin S → ℝ :=
  fun c g => r.table (e (r.conf c) (r.group c g))

/-- The source of every observation. -/
def Reordering.source (s : Fin N × Fin F → Fin (M + 1)) : Fin N × Fin F → Fin (M + 1) :=
  fun x => r.comp.symm (s (r.obj x.1, r.feat x.2))

/-- The source as an array. -/
def Reordering.sourceArr (s : Fin N → Fin F → Fin (M + 1) → Bool) : Fin N → Fin F → Fin (M + 1) → Bool :=
  fun n f i => s (r.obj n) (r.feat f) (r.comp i)

/-- All parameters of a sample. -/
def Reordering.params (p : Params ℝ K N F S M nG) : Params ℝ K N F S M nG' where
  clusters := r.clusters p.clusters
  weights := r.weights p.weights
  clusterEffect := r.clusterEffect p.clusterEffect
  confEffect := r.confEffect p.confEffect
  source := p.source.map r.sourceArr

/-- The data. -/
def Reordering.data (d : ModelData N F S M nG) : ModelData N F S M nG' where
  features n := r.table (d.features (r.obj n))
  confGroups c g n := d.confGroups (r.conf c) (r.group c g) (r.obj n)

/-- The two geo-priors are the same but for the order of the objects (each with any minimum spanning trees). -/
inductive SameGeo (obj : Equiv.Perm (Fin N)) : GeoCfg N → GeoCfg N → Prop
  | uniform : SameGeo obj .uniform .uniform
  | costBased (agg : Agg) (f : ProbFn) (scale : ℝ) (cost : Fin N → Fin N → ℝ) (mst mst' : (z : Fin N → Bool) → SimpleGraph (Members z))
      (h : ∀ z, 1 < clusterSize z → IsMST (fun i j : Members z => cost i j) (mst z))
      (h' : ∀ z, 1 < clusterSize z → IsMST (fun i j : Members z => cost (obj i) (obj j)) (mst' z)) :
      SameGeo obj (.costBased agg f scale cost mst) (.costBased agg f scale (fun i j => cost (obj i) (obj j)) mst')

/-- `cfg'` is the configuration `cfg` for the reordered data. -/
structure SameCfg (cfg : ModelCfg N F S M nG) (cfg' : ModelCfg N F S M nG') : Prop where
  size : cfg'.size = cfg.size
  geo : SameGeo r.obj cfg.geo cfg'.geo
  conf : ∀ c g, cfg'.conf c g = (cfg.conf (r.conf c) (r.group c g)).map r.table
  sampleSource : cfg'.sampleSource = cfg.sampleSource
  app : cfg'.app = r.table cfg.app

/-- `m'` is the setup `m` in the other order. The neighbourhood graph, the traversal orders and the buffer may be any. -/
structure SameSetup (m : Setup K N F S M nG) (m' : Setup K N F S M nG') : Prop where
  data : m'.d = r.data m.d
  cfg : SameCfg r m.cfg m'.cfg
  minSize : m'.cl.minSize = m.cl.minSize
  maxSize : m'.cl.maxSize = m.cl.maxSize
  pConn : m'.cl.pConn = m.cl.pConn
  clOrder : VisitsAll m'.clOrder
  confOrder : ∀ c, VisitsAll (m'.confOrder c)

/-- The continuous parameters. -/
def Reordering.cont (c : Cont K F S M nG) : Cont K F S M nG' := (r.weights c.1, r.clusterEffect c.2.1, r.confEffect c.2.2)

/-- The discrete parameters. -/
def Reordering.disc (x : Disc K N F M) : Disc K N F M := (r.clusters x.1, r.source x.2)

end SBayes.Reorder
