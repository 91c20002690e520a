import Verif.Lemmas.EndToEnd
import Verif.Props.StartAlter
import Mathlib.MeasureTheory.Function.Floor
/- C93: what is loaded from the result files of a run converges to the posterior. -/
namespace SBayes.Meas
set_option linter.unusedSectionVars false
open SBayes.MH SBayes.Kernel SBayes.Lik SBayes.Clusters SBayes.Log MeasureTheory Filter Topology
open scoped BigOperators ENNReal

variable {K N F S M : ℕ} {nG : Fin M → ℕ} in
theorem Interior.weight_mem {app : Fin F → Fin S → Bool} {c : Cont K F S M nG} (h : Interior app c) (f : Fin F) (i : Fin (M + 1)) :
    0 ≤ c.1 f i ∧ c.1 f i ≤ 1 := ⟨(h.w f).nonneg i, (h.w f).le_one i⟩

variable {K N F S M : ℕ} {nG : Fin M → ℕ} in
theorem Interior.effect_mem {app : Fin F → Fin S → Bool} {c : Cont K F S M nG} (h : Interior app c) (k : Fin K) (f : Fin F)
    (s : Fin S) : 0 ≤ c.2.1 k f s ∧ c.2.1 k f s ≤ 1 := ⟨(h.e k f).nonneg s, (h.e k f).le_one s⟩

variable {K N F S M : ℕ} {nG : Fin M → ℕ} in
theorem Interior.conf_mem {app : Fin F → Fin S → Bool} {c : Cont K F S M nG} (h : Interior app c) (i : Fin M) (g : Fin (nG i)) (f : Fin F)
    (s : Fin S) : 0 ≤ c.2.2 i g f s ∧ c.2.2 i g f s ≤ 1 := ⟨(h.ce i g f).nonneg s, (h.ce i g f).le_one s⟩

section Abstract
variable {K N F S M : ℕ} {nG : Fin M → ℕ} {X : Type} [MeasurableSpace X] {G : Set X} {κ : ProbabilityTheory.Kernel X X} [ProbabilityTheory.IsMarkovKernel κ]

/-- Averages of bounded functions converge from every state of `G`. -/
def AveragesConverge (π : Measure X) (G : Set X) (T : X → Law X) (s : ℕ) : Prop :=
  ∀ f : X → ℝ, Measurable f → (∃ B, ∀ x, |f x| ≤ B) → ∀ x ∈ G, ∀ ε > 0,
    Tendsto (fun n : ℕ => (sampleLoop T s n 0 x).prob {l | |(l.map f).sum / (l.length : ℝ) - (∫ y, f y ∂π) / (π Set.univ).toReal| < ε}) atTop (𝓝 1)

theorem results_eq {o : Output} (ho : o.Good F M nG) (hK : 0 < K) (hN : 0 < N) (snap : ℕ → X → Snapshot) {β : ℝ} (h0 : 0 ≤ β) (h1 : β < 1)
    (l : List X) (hl : l ≠ []) : ∃ σ : ℕ → ℕ → ℕ, (∀ t, Permutes K (σ t)) ∧
      o.results K N snap β l = some (expectedResults o.names K N o.contrib (fun v => o.parse (o.fmt v)) (keptSnaps snap σ ⌊β * (l.length : ℝ)⌋₊ l)) := by
  obtain ⟨σ, h, e⟩ := save_load o.names ho.good ho.plain K N hK hN o.contrib o.fmt o.parse ho.format o.disk o.disk' β h0 h1.le
    (l.zipIdx.map fun x => snap x.2 x.1) (by simpa using hl)
  refine ⟨σ, h, e.trans ?_⟩
  rw [List.length_map, List.length_zipIdx]
  rfl

theorem event_stat {o : Output} (ho : o.Good F M nG) (hK : 0 < K) (hN : 0 < N) (snap : ℕ → X → Snapshot) {β : ℝ} (h0 : 0 ≤ β) (h1 : β < 1)
    (stat : Loaded → ℝ) (f : X → ℝ)
    (hstat : ∀ (σ : ℕ → ℕ → ℕ), (∀ t, Permutes K (σ t)) → ∀ (b : ℕ) (l : List X), (∀ y ∈ l, y ∈ G) →
      stat (expectedResults o.names K N o.contrib (fun v => o.parse (o.fmt v)) (keptSnaps snap σ b l)) = ((l.drop b).map f).sum / ((l.drop b).length : ℝ))
    (q ε : ℝ) (l : List X) (hl : l ≠ []) (hG : ∀ y ∈ l, y ∈ G) :
    (l ∈ {l | ∃ r, o.results K N snap β l = some r ∧ |stat r - q| < ε}) ↔ |keptMean β f l - q| < ε := by
  obtain ⟨σ, hσ, e⟩ := results_eq ho hK hN snap h0 h1 l hl
  have := hstat σ hσ ⌊β * (l.length : ℝ)⌋₊ l hG
  constructor
  · rintro ⟨r, hr, h⟩
    rw [e] at hr
    cases hr
    rw [this] at h
    exact h
  · intro h
    exact ⟨_, e, by rw [this]; exact h⟩

theorem fraction_converges {π : Measure X} {T : X → Law X} (hR : RepOn G T κ) {start : Law X} (hstart : Lands G start)
    {s : ℕ} (hs : 0 < s) (havg : AveragesConverge π G T s)
    {o : Output} (ho : o.Good F M nG) (hK : 0 < K) (hN : 0 < N) (snap : ℕ → X → Snapshot) {clus : X → Clus K N} (hclus : Measurable clus)
    {cont : X → Cont K F S M nG} (hsnap : ∀ i x, Shows (clus x) (cont x) (snap i x)) {β : ℝ} (h0 : 0 ≤ β) (h1 : β < 1)
    (Q : Clus K N → Bool) (hQ : Unlabelled Q) (ε : ℝ) (hε : 0 < ε) :
    Tendsto (fun n : ℕ => (Law.bind start fun y => sampleLoop T s n 0 y).prob
      {l | ∃ r, o.results K N snap β l = some r ∧ |r.fraction Q - (π {x | Q (clus x) = true}).toReal / (π Set.univ).toReal| < ε}) atTop (𝓝 1) := by
  have hset : MeasurableSet {x | Q (clus x) = true} := hclus (Set.toFinite {z | Q z = true}).measurableSet
  have hmeas : Measurable fun x => if Q (clus x) = true then (1 : ℝ) else 0 := Measurable.ite hset measurable_const measurable_const
  have e2 : ∫ y, (if Q (clus y) = true then (1 : ℝ) else 0) ∂π = (π {x | Q (clus x) = true}).toReal := by
    have : (fun y => if Q (clus y) = true then (1 : ℝ) else 0) = Set.indicator {x | Q (clus x) = true} (1 : X → ℝ) := by
      funext y
      by_cases hy : Q (clus y) = true <;> simp [hy]
    rw [this, integral_indicator_one hset]
    rfl
  have h := havg _ hmeas ⟨1, fun x => by split <;> simp⟩
  rw [e2] at h
  refine whole_kept hR hstart hs hmeas h h0 h1 (q := (π {x | Q (clus x) = true}).toReal / (π Set.univ).toReal) (ε := ε) (by simpa using hε) _
    fun l hl hG => ?_
  exact event_stat (G := G) ho hK hN snap h0 h1 (fun r => r.fraction Q) _
    (fun σ hσ b l _ => loaded_fraction o.names o.contrib _ snap clus cont hsnap σ hσ b l Q hQ) _ ε l hl hG

theorem means_converge {π : Measure X} [IsFiniteMeasure π] (hpos : π ≠ 0) (hG : ∀ᵐ x ∂π, x ∈ G) {T : X → Law X} (hR : RepOn G T κ)
    {start : Law X} (hstart : Lands G start) {s : ℕ} (hs : 0 < s) (havg : AveragesConverge π G T s)
    {o : Output} (ho : o.Good F M nG) (hK : 0 < K) (hN : 0 < N) (snap : ℕ → X → Snapshot) {β : ℝ} (h0 : 0 ≤ β) (h1 : β < 1)
    {φ ψ : X → ℝ} (hφ : Measurable φ) (hφG : ∀ x ∈ G, 0 ≤ φ x ∧ φ x ≤ 1) (hψ : Measurable ψ) {δ : ℝ} (hδ0 : 0 ≤ δ) (hδ : ∀ x ∈ G, |ψ x - φ x| ≤ δ)
    (stat : Loaded → ℝ)
    (hstat : ∀ (σ : ℕ → ℕ → ℕ), (∀ t, Permutes K (σ t)) → ∀ (b : ℕ) (l : List X),
      stat (expectedResults o.names K N o.contrib (fun v => o.parse (o.fmt v)) (keptSnaps snap σ b l)) =
        ((l.drop b).map ψ).sum / ((l.drop b).length : ℝ)) (ε : ℝ) (hε : 0 < ε) :
    Tendsto (fun n : ℕ => (Law.bind start fun y => sampleLoop T s n 0 y).prob
      {l | ∃ r, o.results K N snap β l = some r ∧ |stat r - (∫ y, φ y ∂π) / (π Set.univ).toReal| < δ + ε}) atTop (𝓝 1) := by
  let f : X → ℝ := fun x => if |ψ x| ≤ 1 + δ then ψ x else 0
  have hψ' : Measurable fun x => |ψ x| := measurable_norm.comp hψ
  have hf : Measurable f := Measurable.ite (measurableSet_Iic.preimage hψ') hψ measurable_const
  have hB : ∀ x, |f x| ≤ 1 + δ := by
    intro x
    by_cases hx : |ψ x| ≤ 1 + δ
    · show |if |ψ x| ≤ 1 + δ then ψ x else 0| ≤ _
      rwa [if_pos hx]
    · show |if |ψ x| ≤ 1 + δ then ψ x else 0| ≤ _
      rw [if_neg hx, abs_zero]
      linarith
  have hfG : ∀ x ∈ G, f x = ψ x := fun x hx => if_pos (by
    have h2 := hδ x hx
    have h3 := hφG x hx
    rw [abs_le] at h2 ⊢
    constructor <;> linarith [h3.1, h3.2])
  have hZ : 0 < (π Set.univ).toReal := ENNReal.toReal_pos (by simpa using hpos) (measure_ne_top _ _)
  have hclose : |(∫ y, f y ∂π) / (π Set.univ).toReal - (∫ y, φ y ∂π) / (π Set.univ).toReal| ≤ δ := by
    have i1 : Integrable f π := Integrable.of_bound hf.aestronglyMeasurable (1 + δ) (ae_of_all _ hB)
    have i2 : Integrable φ π := Integrable.of_bound hφ.aestronglyMeasurable 1 (hG.mono fun x hx => by
      rw [Real.norm_eq_abs, abs_le]
      exact ⟨by linarith [(hφG x hx).1], (hφG x hx).2⟩)
    rw [← sub_div, ← integral_sub i1 i2, abs_div, abs_of_pos hZ, div_le_iff₀ hZ]
    refine norm_integral_le_of_norm_le_const (μ := π) (f := fun x => f x - φ x) (hG.mono fun x hx => ?_)
    show |f x - φ x| ≤ δ
    rw [hfG x hx]
    exact hδ x hx
  refine whole_kept hR hstart hs hf (havg f hf ⟨_, hB⟩) h0 h1 (ε := δ + ε) (lt_of_le_of_lt hclose (by linarith)) _ fun l hl hG => ?_
  refine event_stat (G := G) ho hK hN snap h0 h1 stat f (fun σ hσ b l hl => ?_) _ _ l hl hG
  rw [hstat σ hσ b l]
  congr 2
  refine List.map_congr_left fun x hx => ?_
  exact (hfG x (hl x (List.mem_of_mem_drop hx))).symm

theorem values_converge {π : Measure X} [IsFiniteMeasure π] (hpos : π ≠ 0) (hG : ∀ᵐ x ∂π, x ∈ G) {T : X → Law X} (hR : RepOn G T κ)
    {start : Law X} (hstart : Lands G start) {s : ℕ} (hs : 0 < s) (havg : AveragesConverge π G T s)
    {o : Output} (ho : o.Good F M nG) (hK : 0 < K) (hN : 0 < N) (snap : ℕ → X → Snapshot) {β : ℝ} (h0 : 0 ≤ β) (h1 : β < 1)
    {φ : X → ℝ} (hφ : Measurable φ) (hφG : ∀ x ∈ G, 0 ≤ φ x ∧ φ x ≤ 1)
    (hrd : Measurable fun v => (o.rounded v).toReal) {δ : ℝ} (hδ : ∀ v : ℝ, 0 ≤ v → v ≤ 1 → |(o.rounded v).toReal - v| ≤ δ)
    (stat : Loaded → ℝ)
    (hstat : ∀ (σ : ℕ → ℕ → ℕ) (b : ℕ) (l : List X),
      stat (expectedResults o.names K N o.contrib (fun v => o.parse (o.fmt v)) (keptSnaps snap σ b l)) =
        ((l.drop b).map fun x => (o.rounded (φ x)).toReal).sum / ((l.drop b).length : ℝ)) (ε : ℝ) (hε : 0 < ε) :
    Tendsto (fun n : ℕ => (Law.bind start fun y => sampleLoop T s n 0 y).prob
      {l | ∃ r, o.results K N snap β l = some r ∧ |stat r - (∫ y, φ y ∂π) / (π Set.univ).toReal| < δ + ε}) atTop (𝓝 1) :=
  means_converge hpos hG hR hstart hs havg ho hK hN snap h0 h1 hφ hφG (hrd.comp hφ) ((abs_nonneg _).trans (hδ 0 le_rfl zero_le_one))
    (fun x hx => hδ _ (hφG x hx).1 (hφG x hx).2) stat (fun σ _ b l => hstat σ b l) ε hε

theorem at_most_one {z : Clus K N} (hz : ∀ i j n, z i n = true → z j n = true → i = j) (n : Fin N) (v : Fin K → ℝ) :
    (∑ k, if z k n = true then v k else 0) = 0 ∨ ∃ k, (∑ k, if z k n = true then v k else 0) = v k ∧ z k n = true := by
  by_cases h : ∃ k, z k n = true
  · obtain ⟨k, hk⟩ := h
    refine Or.inr ⟨k, ?_, hk⟩
    rw [Finset.sum_eq_single k (fun j _ hj => if_neg fun h => hj (hz j k n h hk)) (by simp), if_pos hk]
  · push Not at h
    exact Or.inl (Finset.sum_eq_zero fun k _ => if_neg (h k))

theorem effects_converge {π : Measure X} [IsFiniteMeasure π] (hpos : π ≠ 0) (hG : ∀ᵐ x ∂π, x ∈ G) {T : X → Law X} (hR : RepOn G T κ)
    {start : Law X} (hstart : Lands G start) {s : ℕ} (hs : 0 < s) (havg : AveragesConverge π G T s)
    {o : Output} (ho : o.Good F M nG) (hK : 0 < K) (hN : 0 < N) (snap : ℕ → X → Snapshot) {clus : X → Clus K N} (hclus : Measurable clus)
    {cont : X → Cont K F S M nG} (hcont : Measurable cont) (hsnap : ∀ i x, Shows (clus x) (cont x) (snap i x)) {β : ℝ} (h0 : 0 ≤ β) (h1 : β < 1)
    (hdis : ∀ x ∈ G, ∀ i j n, clus x i n = true → clus x j n = true → i = j)
    (hmem : ∀ x ∈ G, ∀ k f t, 0 ≤ (cont x).2.1 k f t ∧ (cont x).2.1 k f t ≤ 1)
    (hrd : Measurable fun v => (o.rounded v).toReal) {δ : ℝ} (hδ : ∀ v : ℝ, 0 ≤ v → v ≤ 1 → |(o.rounded v).toReal - v| ≤ δ)
    (n : Fin N) (f : Fin F) (t : Fin S) (ht : t.val < o.names.nStates f) (ε : ℝ) (hε : 0 < ε) :
    Tendsto (fun j : ℕ => (Law.bind start fun y => sampleLoop T s j 0 y).prob
      {l | ∃ r, o.results K N snap β l = some r ∧ |r.meanEffectAt K n f t -
        (∫ y, (∑ k, if clus y k n = true then (cont y).2.1 k f t else 0) ∂π) / (π Set.univ).toReal| < δ + ε}) atTop (𝓝 1) := by
  have hδ0 : 0 ≤ δ := (abs_nonneg _).trans (hδ 0 le_rfl zero_le_one)
  have hset : ∀ k, MeasurableSet {x | clus x k n = true} := fun k => hclus (Set.toFinite {z : Clus K N | z k n = true}).measurableSet
  have hval : ∀ k, Measurable fun x => (cont x).2.1 k f t := fun k =>
    (measurable_pi_apply t).comp ((measurable_pi_apply f).comp ((measurable_pi_apply k).comp (measurable_fst.comp (measurable_snd.comp hcont))))
  have hφ : Measurable fun x => ∑ k, if clus x k n = true then (cont x).2.1 k f t else 0 :=
    Finset.measurable_fun_sum _ fun k _ => Measurable.ite (hset k) (hval k) measurable_const
  have hψ : Measurable fun x => ∑ k, if clus x k n = true then (o.rounded ((cont x).2.1 k f t)).toReal else 0 :=
    Finset.measurable_fun_sum _ fun k _ => Measurable.ite (hset k) (hrd.comp (hval k)) measurable_const
  refine means_converge hpos hG hR hstart hs havg ho hK hN snap h0 h1 hφ (fun x hx => ?_) hψ hδ0 (fun x hx => ?_)
    (fun r => r.meanEffectAt K n f t)
    (fun σ hσ b l => loaded_effect ho.fits o.contrib _ snap clus cont hsnap σ hσ b l n f t ht) ε hε
  · rcases at_most_one (hdis x hx) n (fun k => (cont x).2.1 k f t) with h | ⟨k, h, -⟩
    · simp only [h]
      exact ⟨le_rfl, zero_le_one⟩
    · simp only [h]
      exact hmem x hx k f t
  · rw [← Finset.sum_sub_distrib]
    have e : ∀ k, ((if clus x k n = true then (o.rounded ((cont x).2.1 k f t)).toReal else 0) - if clus x k n = true then (cont x).2.1 k f t else 0) =
        if clus x k n = true then (o.rounded ((cont x).2.1 k f t)).toReal - (cont x).2.1 k f t else 0 := fun k => by split <;> simp
    simp only [e]
    rcases at_most_one (hdis x hx) n (fun k => (o.rounded ((cont x).2.1 k f t)).toReal - (cont x).2.1 k f t) with h | ⟨k, h, -⟩
    · rw [h, abs_zero]
      exact hδ0
    · rw [h]
      exact hδ _ (hmem x hx k f t).1 (hmem x hx k f t).2

end Abstract
end SBayes.Meas

namespace SBayes.Kernel
open SBayes.Lik SBayes.Clusters SBayes.MH SBayes.Effects SBayes.Posterior SBayes.Draws SBayes.Meas SBayes.MCMC SBayes.Prior MeasureTheory
open SBayes.Init
open SBayes.Log (Output Shows Unlabelled Snapshot)
open Filter Topology
open scoped BigOperators ENNReal

variable {K N F S M : ℕ} {nG : Fin M → ℕ} {m : Setup K N F S M nG}

section Source
variable (hm : WellPosed m) (hs : m.cfg.sampleSource = true) (hN : K * m.cl.minSize < N)
    (hadj : ∀ i j, m.cl.adj i j = m.cl.adj j i)
    (cfg : OpConfig) (ops : List (OpKind M × ℝ)) (hops : getOperators true M cfg = .ok ops) (hpos : ∀ o ∈ ops, 0 < o.2)
    (sz nChains warmSteps : ℕ) (hsz : 1 ≤ sz) (hlo : m.cl.minSize ≤ sz) (hhi : sz ≤ m.cl.maxSize) (hchains : 0 < nChains)
    (garbage : Fin N × Fin F → Fin (M + 1)) (rnd : Fin nChains → ℕ → ℕ) (rnd' : ℕ → ℕ) (blank : Fin nChains → State K N F S M nG)
    (hrnd : ∀ c, (initialClusters (m := 0) m.cl.adj (rnd c) sz (fun k => k.elim0) : Option (Clus K N)).isSome)
    (s : ℕ) (hs0 : 0 < s)
    (o : Output) (ho : o.Good F M nG) (snap : ℕ → State K N F S M nG → Snapshot) (hsnap : ∀ i x, Shows x.1.1 x.2 (snap i x))
    (burnIn : ℝ) (h0 : 0 ≤ burnIn) (h1 : burnIn < 1)

include hm hs hN hadj hops hpos hsz hlo hhi hchains hrnd hs0 in
theorem source_parts : ∃ κ : ProbabilityTheory.Kernel (State K N F S M nG) (State K N F S M nG), ProbabilityTheory.IsMarkovKernel κ ∧
    RepOn (Live m) (chainStep (post m) (propose m) (normalizeOperatorWeights ops)) κ ∧
    Lands (Live m) (Law.bind (warmUp (post m) (fun c => initialSample m sz garbage none (rnd c))
      (chainStep (post m) (propose m) (normalizeOperatorWeights ops)) warmSteps blank) fun x => initialSample m sz garbage (some x) rnd') ∧
    AveragesConverge (target m Prod.fst (post m)) (Live m) (chainStep (post m) (propose m) (normalizeOperatorWeights ops)) s ∧
    target m Prod.fst (post m) ≠ 0 := by
  have hval : ∀ c, ∃ z : Clus K N, initialClusters (m := 0) m.cl.adj (rnd c) sz (fun k => k.elim0) = some z ∧
      Valid m.cl.minSize m.cl.maxSize z := by
    intro c
    obtain ⟨z, hz⟩ := Option.isSome_iff_exists.mp (hrnd c)
    exact ⟨z, hz, C30_initial_clusters_valid _ hadj _ sz _ _ hsz hlo hhi z hz⟩
  obtain ⟨hne, -⟩ := getOperators_source hops
  have hd := weights_dist (fun o ho => (hpos o ho).le) (total_pos hpos hne)
  obtain ⟨κ, hκ, hR⟩ := chain_rep hm hs hd
  refine ⟨κ, hκ, hR, lands_start hm hs hR.acts hchains sz warmSteps garbage rnd rnd' blank hval, ?_, ?_⟩
  · rintro f hf ⟨B, hB⟩ x hx ε hε
    exact C88_averages_converge_from_any_start hm hs hN cfg ops hops hpos x (startsWell_of_live hx) s hs0 f hf B hB ε hε
  · intro h
    have := ((C81_posterior_is_proper hm ((hval ⟨0, hchains⟩).imp fun z h => h.2)).1 hs).1
    rw [h] at this
    exact absurd this (by simp)

include hm hs hN hadj hops hpos hsz hlo hhi hchains hrnd hs0 ho hsnap h0 h1

/-- **C93.** A whole run with sources, whose samples are written to the result files, and the files loaded after the run with a burn-in:
the fraction of the loaded samples whose clusters have a given property (one that does not depend on the labels of the clusters, such as
"this object is in some cluster" or "these two objects are in the same cluster") converges to its posterior probability. -/
theorem C93_loaded_fractions_converge (Q : Clus K N → Bool) (hQ : Unlabelled Q) (ε : ℝ) (hε : 0 < ε) :
    Tendsto (fun n : ℕ => (wholeRun m (normalizeOperatorWeights ops) sz nChains warmSteps garbage rnd rnd' blank s n).prob
      {l | ∃ r, o.results K N snap burnIn l = some r ∧
        |r.fraction Q - (target m Prod.fst (post m) {x | Q x.1.1 = true}).toReal / (target m Prod.fst (post m) Set.univ).toReal| < ε}) atTop (𝓝 1) := by
  obtain ⟨κ, hκ, hR, hl, ha, -⟩ := source_parts hm hs hN hadj cfg ops hops hpos sz nChains warmSteps hsz hlo hhi hchains garbage rnd rnd' blank hrnd s hs0
  exact fraction_converges hR hl hs0 ha ho hm.hasCluster (by omega) snap (clus := fun x => x.1.1) (measurable_fst.comp measurable_fst) hsnap h0 h1 Q hQ ε hε

/-- **C93.** The same for the weights: up to the rounding `δ` of numbers in the file, the mean of the loaded weights of a component converges to
the posterior mean. -/
theorem C93_loaded_weights_converge (hrd : Measurable fun v => (o.rounded v).toReal) (δ : ℝ)
    (hδ : ∀ v : ℝ, 0 ≤ v → v ≤ 1 → |(o.rounded v).toReal - v| ≤ δ) (f : Fin F) (i : Fin (M + 1)) (ε : ℝ) (hε : 0 < ε) :
    Tendsto (fun n : ℕ => (wholeRun m (normalizeOperatorWeights ops) sz nChains warmSteps garbage rnd rnd' blank s n).prob
      {l | ∃ r, o.results K N snap burnIn l = some r ∧
        |r.meanWeight f i - (∫ x, x.2.1 f i ∂target m Prod.fst (post m)) / (target m Prod.fst (post m) Set.univ).toReal| < δ + ε}) atTop (𝓝 1) := by
  obtain ⟨κ, hκ, hR, hl, ha, hne⟩ := source_parts hm hs hN hadj cfg ops hops hpos sz nChains warmSteps hsz hlo hhi hchains garbage rnd rnd' blank hrnd s hs0
  have hfin : IsFiniteMeasure (target m Prod.fst (post m)) :=
    ⟨target_finite hm (meas_post m) fun d hd c hc => post_le hm hs hd hc⟩
  have hφ : Measurable fun x : State K N F S M nG => x.2.1 f i :=
    (measurable_pi_apply i).comp ((measurable_pi_apply f).comp (measurable_fst.comp measurable_snd))
  exact values_converge hne (live_ae hm hs) hR hl hs0 ha ho hm.hasCluster (by omega) snap h0 h1 hφ (fun x hx => hx.2.weight_mem f i) hrd hδ
    (fun r => r.meanWeight f i) (fun σ b l => SBayes.Log.loaded_weight ho.fits o.contrib _ snap (fun x => x.1.1) (fun x => x.2) hsnap σ b l f i) ε hε

/-- **C93.** And for the effects of the confounders. -/
theorem C93_loaded_confounding_converges (hrd : Measurable fun v => (o.rounded v).toReal) (δ : ℝ)
    (hδ : ∀ v : ℝ, 0 ≤ v → v ≤ 1 → |(o.rounded v).toReal - v| ≤ δ) (i : Fin M) (g : Fin (nG i)) (f : Fin F) (t : Fin S)
    (ht : t.val < o.names.nStates f) (ε : ℝ) (hε : 0 < ε) :
    Tendsto (fun n : ℕ => (wholeRun m (normalizeOperatorWeights ops) sz nChains warmSteps garbage rnd rnd' blank s n).prob
      {l | ∃ r, o.results K N snap burnIn l = some r ∧
        |r.meanConfounding i g f t - (∫ x, x.2.2.2 i g f t ∂target m Prod.fst (post m)) / (target m Prod.fst (post m) Set.univ).toReal| < δ + ε})
      atTop (𝓝 1) := by
  obtain ⟨κ, hκ, hR, hl, ha, hne⟩ := source_parts hm hs hN hadj cfg ops hops hpos sz nChains warmSteps hsz hlo hhi hchains garbage rnd rnd' blank hrnd s hs0
  have hfin : IsFiniteMeasure (target m Prod.fst (post m)) :=
    ⟨target_finite hm (meas_post m) fun d hd c hc => post_le hm hs hd hc⟩
  have hφ : Measurable fun x : State K N F S M nG => x.2.2.2 i g f t :=
    (measurable_pi_apply t).comp ((measurable_pi_apply f).comp ((measurable_pi_apply g).comp ((measurable_pi_apply i).comp
      (measurable_snd.comp (measurable_snd.comp measurable_snd)))))
  exact values_converge hne (live_ae hm hs) hR hl hs0 ha ho hm.hasCluster (by omega) snap h0 h1 hφ (fun x hx => hx.2.conf_mem i g f t) hrd hδ
    (fun r => r.meanConfounding i g f t)
    (fun σ b l => SBayes.Log.loaded_conf ho.fits o.contrib _ snap (fun x => x.1.1) (fun x => x.2) hsnap σ b l i g f t ht) ε hε

/-- **C93.** And for the effects of the clusters, where the labels of the clusters play no role: the effect of the cluster an object is in. -/
theorem C93_loaded_cluster_effects_converge (hrd : Measurable fun v => (o.rounded v).toReal) (δ : ℝ)
    (hδ : ∀ v : ℝ, 0 ≤ v → v ≤ 1 → |(o.rounded v).toReal - v| ≤ δ) (n : Fin N) (f : Fin F) (t : Fin S)
    (ht : t.val < o.names.nStates f) (ε : ℝ) (hε : 0 < ε) :
    Tendsto (fun j : ℕ => (wholeRun m (normalizeOperatorWeights ops) sz nChains warmSteps garbage rnd rnd' blank s j).prob
      {l | ∃ r, o.results K N snap burnIn l = some r ∧ |r.meanEffectAt K n f t -
        (∫ x, (∑ k, if x.1.1 k n = true then x.2.2.1 k f t else 0) ∂target m Prod.fst (post m)) / (target m Prod.fst (post m) Set.univ).toReal| < δ + ε})
      atTop (𝓝 1) := by
  obtain ⟨κ, hκ, hR, hl, ha, hne⟩ := source_parts hm hs hN hadj cfg ops hops hpos sz nChains warmSteps hsz hlo hhi hchains garbage rnd rnd' blank hrnd s hs0
  have hfin : IsFiniteMeasure (target m Prod.fst (post m)) :=
    ⟨target_finite hm (meas_post m) fun d hd c hc => post_le hm hs hd hc⟩
  exact effects_converge hne (live_ae hm hs) hR hl hs0 ha ho hm.hasCluster (by omega) snap (clus := fun x => x.1.1) (measurable_fst.comp measurable_fst) (cont := fun x => x.2) measurable_snd
    hsnap h0 h1 (fun x hx => hx.1.1.disjoint) (fun x hx => hx.2.effect_mem) hrd hδ n f t ht ε hε

end Source

section NoSource
variable (hm : WellPosed m) (hs : m.cfg.sampleSource = false) (hf : CanMove m)
    (hadj : ∀ i j, m.cl.adj i j = m.cl.adj j i)
    (cfg : OpConfig) (ops : List (OpKind M × ℝ)) (hops : getOperators false M cfg = .ok ops) (hpos : ∀ o ∈ ops, 0 < o.2)
    (sz nChains warmSteps : ℕ) (hsz : 1 ≤ sz) (hlo : m.cl.minSize ≤ sz) (hhi : sz ≤ m.cl.maxSize) (hchains : 0 < nChains)
    (rnd : Fin nChains → ℕ → ℕ) (rnd' : ℕ → ℕ) (blank : Fin nChains → State0 K N F S M nG)
    (hrnd : ∀ c, (initialClusters (m := 0) m.cl.adj (rnd c) sz (fun k => k.elim0) : Option (Clus K N)).isSome)
    (s : ℕ) (hs0 : 0 < s)
    (o : Output) (ho : o.Good F M nG) (snap : ℕ → State0 K N F S M nG → Snapshot) (hsnap : ∀ i x, Shows x.1 x.2 (snap i x))
    (burnIn : ℝ) (h0 : 0 ≤ burnIn) (h1 : burnIn < 1)

include hm hs hf hadj hops hpos hsz hlo hhi hchains hrnd hs0 in
theorem noSource_parts : ∃ κ : ProbabilityTheory.Kernel (State0 K N F S M nG) (State0 K N F S M nG), ProbabilityTheory.IsMarkovKernel κ ∧
    RepOn (Live0 m) (chainStep (post0 m) (propose0 m) (normalizeOperatorWeights ops)) κ ∧
    Lands (Live0 m) (Law.bind (warmUp (post0 m) (fun c => initialSample0 m sz none (rnd c))
      (chainStep (post0 m) (propose0 m) (normalizeOperatorWeights ops)) warmSteps blank) fun x => initialSample0 m sz (some x) rnd') ∧
    AveragesConverge (target m id (post0 m)) (Live0 m) (chainStep (post0 m) (propose0 m) (normalizeOperatorWeights ops)) s ∧
    target m id (post0 m) ≠ 0 := by
  have hval : ∀ c, ∃ z : Clus K N, initialClusters (m := 0) m.cl.adj (rnd c) sz (fun k => k.elim0) = some z ∧
      Valid m.cl.minSize m.cl.maxSize z := by
    intro c
    obtain ⟨z, hz⟩ := Option.isSome_iff_exists.mp (hrnd c)
    exact ⟨z, hz, C30_initial_clusters_valid _ hadj _ sz _ _ hsz hlo hhi z hz⟩
  obtain ⟨hne, -⟩ := getOperators_noSource hops
  have hd := weights_dist (fun o ho => (hpos o ho).le) (total_pos hpos hne)
  obtain ⟨κ, hκ, hR⟩ := chain0_rep hm hs hf.feature hf.twoStates hd (noSource_normalized hops)
  refine ⟨κ, hκ, hR, lands_start0 hm (measurable_from_prod_countable_right (meas_post0 m)) hR.acts hchains sz warmSteps rnd rnd' blank hval, ?_, ?_⟩
  · rintro f hfm ⟨B, hB⟩ x hx ε hε
    exact C90_averages_converge_from_any_start hm hs hf cfg ops hops hpos x (startsWell0_of_live hx) s hs0 f hfm B hB ε hε
  · intro h
    have := ((C81_posterior_is_proper hm ((hval ⟨0, hchains⟩).imp fun z h => h.2)).2 hs).1
    rw [h] at this
    exact absurd this (by simp)

include hm hs hf hadj hops hpos hsz hlo hhi hchains hrnd hs0 ho hsnap h0 h1

/-- **C93.** The same without sources: the fractions of the loaded samples. -/
theorem C93_loaded_fractions_converge_no_source (Q : Clus K N → Bool) (hQ : Unlabelled Q) (ε : ℝ) (hε : 0 < ε) :
    Tendsto (fun n : ℕ => (wholeRun0 m (normalizeOperatorWeights ops) sz nChains warmSteps rnd rnd' blank s n).prob
      {l | ∃ r, o.results K N snap burnIn l = some r ∧
        |r.fraction Q - (target m id (post0 m) {x | Q x.1 = true}).toReal / (target m id (post0 m) Set.univ).toReal| < ε}) atTop (𝓝 1) := by
  obtain ⟨κ, hκ, hR, hl, ha, -⟩ := noSource_parts hm hs hf hadj cfg ops hops hpos sz nChains warmSteps hsz hlo hhi hchains rnd rnd' blank hrnd s hs0
  exact fraction_converges hR hl hs0 ha ho hm.hasCluster (by have := hf.room; omega) snap (clus := fun x => x.1) measurable_fst hsnap h0 h1 Q hQ ε hε

/-- **C93.** Without sources: the weights. -/
theorem C93_loaded_weights_converge_no_source (hrd : Measurable fun v => (o.rounded v).toReal) (δ : ℝ)
    (hδ : ∀ v : ℝ, 0 ≤ v → v ≤ 1 → |(o.rounded v).toReal - v| ≤ δ) (f : Fin F) (i : Fin (M + 1)) (ε : ℝ) (hε : 0 < ε) :
    Tendsto (fun n : ℕ => (wholeRun0 m (normalizeOperatorWeights ops) sz nChains warmSteps rnd rnd' blank s n).prob
      {l | ∃ r, o.results K N snap burnIn l = some r ∧
        |r.meanWeight f i - (∫ x, x.2.1 f i ∂target m id (post0 m)) / (target m id (post0 m) Set.univ).toReal| < δ + ε}) atTop (𝓝 1) := by
  obtain ⟨κ, hκ, hR, hl, ha, hne⟩ := noSource_parts hm hs hf hadj cfg ops hops hpos sz nChains warmSteps hsz hlo hhi hchains rnd rnd' blank hrnd s hs0
  have hfin := target0_finite hm hs
  have hφ : Measurable fun x : State0 K N F S M nG => x.2.1 f i :=
    (measurable_pi_apply i).comp ((measurable_pi_apply f).comp (measurable_fst.comp measurable_snd))
  exact values_converge hne (live0_ae hm hs) hR hl hs0 ha ho hm.hasCluster (by have := hf.room; omega) snap h0 h1 hφ (fun x hx => hx.2.weight_mem f i)
    hrd hδ (fun r => r.meanWeight f i)
    (fun σ b l => SBayes.Log.loaded_weight ho.fits o.contrib _ snap (fun x => x.1) (fun x => x.2) hsnap σ b l f i) ε hε

/-- **C93.** Without sources: the effects of the confounders. -/
theorem C93_loaded_confounding_converges_no_source (hrd : Measurable fun v => (o.rounded v).toReal) (δ : ℝ)
    (hδ : ∀ v : ℝ, 0 ≤ v → v ≤ 1 → |(o.rounded v).toReal - v| ≤ δ) (i : Fin M) (g : Fin (nG i)) (f : Fin F) (t : Fin S)
    (ht : t.val < o.names.nStates f) (ε : ℝ) (hε : 0 < ε) :
    Tendsto (fun n : ℕ => (wholeRun0 m (normalizeOperatorWeights ops) sz nChains warmSteps rnd rnd' blank s n).prob
      {l | ∃ r, o.results K N snap burnIn l = some r ∧
        |r.meanConfounding i g f t - (∫ x, x.2.2.2 i g f t ∂target m id (post0 m)) / (target m id (post0 m) Set.univ).toReal| < δ + ε})
      atTop (𝓝 1) := by
  obtain ⟨κ, hκ, hR, hl, ha, hne⟩ := noSource_parts hm hs hf hadj cfg ops hops hpos sz nChains warmSteps hsz hlo hhi hchains rnd rnd' blank hrnd s hs0
  have hfin := target0_finite hm hs
  have hφ : Measurable fun x : State0 K N F S M nG => x.2.2.2 i g f t :=
    (measurable_pi_apply t).comp ((measurable_pi_apply f).comp ((measurable_pi_apply g).comp ((measurable_pi_apply i).comp
      (measurable_snd.comp (measurable_snd.comp measurable_snd)))))
  exact values_converge hne (live0_ae hm hs) hR hl hs0 ha ho hm.hasCluster (by have := hf.room; omega) snap h0 h1 hφ (fun x hx => hx.2.conf_mem i g f t)
    hrd hδ (fun r => r.meanConfounding i g f t)
    (fun σ b l => SBayes.Log.loaded_conf ho.fits o.contrib _ snap (fun x => x.1) (fun x => x.2) hsnap σ b l i g f t ht) ε hε

/-- **C93.** Without sources: the effect of the cluster an object is in. -/
theorem C93_loaded_cluster_effects_converge_no_source (hrd : Measurable fun v => (o.rounded v).toReal) (δ : ℝ)
    (hδ : ∀ v : ℝ, 0 ≤ v → v ≤ 1 → |(o.rounded v).toReal - v| ≤ δ) (n : Fin N) (f : Fin F) (t : Fin S)
    (ht : t.val < o.names.nStates f) (ε : ℝ) (hε : 0 < ε) :
    Tendsto (fun j : ℕ => (wholeRun0 m (normalizeOperatorWeights ops) sz nChains warmSteps rnd rnd' blank s j).prob
      {l | ∃ r, o.results K N snap burnIn l = some r ∧ |r.meanEffectAt K n f t -
        (∫ x, (∑ k, if x.1 k n = true then x.2.2.1 k f t else 0) ∂target m id (post0 m)) / (target m id (post0 m) Set.univ).toReal| < δ + ε})
      atTop (𝓝 1) := by
  obtain ⟨κ, hκ, hR, hl, ha, hne⟩ := noSource_parts hm hs hf hadj cfg ops hops hpos sz nChains warmSteps hsz hlo hhi hchains rnd rnd' blank hrnd s hs0
  have hfin := target0_finite hm hs
  exact effects_converge hne (live0_ae hm hs) hR hl hs0 ha ho hm.hasCluster (by have := hf.room; omega) snap (clus := fun x => x.1) measurable_fst (cont := fun x => x.2) measurable_snd
    hsnap h0 h1 (fun x hx => hx.1.disjoint) (fun x hx => hx.2.effect_mem) hrd hδ n f t ht ε hε

end NoSource

/-! ### A run that meets the requirements -/

/-- "This object is in some cluster" and "these two objects are in the same cluster" do not depend on the labels. -/
theorem unlabelled_inSome (n : Fin N) : Unlabelled (K := K) fun z : Clus K N => (List.finRange K).any fun k => z k n := by
  intro τ z
  rw [Bool.eq_iff_iff]
  simp only [List.any_eq_true, List.mem_finRange, true_and]
  exact ⟨fun ⟨k, h⟩ => ⟨τ k, h⟩, fun ⟨k, h⟩ => ⟨τ.symm k, by simpa using h⟩⟩

theorem unlabelled_together (n n' : Fin N) : Unlabelled (K := K) fun z : Clus K N => (List.finRange K).any fun k => z k n && z k n' := by
  intro τ z
  rw [Bool.eq_iff_iff]
  simp only [List.any_eq_true, List.mem_finRange, true_and]
  exact ⟨fun ⟨k, h⟩ => ⟨τ k, h⟩, fun ⟨k, h⟩ => ⟨τ.symm k, by simpa using h⟩⟩

/-- A snapshot of a state, with other values that are not of interest here. -/
noncomputable def snapshotOf (i : ℕ) (z : Clus K N) (c : Cont K F S M nG) : Snapshot where
  step := i
  lh := 0
  prior := 0
  clusters k n := if h : k < K ∧ n < N then z ⟨k, h.1⟩ ⟨n, h.2⟩ else false
  weights f i := if h : f < F ∧ i < M + 1 then c.1 ⟨f, h.1⟩ ⟨i, h.2⟩ else 0
  clusterEffect k f s := if h : k < K ∧ f < F ∧ s < S then c.2.1 ⟨k, h.1⟩ ⟨f, h.2.1⟩ ⟨s, h.2.2⟩ else 0
  confEffect i g f s := if h : i < M then if h' : g < nG ⟨i, h⟩ ∧ f < F ∧ s < S then c.2.2 ⟨i, h⟩ ⟨g, h'.1⟩ ⟨f, h'.2.1⟩ ⟨s, h'.2.2⟩ else 0 else 0
  lh1 _ _ := 0
  prior1 _ _ := 0

theorem snapshotOf_shows (i : ℕ) (z : Clus K N) (c : Cont K F S M nG) : Shows z c (snapshotOf i z c) where
  clusters k n := by simp [snapshotOf]
  weights f i := by
    have h : f.val < F ∧ i.val < M + 1 := ⟨f.2, i.2⟩
    simp only [snapshotOf, dif_pos h]
  clusterEffect k f s := by simp [snapshotOf]
  confEffect i g f s := by simp [snapshotOf]

/-- Numbers rounded down to tenths and written as the number of tenths. -/
noncomputable def tenths : Output where
  names := ⟨[("F1".toList, ["A".toList, "B".toList, "C".toList]), ("F2".toList, ["no".toList, "yes".toList])],
    [("family".toList, ["Arawak".toList, "Tucanoan".toList])]⟩
  contrib := true
  fmt v := Nat.toDigits 10 ⌊10 * v.toReal⌋₊
  parse t := (((Nat.ofDigitChars 10 t 0 : ℕ) : ℝ) / 10 : ℝ)
  disk := []
  disk' := []

theorem tenths_good : tenths.Good 2 1 fun _ => 2 where
  good := by constructor <;> decide
  plain := by constructor <;> decide
  fits := ⟨rfl, rfl, fun i => by fin_cases i; rfl⟩
  format v := by
    constructor <;> intro h <;> have := Nat.isDigit_of_mem_toDigits (by norm_num) (by norm_num) h <;> revert this <;> decide

theorem tenths_rounded (v : ℝ) : (tenths.rounded v).toReal = (⌊10 * v⌋₊ : ℝ) / 10 := by
  unfold Output.rounded tenths
  simp [Nat.ofDigitChars_toDigits]

/-- The requirements are met by a run with two clusters and five objects, where numbers are written with one digit. -/
example : tenths.Good 2 1 (fun _ => 2) ∧ (∀ i (x : State0 2 5 2 3 1 fun _ => 2), Shows x.1 x.2 (snapshotOf i x.1 x.2)) ∧
    Measurable (fun v => (tenths.rounded v).toReal) ∧ (∀ v : ℝ, 0 ≤ v → v ≤ 1 → |(tenths.rounded v).toReal - v| ≤ 1 / 10) ∧
    (1 : Fin 3).val < tenths.names.nStates (0 : Fin 2) := by
  refine ⟨tenths_good, fun i x => snapshotOf_shows i _ _, ?_, fun v h0 h1 => ?_, by decide⟩
  · simp only [tenths_rounded]
    have h : Measurable fun v : ℝ => ((⌊10 * v⌋₊ : ℕ) : ℝ) := measurable_from_top.comp (Nat.measurable_floor.comp (measurable_const.mul measurable_id))
    exact h.div_const _
  · rw [tenths_rounded]
    have h2 := Nat.floor_le (show (0 : ℝ) ≤ 10 * v by linarith)
    have h3 := Nat.lt_floor_add_one (10 * v)
    rw [abs_le]
    constructor <;> linarith

end SBayes.Kernel
