import Verif.Lemmas.PairBound
import Verif.Lemmas.RowHarris
import Verif.Lemmas.ContRows
import Verif.Lemmas.ErgoAlter
import Verif.Lemmas.ChainOn
/- The sampler without sources as a chain that moves clusters or two entries of a row, on all states of positive posterior. -/
namespace SBayes.Meas
set_option linter.unusedSectionVars false
open SBayes.Lik SBayes.Clusters SBayes.MH SBayes.Source SBayes.Effects SBayes.Posterior SBayes.Draws SBayes.Kernel SBayes.MCMC MeasureTheory
open Filter Topology
open scoped BigOperators ENNReal

variable {K N F S M : ℕ} {nG : Fin M → ℕ} {m : Setup K N F S M nG}

/-- What an operator moves. -/
noncomputable def leafOf (app : Fin F → Fin S → Bool) (hst : ∀ f, ∃ s, app f s = true) : OpKind M → Rand (Leaf (contRows (K := K) (M := M) (nG := nG) app hst))
  | .cluster _ => MH.ret none
  | .source => MH.ret none
  | .weights => MH.bind (uniform (List.finRange F)) fun f => MH.bind (samplePair (List.finRange (M + 1))) fun ij => MH.ret (some ⟨.inl f, ij⟩)
  | .clusterEffect => MH.bind (uniform (List.finRange K)) fun k => MH.bind (uniform (List.finRange F)) fun f =>
      MH.bind (samplePair ((List.finRange S).filter fun s => app f s)) fun ij => MH.ret (some ⟨.inr (.inl (k, f)), ij⟩)
  | .confounding a => MH.bind (uniform (List.finRange (nG a))) fun g => MH.bind (uniform (List.finRange F)) fun f =>
      MH.bind (samplePair ((List.finRange S).filter fun s => app f s)) fun ij => MH.ret (some ⟨.inr (.inr (⟨a, g⟩, f)), ij⟩)

/-- The step that moves it. -/
noncomputable def leafStep (m : Setup K N F S M nG) (hst : ∀ f, ∃ s, m.cfg.app f s = true) :
    Leaf (contRows (K := K) (M := M) (nG := nG) m.cfg.app hst) → Clus K N × Cont K F S M nG → Law (Clus K N × Cont K F S M nG)
  | none => mhStep (post0 m) (propose0 m (.cluster false))
  | some ⟨b, ij⟩ => pairMove m (rowLen b) (rowPrec b) ij

/-- The probability to stay. -/
noncomputable def leafStay (m : Setup K N F S M nG) (hst : ∀ f, ∃ s, m.cfg.app f s = true) :
    Leaf (contRows (K := K) (M := M) (nG := nG) m.cfg.app hst) → Clus K N → Cont K F S M nG → ℝ≥0∞
  | none => fun _ _ => 1
  | some ⟨b, ij⟩ => pairStay m b ij.1 ij.2

theorem leafOf_dist (hm : WellPosed m) (hF : 0 < F) (h2 : ∀ f, ∃ s s', s ≠ s' ∧ m.cfg.app f s = true ∧ m.cfg.app f s' = true) (op : OpKind M) :
    IsDist (leafOf (K := K) (nG := nG) m.cfg.app hm.hasState op) := by
  unfold leafOf
  cases op with
  | cluster v => exact isDist_ret _
  | source => exact isDist_ret _
  | weights =>
    refine isDist_bind (uniform_fin_dist hF) fun f _ => ?_
    refine isDist_bind (pair_weights hm.hasConfounder) fun ij _ => ?_
    exact isDist_ret _
  | clusterEffect =>
    refine isDist_bind (uniform_fin_dist hm.hasCluster) fun k _ => ?_
    refine isDist_bind (uniform_fin_dist hF) fun f _ => ?_
    refine isDist_bind (pair_states h2 f.1) fun ij _ => ?_
    exact isDist_ret _
  | confounding a =>
    refine isDist_bind (uniform_fin_dist (hm.hasGroup a)) fun k _ => ?_
    refine isDist_bind (uniform_fin_dist hF) fun f _ => ?_
    refine isDist_bind (pair_states h2 f.1) fun ij _ => ?_
    exact isDist_ret _

/-- An operator draws what to move, and moves it. -/
theorem leaf_op (hm : WellPosed m) (hF : 0 < F) (h2 : ∀ f, ∃ s s', s ≠ s' ∧ m.cfg.app f s = true ∧ m.cfg.app f s' = true) {op : OpKind M}
    (hop : NoSource op) (x : Clus K N × Cont K F S M nG) (g : Clus K N × Cont K F S M nG → ℝ≥0∞) :
    mhStep (post0 m) (propose0 m op) x g = Law.ofRand (leafOf (K := K) (nG := nG) m.cfg.app hm.hasState op) fun o => leafStep m hm.hasState o x g := by
  cases op with
  | cluster v => exact (ofRand_ret _ _).symm
  | source => exact hop.elim
  | weights =>
    unfold leafOf
    rw [ofRand_bind (uniform_fin_dist hF).1]
    show (Law.ofRand (uniform (List.finRange F)) fun f => Law.ofRand (samplePair (List.finRange (M + 1))) fun ij => pairMove m (wLens f) 30 ij x g) = _
    refine congrArg (Law.ofRand _) (funext fun f => ?_)
    rw [ofRand_bind (pair_weights hm.hasConfounder).1]
    refine congrArg (Law.ofRand _) (funext fun ij => ?_)
    exact (ofRand_ret _ _).symm
  | clusterEffect =>
    unfold leafOf
    rw [ofRand_bind (uniform_fin_dist hm.hasCluster).1]
    show (Law.ofRand (uniform (List.finRange K)) fun k => Law.ofRand (uniform (List.finRange F)) fun f =>
      Law.ofRand (samplePair ((List.finRange S).filter fun s => m.cfg.app f s)) fun ij =>
        pairMove m ((eLens k).comp (Lens.pi _ f)) 20 ij x g) = _
    refine congrArg (Law.ofRand _) (funext fun k => ?_)
    rw [ofRand_bind (uniform_fin_dist hF).1]
    refine congrArg (Law.ofRand _) (funext fun f => ?_)
    rw [ofRand_bind (pair_states h2 f).1]
    refine congrArg (Law.ofRand _) (funext fun ij => ?_)
    exact (ofRand_ret _ _).symm
  | confounding a =>
    unfold leafOf
    rw [ofRand_bind (uniform_fin_dist (hm.hasGroup a)).1]
    show (Law.ofRand (uniform (List.finRange (nG a))) fun k => Law.ofRand (uniform (List.finRange F)) fun f =>
      Law.ofRand (samplePair ((List.finRange S).filter fun s => m.cfg.app f s)) fun ij =>
        pairMove m ((ceLens a k).comp (Lens.pi _ f)) 10 ij x g) = _
    refine congrArg (Law.ofRand _) (funext fun k => ?_)
    rw [ofRand_bind (uniform_fin_dist hF).1]
    refine congrArg (Law.ofRand _) (funext fun f => ?_)
    rw [ofRand_bind (pair_states h2 f).1]
    refine congrArg (Law.ofRand _) (funext fun ij => ?_)
    exact (ofRand_ret _ _).symm

/-- What the chain moves. -/
noncomputable def leafsOf (app : Fin F → Fin S → Bool) (hst : ∀ f, ∃ s, app f s = true) (ops : List (OpKind M × ℝ)) :
    Rand (Leaf (contRows (K := K) (M := M) (nG := nG) app hst)) := MH.bind ops fun op => leafOf app hst op

theorem leaf_chain (hm : WellPosed m) (hF : 0 < F) (h2 : ∀ f, ∃ s s', s ≠ s' ∧ m.cfg.app f s = true ∧ m.cfg.app f s' = true)
    {ops : List (OpKind M × ℝ)} (hd : IsDist ops) (hn : ∀ o ∈ ops, NoSource o.1) (x : Clus K N × Cont K F S M nG)
    (g : Clus K N × Cont K F S M nG → ℝ≥0∞) : chainStep (post0 m) (propose0 m) ops x g =
      Law.ofRand (leafsOf (K := K) (nG := nG) m.cfg.app hm.hasState ops) fun o => leafStep m hm.hasState o x g := by
  unfold leafsOf
  rw [ofRand_bind hd.1]
  show (Law.ofRand ops fun op => mhStep (post0 m) (propose0 m op) x g) = _
  unfold Law.ofRand
  congr 1
  refine List.map_congr_left fun o ho => ?_
  dsimp only
  rw [leaf_op hm hF h2 (hn o ho)]
  rfl

theorem mem_leafOf {hst : ∀ f, ∃ s, m.cfg.app f s = true} {op : OpKind M} {b : RIdx K F M nG} {i j : Fin (rowC S b)} {p : ℝ}
    (h : ((some ⟨b, i, j⟩ : Leaf (contRows (K := K) (M := M) (nG := nG) m.cfg.app hst)), p) ∈ leafOf m.cfg.app hst op) :
    i ∈ rowSup m.cfg.app b ∧ j ∈ rowSup m.cfg.app b ∧ i ≠ j := by
  unfold leafOf at h
  cases op with
  | cluster v => exact absurd (mem_ret h) (by simp)
  | source => exact absurd (mem_ret h) (by simp)
  | weights =>
    obtain ⟨f, -, q, hq, e1, -⟩ := mem_bind h
    obtain ⟨⟨⟨i', j'⟩, w⟩, hij, r, hr, e2, -⟩ := mem_bind hq
    have e := e1.trans (e2.trans (mem_ret hr))
    simp only [Option.some.injEq] at e
    cases e
    exact ⟨Finset.mem_univ _, Finset.mem_univ _, (samplePair_mem hij).2.2⟩
  | clusterEffect =>
    obtain ⟨k, -, q, hq, e1, -⟩ := mem_bind h
    obtain ⟨f, -, q', hq', e2, -⟩ := mem_bind hq
    obtain ⟨⟨⟨i', j'⟩, w⟩, hij, r, hr, e3, -⟩ := mem_bind hq'
    have e := e1.trans (e2.trans (e3.trans (mem_ret hr)))
    simp only [Option.some.injEq] at e
    cases e
    obtain ⟨h1, h2, h3⟩ := samplePair_mem hij
    exact ⟨mem_states.mpr (List.mem_filter.mp h1).2, mem_states.mpr (List.mem_filter.mp h2).2, h3⟩
  | confounding a =>
    obtain ⟨k, -, q, hq, e1, -⟩ := mem_bind h
    obtain ⟨f, -, q', hq', e2, -⟩ := mem_bind hq
    obtain ⟨⟨⟨i', j'⟩, w⟩, hij, r, hr, e3, -⟩ := mem_bind hq'
    have e := e1.trans (e2.trans (e3.trans (mem_ret hr)))
    simp only [Option.some.injEq] at e
    cases e
    obtain ⟨h1, h2, h3⟩ := samplePair_mem hij
    exact ⟨mem_states.mpr (List.mem_filter.mp h1).2, mem_states.mpr (List.mem_filter.mp h2).2, h3⟩

theorem bind_pos {α β : Type} {d : Rand α} {g : α → Rand β} {a : α} {b : β} (h1 : ∃ p, 0 < p ∧ (a, p) ∈ d) (h2 : ∃ p, 0 < p ∧ (b, p) ∈ g a) :
    ∃ p, 0 < p ∧ (b, p) ∈ MH.bind d g := by
  obtain ⟨p, hp, hp'⟩ := h1
  obtain ⟨q, hq, hq'⟩ := h2
  refine ⟨p * q, mul_pos hp hq, ?_⟩
  unfold MH.bind
  exact List.mem_flatMap.mpr ⟨_, hp', List.mem_map.mpr ⟨_, hq', rfl⟩⟩

theorem ret_pos {α : Type} (a : α) : ∃ p : ℝ, 0 < p ∧ (a, p) ∈ MH.ret a := ⟨1, one_pos, by simp [MH.ret]⟩

/-- All pairs can be drawn. -/
theorem leafs_all {hst : ∀ f, ∃ s, m.cfg.app f s = true} {ops : List (OpKind M × ℝ)}
    (hw : ∃ p, 0 < p ∧ (OpKind.weights, p) ∈ ops) (he : ∃ p, 0 < p ∧ (OpKind.clusterEffect, p) ∈ ops)
    (hce : ∀ a, ∃ p, 0 < p ∧ (OpKind.confounding a, p) ∈ ops) (b : RIdx K F M nG) {i j : Fin (rowC S b)}
    (hi : i ∈ rowSup m.cfg.app b) (hj : j ∈ rowSup m.cfg.app b) (hij : i ≠ j) :
    ∃ p, 0 < p ∧ ((some ⟨b, i, j⟩ : Leaf (contRows (K := K) (M := M) (nG := nG) m.cfg.app hst)), p) ∈ leafsOf m.cfg.app hst ops := by
  have hs : ∀ (f : Fin F) {i : Fin S}, i ∈ states m.cfg.app f → i ∈ (List.finRange S).filter fun s => m.cfg.app f s := fun f i h =>
    List.mem_filter.mpr ⟨List.mem_finRange i, mem_states.mp h⟩
  unfold leafsOf
  rcases b with f | ⟨k, f⟩ | ⟨⟨a, g⟩, f⟩
  · refine bind_pos hw ?_
    unfold leafOf
    refine bind_pos (mem_uniform_fin f) ?_
    refine bind_pos (mem_samplePair (List.mem_finRange i) (List.mem_finRange j) hij) ?_
    exact ret_pos _
  · refine bind_pos he ?_
    unfold leafOf
    refine bind_pos (mem_uniform_fin k) ?_
    refine bind_pos (mem_uniform_fin f) ?_
    refine bind_pos (mem_samplePair (hs f hi) (hs f hj) hij) ?_
    exact ret_pos _
  · refine bind_pos (hce a) ?_
    unfold leafOf
    refine bind_pos (mem_uniform_fin g) ?_
    refine bind_pos (mem_uniform_fin f) ?_
    refine bind_pos (mem_samplePair (hs f hi) (hs f hj) hij) ?_
    exact ret_pos _

/-- The steps of the clusters lead to clusters within the constraints. -/
theorem alter_stays {c : Cont K F S M nG} {z : Clus K N} (hz : Valid m.cl.minSize m.cl.maxSize z) {p : Clus K N × ℝ}
    (hp : p ∈ MH.step (fun z => post0 m (z, c)) (alterCluster m.cl) z) :
    Valid m.cl.minSize m.cl.maxSize p.1 := by
  unfold MH.step at hp
  obtain ⟨⟨r, w⟩, hr, q, hq, e1, -⟩ := mem_bind hp
  obtain ⟨t, -, u, hu, e2, -⟩ := mem_bind hq
  have e : p.1 = if t.1 then r.new else z := e1.trans (e2.trans (mem_ret hu))
  rcases C16_alterCluster_keeps_constraints m.cl z hz r w hr with h | h
  · rw [e, h.1, ite_self]
    exact hz
  · rw [e]
    split
    · exact h.1
    · exact hz

theorem pairChain (hm : WellPosed m) (hs : m.cfg.sampleSource = false) (hF : 0 < F)
    (h2 : ∀ f, ∃ s s', s ≠ s' ∧ m.cfg.app f s = true ∧ m.cfg.app f s' = true) {ops : List (OpKind M × ℝ)} (hd : IsDist ops)
    (hw : ∃ p, 0 < p ∧ (OpKind.weights, p) ∈ ops) (he : ∃ p, 0 < p ∧ (OpKind.clusterEffect, p) ∈ ops)
    (hce : ∀ a, ∃ p, 0 < p ∧ (OpKind.confounding a, p) ∈ ops) :
    PairChain (contRows m.cfg.app hm.hasState) (fun z : Clus K N => Valid m.cl.minSize m.cl.maxSize z) (leafsOf m.cfg.app hm.hasState ops)
      (leafStep m hm.hasState) (leafStay m hm.hasState) where
  dist := isDist_bind hd fun o _ => leafOf_dist hm hF h2 o.1
  disc z hz c hc := by
    obtain ⟨h1, h3⟩ := alterCluster_step hm hs (mem_int.mp hc) false hz
    exact ⟨_, h1, fun p hp _ => alter_stays hz hp, h3⟩
  pair b i j p hp := by
    obtain ⟨o, -, q, hq, e1, -⟩ := mem_bind hp
    obtain ⟨q1, q2⟩ := q
    have e : some ⟨b, i, j⟩ = q1 := e1
    subst e
    obtain ⟨hi, hj, hij⟩ := mem_leafOf hq
    exact pairLaw hm hs hi hj hij
  all b i hi j hj hij := leafs_all hw he hce b hi hj hij

end SBayes.Meas
