import Verif.Lemmas.ChainOn
import Verif.Model.WholeRun
import Verif.Props.Init
/- Whole runs. -/
namespace SBayes.Meas
set_option linter.unusedSectionVars false
open SBayes.Lik SBayes.Clusters SBayes.MH SBayes.Source SBayes.Effects SBayes.Posterior SBayes.Draws SBayes.Kernel SBayes.MCMC SBayes.Init MeasureTheory
open Filter Topology
open scoped BigOperators ENNReal ProbabilityTheory

section Abstract
variable {X Y Z : Type} [MeasurableSpace X] [MeasurableSpace Y] [MeasurableSpace Z] {G : Set X} {G' : Set Y} {G'' : Set Z}

/-- A random start in the set. -/
def Lands (G : Set X) (d : Law X) : Prop :=
  ∃ P : Measure X, IsProbabilityMeasure P ∧ P Gᶜ = 0 ∧ ∀ H g : X → ℝ≥0∞, Measurable g → (∀ y ∈ G, H y = g y) → d H = ∫⁻ y, g y ∂P

/-- A random step from one set into another. -/
def Acts (G : Set X) (G' : Set Y) (T : X → Law Y) : Prop :=
  ∃ η : ProbabilityTheory.Kernel X Y, ProbabilityTheory.IsMarkovKernel η ∧ (∀ x ∈ G, η x G'ᶜ = 0) ∧
    ∀ x ∈ G, ∀ H g : Y → ℝ≥0∞, Measurable g → (∀ y ∈ G', H y = g y) → T x H = ∫⁻ y, g y ∂η x

theorem ae_in {P : Measure X} (h : P Gᶜ = 0) : ∀ᵐ x ∂P, x ∈ G := (measure_eq_zero_iff_ae_notMem.mp h).mono fun _ hx => not_not.mp hx

theorem Lands.bind (hG' : MeasurableSet G') {d : Law X} {T : X → Law Y} (hd : Lands G d) (hT : Acts G G' T) : Lands G' (Law.bind d T) := by
  obtain ⟨P, hP, hP0, hPd⟩ := hd
  obtain ⟨η, hη, hη0, hηT⟩ := hT
  refine ⟨P.bind η, inferInstance, ?_, fun H g hg h => ?_⟩
  · rw [Measure.bind_apply hG'.compl η.measurable.aemeasurable]
    rw [lintegral_congr_ae ((ae_in hP0).mono fun x hx => hη0 x hx), lintegral_zero]
  · rw [Measure.lintegral_bind η.measurable.aemeasurable hg.aemeasurable]
    exact hPd _ _ hg.lintegral_kernel fun x hx => hηT x hx H g hg h

theorem Acts.comp (hG'' : MeasurableSet G'') {T : X → Law Y} {U : Y → Law Z} (hT : Acts G G' T) (hU : Acts G' G'' U) :
    Acts G G'' fun x => Law.bind (T x) U := by
  obtain ⟨η, hη, hη0, hηT⟩ := hT
  obtain ⟨ξ, hξ, hξ0, hξU⟩ := hU
  refine ⟨ξ.comp η, inferInstance, fun x hx => ?_, fun x hx H g hg h => ?_⟩
  · rw [ProbabilityTheory.Kernel.comp_apply' _ _ _ hG''.compl]
    rw [lintegral_congr_ae ((ae_in (hη0 x hx)).mono fun y hy => hξ0 y hy), lintegral_zero]
  · rw [ProbabilityTheory.Kernel.lintegral_comp _ _ _ hg]
    exact hηT x hx _ _ hg.lintegral_kernel fun y hy => hξU y hy H g hg h

theorem Acts.ret (hG' : MeasurableSet G') {φ : X → Y} (hφ : Measurable φ) (h : ∀ x ∈ G, φ x ∈ G') : Acts G G' fun x => Law.ret (φ x) := by
  refine ⟨ProbabilityTheory.Kernel.deterministic φ hφ, inferInstance, fun x hx => ?_, fun x hx H g hg hH => ?_⟩
  · rw [ProbabilityTheory.Kernel.deterministic_apply, Measure.dirac_apply' _ hG'.compl]
    exact Set.indicator_of_notMem (show φ x ∉ G'ᶜ from fun h' => h' (h x hx)) _
  · rw [ProbabilityTheory.Kernel.deterministic_apply, lintegral_dirac' _ hg]
    exact hH _ (h x hx)

theorem Acts.congr {T U : X → Law Y} (hT : Acts G G' T) (h : ∀ x ∈ G, U x = T x) : Acts G G' U := by
  obtain ⟨η, hη, hη0, hηT⟩ := hT
  exact ⟨η, hη, hη0, fun x hx H g hg hH => by rw [h x hx]; exact hηT x hx H g hg hH⟩

theorem Acts.run (hG : MeasurableSet G) {T : X → Law X} (hT : Acts G G T) (n : ℕ) : Acts G G (Kernel.run T n) := by
  induction n with
  | zero => exact Acts.ret hG measurable_id fun x hx => hx
  | succ n ih => exact Acts.comp hG hT ih

theorem RepOn.acts {T : X → Law X} {κ : ProbabilityTheory.Kernel X X} [hκ : ProbabilityTheory.IsMarkovKernel κ] (hR : RepOn G T κ) : Acts G G T :=
  ⟨κ, hκ, hR.stay, hR.rep⟩

theorem lands_ofRand (hG : MeasurableSet G) {l : Rand X} (hl : IsDist l) (h : ∀ p ∈ l, p.2 ≠ 0 → p.1 ∈ G) : Lands G (Law.ofRand l) := by
  have key : ∀ l : Rand X, (∀ p ∈ l, p.2 ≠ 0 → p.1 ∈ G) → ∃ P : Measure X, P Gᶜ = 0 ∧
      ∀ H g : X → ℝ≥0∞, Measurable g → (∀ y ∈ G, H y = g y) → Law.ofRand l H = ∫⁻ y, g y ∂P := by
    intro l
    induction l with
    | nil => exact fun _ => ⟨0, by simp, fun H g _ _ => by simp [Law.ofRand]⟩
    | cons p l ih =>
      intro h
      obtain ⟨P, hP0, hP⟩ := ih fun q hq => h q (List.mem_cons_of_mem _ hq)
      refine ⟨ENNReal.ofReal p.2 • Measure.dirac p.1 + P, ?_, fun H g hg hH => ?_⟩
      · rw [Measure.add_apply, hP0, add_zero, Measure.smul_apply, Measure.dirac_apply' _ hG.compl, smul_eq_mul]
        by_cases h0 : p.2 = 0
        · rw [h0, ENNReal.ofReal_zero, zero_mul]
        · rw [Set.indicator_of_notMem (show p.1 ∉ Gᶜ from fun h' => h' (h p List.mem_cons_self h0)), mul_zero]
      · rw [lintegral_add_measure, lintegral_smul_measure, lintegral_dirac' _ hg, ← hP H g hg hH]
        have e : Law.ofRand (p :: l) H = ENNReal.ofReal p.2 * H p.1 + Law.ofRand l H := by simp [Law.ofRand]
        rw [e]
        congr 1
        by_cases h0 : p.2 = 0
        · rw [h0, ENNReal.ofReal_zero, zero_mul, zero_smul]
        · rw [hH _ (h p List.mem_cons_self h0), smul_eq_mul]
  obtain ⟨P, hP0, hP⟩ := key l h
  refine ⟨P, ⟨?_⟩, hP0, hP⟩
  have := hP 1 1 measurable_one fun _ _ => rfl
  rw [ofRand_mass hl] at this
  simpa using this.symm

variable {n : ℕ}

/-- All chains in the set. -/
def AllIn (G : Set X) (n : ℕ) : Set (Fin n → X) := {x | ∀ c, x c ∈ G}

theorem allIn_meas (hG : MeasurableSet G) (n : ℕ) : MeasurableSet (AllIn G n) := by
  have : AllIn G n = ⋂ c, (fun x : Fin n → X => x c) ⁻¹' G := by ext x; simp [AllIn]
  rw [this]
  exact MeasurableSet.iInter fun c => measurable_pi_apply c hG

theorem acts_update (hG : MeasurableSet G) {T : X → Law X} (hT : Acts G G T) (c : Fin n) :
    Acts (AllIn G n) (AllIn G n) fun x => Law.bind (T (x c)) fun y => Law.ret (Function.update x c y) := by
  obtain ⟨η, hη, hη0, hηT⟩ := hT
  have hup : Measurable fun p : (Fin n → X) × X => Function.update p.1 c p.2 := by
    rw [measurable_pi_iff]
    intro c'
    by_cases h : c' = c
    · subst h
      simp only [Function.update_self]
      exact measurable_snd
    · simp only [Function.update_of_ne h]
      exact (measurable_pi_apply c').comp measurable_fst
  have hc : Measurable fun x : Fin n → X => x c := measurable_pi_apply c
  have hint : ∀ (x : Fin n → X) (g : (Fin n → X) → ℝ≥0∞), Measurable g →
      ∫⁻ y, g y ∂((ProbabilityTheory.Kernel.id ×ₖ η.comap (fun x : Fin n → X => x c) hc).map
        fun p : (Fin n → X) × X => Function.update p.1 c p.2) x = ∫⁻ y, g (Function.update x c y) ∂η (x c) := by
    intro x g hg
    have hgu : Measurable fun p : (Fin n → X) × X => g (Function.update p.1 c p.2) := hg.comp hup
    rw [ProbabilityTheory.Kernel.lintegral_map _ hup _ hg, ProbabilityTheory.Kernel.lintegral_prod _ _ _ hgu,
      ProbabilityTheory.Kernel.id_apply, lintegral_dirac' _ ?_, ProbabilityTheory.Kernel.comap_apply]
    exact Measurable.lintegral_prod_right' hgu
  refine ⟨(ProbabilityTheory.Kernel.id ×ₖ η.comap (fun x : Fin n → X => x c) hc).map fun p : (Fin n → X) × X => Function.update p.1 c p.2,
    ProbabilityTheory.Kernel.IsMarkovKernel.map _ hup, fun x hx => ?_, fun x hx H g hg hH => ?_⟩
  · have hm := (allIn_meas hG n).compl
    rw [← lintegral_indicator_one hm, hint x _ (measurable_one.indicator hm)]
    rw [← lintegral_zero (μ := η (x c))]
    refine lintegral_congr_ae ((ae_in (hη0 _ (hx c))).mono fun y hy => ?_)
    refine Set.indicator_of_notMem (show Function.update x c y ∉ (AllIn G n)ᶜ from fun h => h fun c' => ?_) _
    by_cases h' : c' = c
    · subst h'
      rw [Function.update_self]
      exact hy
    · rw [Function.update_of_ne h']
      exact hx c'
  · rw [hint x g hg]
    refine hηT (x c) (hx c) _ _ (hg.comp (hup.comp (measurable_const.prodMk measurable_id))) fun y hy => ?_
    refine hH _ fun c' => ?_
    by_cases h' : c' = c
    · subst h'
      rw [Function.update_self]
      exact hy
    · rw [Function.update_of_ne h']
      exact hx c'

theorem acts_forChains (hG : MeasurableSet G) {T : Fin n → X → Law X} (hT : ∀ c, Acts G G (T c)) (l : List (Fin n)) :
    Acts (AllIn G n) (AllIn G n) (forChains T l) := by
  induction l with
  | nil => exact Acts.ret (allIn_meas hG n) measurable_id fun x hx => hx
  | cons c l ih => exact Acts.comp (allIn_meas hG n) (acts_update hG (hT c) c) ih

/-- Chains that start from finitely many possible states. -/
theorem lands_initial (hG : MeasurableSet G) {d : Fin n → Law X} {l : Fin n → Rand X} (hd : ∀ c, d c = Law.ofRand (l c)) (hl : ∀ c, IsDist (l c))
    (h : ∀ c, ∀ p ∈ l c, p.2 ≠ 0 → p.1 ∈ G) (blank : Fin n → X) :
    Lands (AllIn G n) (forChains (fun c _ => d c) (List.finRange n) blank) := by
  have key : ∀ (cs : List (Fin n)) (x : Fin n → X), ∃ r : Rand (Fin n → X), forChains (fun c _ => d c) cs x = Law.ofRand r ∧ IsDist r ∧
      ∀ p ∈ r, p.2 ≠ 0 → ∀ c, (c ∈ cs ∨ x c ∈ G) → p.1 c ∈ G := by
    intro cs
    induction cs with
    | nil =>
      intro x
      refine ⟨MH.ret x, ?_, isDist_ret x, fun p hp _ c hc => ?_⟩
      · funext g
        exact (ofRand_ret x g).symm
      · rw [mem_ret hp]
        simpa using hc
    | cons c cs ih =>
      intro x
      choose r hr1 hr2 hr3 using fun y => ih (Function.update x c y)
      refine ⟨MH.bind (l c) r, ?_, isDist_bind (hl c) fun p _ => hr2 p.1, fun p hp hne c' hc' => ?_⟩
      · funext g
        rw [ofRand_bind (hl c).1]
        show d c (fun y => forChains (fun c _ => d c) cs (Function.update x c y) g) = _
        rw [hd c]
        congr 1
        funext y
        rw [hr1 y]
      · obtain ⟨a, ha, b, hb, h1, h2⟩ := mem_bind hp
        have ha0 : a.2 ≠ 0 := fun e => hne (by rw [h2, e, zero_mul])
        have hb0 : b.2 ≠ 0 := fun e => hne (by rw [h2, e, mul_zero])
        rw [h1]
        refine hr3 a.1 b hb hb0 c' ?_
        by_cases e : c' = c
        · subst e
          exact Or.inr (by rw [Function.update_self]; exact h c' a ha ha0)
        · rw [Function.update_of_ne e]
          rcases hc' with hc' | hc'
          · exact Or.inl ((List.mem_cons.mp hc').resolve_left e)
          · exact Or.inr hc'
  obtain ⟨r, h1, h2, h3⟩ := key (List.finRange n) blank
  rw [h1]
  exact lands_ofRand (allIn_meas hG n) h2 fun p hp hne c => h3 p hp hne c (Or.inl (List.mem_finRange c))

theorem firstBest_some (hn : 0 < n) (v : Fin n → ℝ) : ∃ c, firstBest v = some c := by
  classical
  have : Nonempty (Fin n) := ⟨⟨0, hn⟩⟩
  obtain ⟨c, hc⟩ := Finite.exists_max v
  rw [← Option.isSome_iff_exists]
  unfold firstBest
  rw [List.find?_isSome]
  exact ⟨c, List.mem_finRange c, by simpa using hc⟩

open Classical in
theorem acts_best (hG : MeasurableSet G) (hn : 0 < n) {post : X → ℝ} (hpost : Measurable post) :
    Acts (AllIn G n) G fun x : Fin n → X => match firstBest fun c => post (x c) with
      | none => fun _ => 0
      | some c => Law.ret (x c) := by
  let sel : List (Fin n) → (Fin n → X) → X := fun l x =>
    ((l.find? fun c => decide (∀ c', post (x c') ≤ post (x c))).map x).getD (x ⟨0, hn⟩)
  have hsel : ∀ l, Measurable (sel l) := by
    intro l
    induction l with
    | nil => exact measurable_pi_apply _
    | cons c l ih =>
      have e : sel (c :: l) = fun x => if ∀ c', post (x c') ≤ post (x c) then x c else sel l x := by
        funext x
        by_cases h : ∀ c', post (x c') ≤ post (x c)
        · simp only [sel, List.find?_cons, h, implies_true, decide_true, Option.map_some, Option.getD_some, if_true]
        · simp only [sel, List.find?_cons, h, decide_false, if_false]
      rw [e]
      refine Measurable.ite ?_ (measurable_pi_apply c) ih
      have : {x : Fin n → X | ∀ c', post (x c') ≤ post (x c)} = ⋂ c', {x | post (x c') ≤ post (x c)} := by ext x; simp
      rw [this]
      exact MeasurableSet.iInter fun c' => measurableSet_le (hpost.comp (measurable_pi_apply c')) (hpost.comp (measurable_pi_apply c))
  refine (Acts.ret hG (hsel (List.finRange n)) fun x hx => ?_).congr fun x _ => ?_
  · simp only [sel]
    cases (List.finRange n).find? fun c => decide (∀ c', post (x c') ≤ post (x c)) with
    | none => exact hx _
    | some c => exact hx c
  · obtain ⟨c, hc⟩ := firstBest_some hn fun c => post (x c)
    have e : sel (List.finRange n) x = x c := by
      unfold firstBest at hc
      simp only [sel]
      rw [hc]
      rfl
    rw [hc, e]

end Abstract

variable {K N F S M : ℕ} {nG : Fin M → ℕ} {m : Setup K N F S M nG}

/-! ### Initial samples -/

/-- States with proper clusters, weights and effects. -/
def Pre (m : Setup K N F S M nG) : Set (State K N F S M nG) := {x | Valid m.cl.minSize m.cl.maxSize x.1.1 ∧ Interior m.cfg.app x.2}

theorem pre_meas (m : Setup K N F S M nG) : MeasurableSet (Pre m) :=
  ((Set.to_countable {d : Disc K N F M | Valid m.cl.minSize m.cl.maxSize d.1}).measurableSet.preimage measurable_fst).inter
    (measurable_snd (interior_meas m.cfg.app))

theorem drawSources_eq (hm : WellPosed m) (hs : m.cfg.sampleSource = true) {x : State K N F S M nG} (hx : x ∈ Pre m) :
    ∃ r : Rand (State K N F S M nG), drawSources m x = Law.ofRand r ∧ IsDist r ∧ (∀ p ∈ r, p.2 ≠ 0 → p.1 ∈ Live m) ∧
      mhStep (Kernel.post m) (propose m .source) x = Law.ofRand r := by
  obtain ⟨⟨z, s⟩, c⟩ := x
  obtain ⟨d, h1, ⟨-, h2⟩, h3, h4⟩ := source_step' hm hs hx.2 hx.1 s
  have e : ∀ g : State K N F S M nG → ℝ≥0∞, Law.ofRand (MH.bind d fun t => MH.ret ((z, t), c)) g = Law.ofRand d fun t => g ((z, t), c) := by
    intro g
    rw [ofRand_bind h1.1]
    congr 1
    funext t
    rw [ofRand_ret]
  refine ⟨MH.bind d fun t => MH.ret ((z, t), c), funext fun g => ?_, isDist_bind h1 fun p _ => isDist_ret _, fun p hp hne => ?_, funext fun g => ?_⟩
  · rw [e g]
    exact h4 fun t => g ((z, t), c)
  · obtain ⟨a, ha, b, hb, e1, e2⟩ := mem_bind hp
    have ha0 : a.2 ≠ 0 := fun e => hne (by rw [e2, e, zero_mul])
    rw [e1, mem_ret hb]
    exact ⟨h2 a ha ha0, hx.2⟩
  · rw [e g]
    exact h3 g

theorem acts_drawSources (hm : WellPosed m) (hs : m.cfg.sampleSource = true) : Acts (Pre m) (Live m) (drawSources m) := by
  have hsub : Live m ⊆ Pre m := fun x hx => ⟨hx.1.1, hx.2⟩
  have hloc : ∀ x ∈ Pre m, ∀ H H' : State K N F S M nG → ℝ≥0∞, (∀ y ∈ Live m, H y = H' y) →
      mhStep (Kernel.post m) (propose m .source) x H = mhStep (Kernel.post m) (propose m .source) x H' := by
    intro x hx H H' hH
    obtain ⟨r, -, -, h2, h3⟩ := drawSources_eq hm hs hx
    rw [h3]
    exact ofRand_local (φ := fun x => x) h2 H H' hH
  have hzero : ∀ x ∈ Pre m, mhStep (Kernel.post m) (propose m .source) x ((Live m)ᶜ.indicator 1) = 0 := by
    intro x hx
    obtain ⟨r, -, -, h2, h3⟩ := drawSources_eq hm hs hx
    rw [h3]
    exact ofRand_live (φ := fun x => x) h2
  have hmass : ∀ x ∈ Pre m, mhStep (Kernel.post m) (propose m .source) x 1 = 1 := by
    intro x hx
    obtain ⟨r, -, h1, -, h3⟩ := drawSources_eq hm hs hx
    rw [h3]
    exact ofRand_mass h1
  have hmeas : ∀ x ∈ Pre m, IsMeas (mhStep (Kernel.post m) (propose m .source) x) := by
    intro x hx
    obtain ⟨r, -, -, -, h3⟩ := drawSources_eq hm hs hx
    rw [h3]
    exact isMeas_ofRand r fun x => x
  have hstay : ∀ x ∈ Pre m, mhStep (Kernel.post m) (propose m .source) x ((Pre m)ᶜ.indicator 1) = 0 := by
    intro x hx
    refine le_antisymm ?_ bot_le
    rw [← hzero x hx]
    obtain ⟨r, -, -, -, h3⟩ := drawSources_eq hm hs hx
    rw [h3]
    refine (Super.ofRand r).mono _ _ fun y => ?_
    by_cases hy : y ∈ (Pre m)ᶜ
    · rw [Set.indicator_of_mem hy, Set.indicator_of_mem (show y ∈ (Live m)ᶜ from fun h => hy (hsub h))]
    · rw [Set.indicator_of_notMem hy]
      exact bot_le
  obtain ⟨κ, hκ, hR⟩ := exists_kernel_on (T := mhStep (Kernel.post m) (propose m .source)) (pre_meas m)
    (fun g hg => (keeps_source hm hs g hg).1) hmass hmeas hstay fun x hx H H' hH => hloc x hx H H' fun y hy => hH y (hsub hy)
  refine ⟨κ, hκ, fun x hx => ?_, fun x hx H g hg hH => ?_⟩
  · have hi : Measurable ((Live m)ᶜ.indicator (1 : State K N F S M nG → ℝ≥0∞)) := measurable_one.indicator (live_meas m).compl
    have := hR.rep x hx _ _ hi fun _ _ => rfl
    rw [hzero x hx, lintegral_indicator_one (live_meas m).compl] at this
    exact this.symm
  · obtain ⟨r, h1, -, -, h3⟩ := drawSources_eq hm hs hx
    rw [h1, ← h3, hloc x hx H g hH]
    exact hR.rep x hx g g hg fun _ _ => rfl

theorem row_of_effectOn {A : Fin S → Bool} {v : Fin S → ℝ} (h : EffectOn A v) (hpos : ∀ s, A s = true → 0 < v s) :
    Row (Finset.univ.filter fun s => A s) v := by
  refine ⟨fun s => ?_, h.2.2⟩
  by_cases hs : A s = true
  · rw [if_pos (by simpa using hs)]
    exact hpos s hs
  · rw [if_neg (by simpa using hs)]
    exact h.2.1 s (by simpa using hs)

/-- What the initial sample consists of before the sources are drawn. -/
theorem initial_pre (hm : WellPosed m) {z : Clus K N} (hz : Valid m.cl.minSize m.cl.maxSize z) (garbage : Fin N × Fin F → Fin (M + 1)) :
    (((z, garbage), initialWeights none, initialClusterEffect m.d.features m.cfg.app (m := 0) (fun k => k.elim0) z,
        fun c => initialConfEffect m.d.features m.cfg.app none (m.d.confGroups c)) : State K N F S M nG) ∈ Pre m := by
  have hobs : Observable m.d.features m.cfg.app := ⟨fun n f s h => ?_, hm.hasState⟩
  · have hG : ∀ group f, Row (states m.cfg.app f) (groupEffect m.d.features m.cfg.app group f) := fun group f => by
      obtain ⟨h1, h2, -⟩ := C31_group_effect m.d.features m.cfg.app hobs group f
      exact row_of_effectOn h1 h2
    refine ⟨hz, ⟨fun f => ?_, fun k f => ?_, fun c g f => hG _ f⟩⟩
    · obtain ⟨h1, -, -⟩ := C31_initial_weights (F := F) (C := M) none fun w hw => absurd hw (by simp)
      exact ⟨fun i => by rw [if_pos (Finset.mem_univ i)]; exact (h1 f).1 i, (h1 f).2⟩
    · show Row (states m.cfg.app f) (initialClusterEffect m.d.features m.cfg.app (m := 0) (fun k => k.elim0) z k f)
      unfold initialClusterEffect
      rw [dif_neg (Nat.not_lt_zero _)]
      exact hG _ f
  · rcases hm.observed n f with h' | ⟨t, h1, h2⟩
    · exact absurd h (by simp [h' s])
    · rw [(h1 s).mp h]
      exact h2

/-- An initial sample is taken over from the warm-up, except for the sources. -/
theorem initialSample_some (x : State K N F S M nG) (hx : Interior m.cfg.app x.2) (sz : ℕ) (garbage : Fin N × Fin F → Fin (M + 1)) (rnd : ℕ → ℕ) :
    initialSample m sz garbage (some x) rnd = drawSources m ((x.1.1, garbage), x.2) := by
  have h1 : (initialClusters m.cl.adj rnd sz x.1.1 : Option (Clus K N)) = some x.1.1 := by
    unfold initialClusters
    rw [if_pos le_rfl, initLoop, dif_neg (lt_irrefl K)]
    congr 1
    funext k n
    rw [dif_pos k.2]
  have h2 : initialWeights (some x.2.1) = x.2.1 := by
    obtain ⟨-, h, -⟩ := C31_initial_weights (some x.2.1) fun w hw f c => by
      cases hw
      exact (hx.w f).pos (Finset.mem_univ c)
    exact h _ rfl fun f => (hx.w f).2
  have h3 : ∀ z : Clus K N, initialClusterEffect m.d.features m.cfg.app x.2.2.1 z = x.2.2.1 := fun z => by
    funext k
    unfold initialClusterEffect
    rw [dif_pos k.2]
  unfold initialSample
  dsimp only
  rw [h1]
  dsimp only
  rw [h2, h3]
  rfl

/-- The start of the main run. -/
theorem lands_start (hm : WellPosed m) (hs : m.cfg.sampleSource = true) {step : State K N F S M nG → Law (State K N F S M nG)}
    (hstep : Acts (Live m) (Live m) step) {n : ℕ} (hn : 0 < n) (sz w : ℕ) (garbage : Fin N × Fin F → Fin (M + 1))
    (rnd : Fin n → ℕ → ℕ) (rnd' : ℕ → ℕ) (blank : Fin n → State K N F S M nG)
    (hrnd : ∀ c, ∃ z : Clus K N, initialClusters (m := 0) m.cl.adj (rnd c) sz (fun k => k.elim0) = some z ∧ Valid m.cl.minSize m.cl.maxSize z) :
    Lands (Live m) (Law.bind (warmUp (Kernel.post m) (fun c => initialSample m sz garbage none (rnd c)) step w blank) fun x =>
      initialSample m sz garbage (some x) rnd') := by
  have hL := live_meas m
  have hinit : ∀ c, ∃ r : Rand (State K N F S M nG), initialSample m sz garbage none (rnd c) = Law.ofRand r ∧ IsDist r ∧
      ∀ p ∈ r, p.2 ≠ 0 → p.1 ∈ Live m := by
    intro c
    obtain ⟨z, hz, hv⟩ := hrnd c
    obtain ⟨r, h1, h2, h3, -⟩ := drawSources_eq hm hs (initial_pre hm hv garbage)
    refine ⟨r, ?_, h2, h3⟩
    rw [← h1]
    unfold initialSample
    dsimp only
    rw [hz]
  choose r hr1 hr2 hr3 using hinit
  have hwarm : Lands (Live m) (warmUp (Kernel.post m) (fun c => initialSample m sz garbage none (rnd c)) step w blank) := by
    unfold warmUp
    refine Lands.bind hL (lands_initial hL hr1 hr2 hr3 blank) ?_
    exact Acts.comp hL (Acts.run (allIn_meas hL n) (acts_forChains hL (fun _ => hstep) _) w) (acts_best hL hn (measurable_from_prod_countable_right (meas_post m)))
  refine Lands.bind hL hwarm ?_
  have hφ : Measurable fun x : State K N F S M nG => (((x.1.1, garbage), x.2) : State K N F S M nG) :=
    ((measurable_fst.comp measurable_fst).prodMk measurable_const).prodMk measurable_snd
  have hacts : Acts (Live m) (Live m) fun x : State K N F S M nG => Law.bind (Law.ret ((x.1.1, garbage), x.2)) (drawSources m) :=
    Acts.comp hL (Acts.ret (pre_meas m) hφ fun x hx => ⟨hx.1.1, hx.2⟩) (acts_drawSources hm hs)
  exact hacts.congr fun x hx => initialSample_some x hx.2 sz garbage rnd'

end SBayes.Meas
