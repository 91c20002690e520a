import Verif.Lemmas.BurnIn
import Verif.Lemmas.WholeRun
import Verif.Props.Log
import Verif.Spec.EndToEnd
/- From the log of a run to the loaded results. -/
namespace SBayes.Log
open SBayes.Lik SBayes.Clusters SBayes.Kernel

theorem written_all (xs : List Snapshot) : written (xs.map Event.write) = (xs, !xs.isEmpty) := by
  induction xs using List.reverseRecOn with
  | nil => rfl
  | append_singleton xs x ih =>
    unfold written at ih ⊢
    rw [List.map_append, List.foldl_append, ih]
    cases xs <;> simp

theorem save_load (S : Schema) (hS : GoodNames S) (hP : PlainText S) (K N : ℕ) (hK : 0 < K)
    (hN : 0 < N) (contrib : Bool) (fmt : EReal → Str) (parse : Str → EReal)
    (hfmt : ∀ v, '\t' ∉ fmt v ∧ '\n' ∉ fmt v) (disk disk' : List Str) (burnIn : ℝ) (hb0 : 0 ≤ burnIn) (hb1 : burnIn ≤ 1)
    (xs : List Snapshot) (hxs : xs ≠ []) :
    ∃ σ : ℕ → ℕ → ℕ, (∀ t, Permutes K (σ t)) ∧ saveAndLoad S K N contrib fmt parse disk disk' burnIn xs =
      some (expectedResults S K N contrib (fun v => parse (fmt v)) ((xs.zipIdx.map (fun x => (x.1, σ x.2))).drop ⌊burnIn * xs.length⌋₊)) := by
  have hrun : ∀ ys : List Snapshot, ∃ p c, logRun S K N contrib fmt (newLogger disk true, newLogger disk' true) (ys.map Event.write) = some (p, c) := by
    intro ys
    induction ys using List.reverseRecOn with
    | nil => exact ⟨_, _, rfl⟩
    | append_singleton ys y ih =>
      obtain ⟨p, c, h⟩ := ih
      rw [List.map_append]
      exact C34_writing_never_raises S K N contrib fmt disk disk' _ y p c h
  obtain ⟨p, c, h⟩ := hrun xs
  have hw := written_all xs
  have hs := synced_run S K N contrib fmt disk disk' _ p c h
  have ho : (written (xs.map Event.write)).2 = true := by
    rw [hw]
    cases xs with
    | nil => exact absurd rfl hxs
    | cons => rfl
  have hclose : logRun S K N contrib fmt (newLogger disk true, newLogger disk' true) (xs.map Event.write ++ [Event.close]) =
      some ({ p with isOpen := false }, { c with isOpen := false }) := by
    unfold logRun at h ⊢
    rw [List.foldlM_append, h]
    show logStep S K N contrib fmt (p, c) .close >>= _ = _
    have e : logStep S K N contrib fmt (p, c) .close = some ({ p with isOpen := false }, { c with isOpen := false }) := by
      have h1 : p.isOpen = true := hs.open_p.trans ho
      have h2 : c.isOpen = true := hs.open_c.trans ho
      simp [logStep, closeLog, h1, h2]
    rw [e]
    rfl
  have hw' : (written (xs.map Event.write ++ [Event.close])).1 = xs := by
    unfold written at hw ⊢
    rw [List.foldl_append, hw]
    rfl
  obtain ⟨σ, h1, cl, h2, h3⟩ := C55_results_are_the_logged_samples S hS hP K N hK hN contrib fmt parse hfmt disk disk' _ _ _ hclose
    (by rw [hw']; exact hxs) burnIn hb0 hb1
  rw [hw'] at h3
  refine ⟨σ, h1, ?_⟩
  unfold saveAndLoad
  rw [hclose]
  simp only [h2]
  exact h3

theorem getD_map {α β : Type*} (g : α → β) (l : List α) (n : ℕ) (d : β) (h : n < l.length) : (l.map g).getD n d = g l[n] := by
  rw [List.getD_eq_getElem _ _ (by simpa using h), List.getElem_map]

theorem sum_range_eq {α : Type*} (l : List α) (φ : ℕ → ℝ) (ψ : α → ℝ) (h : ∀ (t : ℕ) (ht : t < l.length), φ t = ψ l[t]) :
    ((List.range l.length).map φ).sum = (l.map ψ).sum := by
  congr 1
  refine List.ext_getElem (by simp) fun t h1 h2 => ?_
  simp at h1 h2 ⊢
  exact h t h1

theorem countP_eq_sum {α : Type*} (Q : α → Bool) (l : List α) : ((l.countP Q : ℕ) : ℝ) = (l.map fun x => if Q x = true then (1 : ℝ) else 0).sum := by
  induction l with
  | nil => simp
  | cons x l ih =>
    rw [List.map_cons, List.sum_cons, ← ih, List.countP_cons]
    split <;> simp [add_comm]

variable {K N F S M : ℕ} {nG : Fin M → ℕ} {X : Type}

/-- The kept samples with their relabellings. -/
def keptSnaps (snap : ℕ → X → Snapshot) (σ : ℕ → ℕ → ℕ) (b : ℕ) (l : List X) : List (Snapshot × (ℕ → ℕ)) :=
  ((l.zipIdx.map fun x => snap x.2 x.1).zipIdx.map (fun x => (x.1, σ x.2))).drop b

theorem keptSnaps_length (snap : ℕ → X → Snapshot) (σ : ℕ → ℕ → ℕ) (b : ℕ) (l : List X) :
    (keptSnaps snap σ b l).length = (l.drop b).length := by
  simp [keptSnaps]

theorem keptSnaps_get (snap : ℕ → X → Snapshot) (σ : ℕ → ℕ → ℕ) (b : ℕ) (l : List X) (t : ℕ) (ht : t < (keptSnaps snap σ b l).length)
    (ht' : t < (l.drop b).length) : (keptSnaps snap σ b l)[t] = (snap (b + t) (l.drop b)[t], σ (b + t)) := by
  simp [keptSnaps]

theorem loaded_fraction (sch : Schema) (contrib : Bool) (rd : EReal → EReal) (snap : ℕ → X → Snapshot) (clus : X → Clus K N)
    (cont : X → Cont K F S M nG) (hsnap : ∀ i x, Shows (clus x) (cont x) (snap i x)) (σ : ℕ → ℕ → ℕ) (hσ : ∀ t, Permutes K (σ t)) (b : ℕ)
    (l : List X) (Q : Clus K N → Bool) (hQ : Unlabelled Q) :
    (expectedResults sch K N contrib rd (keptSnaps snap σ b l)).fraction Q =
      ((l.drop b).map fun x => if Q (clus x) = true then (1 : ℝ) else 0).sum / ((l.drop b).length : ℝ) := by
  have hc : (expectedResults sch K N contrib rd (keptSnaps snap σ b l)).count = (l.drop b).length := by
    unfold Loaded.count expectedResults
    rw [List.length_map, keptSnaps_length]
  unfold Loaded.fraction
  rw [hc, countP_eq_sum]
  congr 1
  refine sum_range_eq (l.drop b) _ _ fun t ht => ?_
  have ht' : t < (keptSnaps snap σ b l).length := by rw [keptSnaps_length]; exact ht
  obtain ⟨τ, hτ⟩ := hσ (b + t)
  have : (expectedResults sch K N contrib rd (keptSnaps snap σ b l)).clustersAt K N t = fun k => clus (l.drop b)[t] (τ k) := by
    funext k n
    unfold Loaded.clustersAt expectedResults
    dsimp only
    rw [getD_map (h := by simp), List.getElem_range]
    rw [getD_map (h := by simpa using ht')]
    rw [getD_map (h := by simp), List.getElem_range]
    rw [keptSnaps_get snap σ b l t ht' ht]
    dsimp only
    rw [hτ k]
    exact (hsnap _ _).clusters _ _
  rw [this, hQ τ]

theorem loaded_weight {sch : Schema} (hsch : Names sch F M nG) (contrib : Bool) (rd : EReal → EReal) (snap : ℕ → X → Snapshot) (clus : X → Clus K N)
    (cont : X → Cont K F S M nG) (hsnap : ∀ i x, Shows (clus x) (cont x) (snap i x)) (σ : ℕ → ℕ → ℕ) (b : ℕ)
    (l : List X) (f : Fin F) (i : Fin (M + 1)) :
    (expectedResults sch K N contrib rd (keptSnaps snap σ b l)).meanWeight f i =
      ((l.drop b).map fun x => (rd (((cont x).1 f i : ℝ) : EReal)).toReal).sum / ((l.drop b).length : ℝ) := by
  have hc : (expectedResults sch K N contrib rd (keptSnaps snap σ b l)).count = (l.drop b).length := by
    unfold Loaded.count expectedResults
    rw [List.length_map, keptSnaps_length]
  unfold Loaded.meanWeight
  rw [hc]
  congr 1
  refine sum_range_eq (l.drop b) _ _ fun t ht => ?_
  have ht' : t < (keptSnaps snap σ b l).length := by rw [keptSnaps_length]; exact ht
  unfold expectedResults
  dsimp only
  have hF := hsch.features
  have hM := hsch.confs
  rw [getD_map (h := by simpa [hF] using f.2), List.getElem_range]
  dsimp only
  rw [getD_map (h := by simpa using ht')]
  rw [getD_map (h := by simpa [hM] using i.2), List.getElem_range]
  rw [keptSnaps_get snap σ b l t ht' ht]
  dsimp only
  rw [(hsnap _ _).weights]

theorem loaded_conf {sch : Schema} (hsch : Names sch F M nG) (contrib : Bool) (rd : EReal → EReal) (snap : ℕ → X → Snapshot) (clus : X → Clus K N)
    (cont : X → Cont K F S M nG) (hsnap : ∀ i x, Shows (clus x) (cont x) (snap i x)) (σ : ℕ → ℕ → ℕ) (b : ℕ)
    (l : List X) (i : Fin M) (g : Fin (nG i)) (f : Fin F) (s : Fin S) (hst : s.val < sch.nStates f) :
    (expectedResults sch K N contrib rd (keptSnaps snap σ b l)).meanConfounding i g f s =
      ((l.drop b).map fun x => (rd (((cont x).2.2 i g f s : ℝ) : EReal)).toReal).sum / ((l.drop b).length : ℝ) := by
  have hc : (expectedResults sch K N contrib rd (keptSnaps snap σ b l)).count = (l.drop b).length := by
    unfold Loaded.count expectedResults
    rw [List.length_map, keptSnaps_length]
  unfold Loaded.meanConfounding
  rw [hc]
  congr 1
  refine sum_range_eq (l.drop b) _ _ fun t ht => ?_
  have ht' : t < (keptSnaps snap σ b l).length := by rw [keptSnaps_length]; exact ht
  unfold expectedResults
  dsimp only
  have hF := hsch.features
  have hM := hsch.confs
  have hG := hsch.groups i
  rw [getD_map (h := by simpa [hM] using i.2), List.getElem_range]
  dsimp only
  rw [getD_map (h := by simpa [hG] using g.2), List.getElem_range]
  dsimp only
  rw [getD_map (h := by simpa [hF] using f.2), List.getElem_range]
  unfold samplesByState
  dsimp only
  rw [getD_map (h := by simpa using ht')]
  rw [getD_map (h := by simpa using hst), List.getElem_range]
  rw [keptSnaps_get snap σ b l t ht' ht]
  dsimp only
  rw [(hsnap _ _).confEffect]

theorem loaded_effect {sch : Schema} (hsch : Names sch F M nG) (contrib : Bool) (rd : EReal → EReal) (snap : ℕ → X → Snapshot) (clus : X → Clus K N)
    (cont : X → Cont K F S M nG) (hsnap : ∀ i x, Shows (clus x) (cont x) (snap i x)) (σ : ℕ → ℕ → ℕ) (hσ : ∀ t, Permutes K (σ t)) (b : ℕ)
    (l : List X) (n : Fin N) (f : Fin F) (s : Fin S) (hst : s.val < sch.nStates f) :
    (expectedResults sch K N contrib rd (keptSnaps snap σ b l)).meanEffectAt K n f s =
      ((l.drop b).map fun x => ∑ k, if clus x k n = true then (rd (((cont x).2.1 k f s : ℝ) : EReal)).toReal else 0).sum / ((l.drop b).length : ℝ) := by
  have hc : (expectedResults sch K N contrib rd (keptSnaps snap σ b l)).count = (l.drop b).length := by
    unfold Loaded.count expectedResults
    rw [List.length_map, keptSnaps_length]
  unfold Loaded.meanEffectAt
  rw [hc]
  congr 1
  refine sum_range_eq (l.drop b) _ _ fun t ht => ?_
  have ht' : t < (keptSnaps snap σ b l).length := by rw [keptSnaps_length]; exact ht
  obtain ⟨τ, hτ⟩ := hσ (b + t)
  have hF := hsch.features
  refine Eq.trans ?_ (Equiv.sum_comp τ fun k => if clus (l.drop b)[t] k n = true then (rd (((cont (l.drop b)[t]).2.1 k f s : ℝ) : EReal)).toReal else 0)
  refine Finset.sum_congr rfl fun k _ => ?_
  have h1 : (((expectedResults sch K N contrib rd (keptSnaps snap σ b l)).clusters.getD k []).getD t []).getD n false = clus (l.drop b)[t] (τ k) n := by
    unfold expectedResults
    dsimp only
    rw [getD_map (h := by simp), List.getElem_range]
    rw [getD_map (h := by simpa using ht')]
    rw [getD_map (h := by simp), List.getElem_range]
    rw [keptSnaps_get snap σ b l t ht' ht]
    dsimp only
    rw [hτ k]
    exact (hsnap _ _).clusters _ _
  have h2 : ((((expectedResults sch K N contrib rd (keptSnaps snap σ b l)).areal.getD k ([], [])).2.getD f ([], [])).2.getD t []).getD s 0 =
      rd (((cont (l.drop b)[t]).2.1 (τ k) f s : ℝ) : EReal) := by
    unfold expectedResults
    dsimp only
    rw [getD_map (h := by simp), List.getElem_range]
    dsimp only
    rw [getD_map (h := by simp [hF]), List.getElem_range]
    unfold samplesByState
    dsimp only
    rw [getD_map (h := by simpa using ht')]
    rw [getD_map (h := by simpa using hst), List.getElem_range]
    rw [keptSnaps_get snap σ b l t ht' ht]
    dsimp only
    rw [hτ k, (hsnap _ _).clusterEffect]
  rw [h1, h2]

end SBayes.Log

namespace SBayes.Meas
set_option linter.unusedSectionVars false
open SBayes.MH SBayes.Kernel MeasureTheory Filter Topology
open scoped BigOperators ENNReal

variable {X : Type} [MeasurableSpace X] {G : Set X} {κ : ProbabilityTheory.Kernel X X} [ProbabilityTheory.IsMarkovKernel κ]

theorem loop_congr_on {T : X → Law X} (hR : RepOn G T κ) (s n i : ℕ) (g g' : List X → ℝ≥0∞)
    (hg : ∀ l : List X, (∀ y ∈ l, y ∈ G) → l.length = Nat.count (fun t => (i + t) % s = 0) n → g l = g' l) :
    ∀ x ∈ G, sampleLoop T s n i x g = sampleLoop T s n i x g' := by
  induction n generalizing i g g' with
  | zero => exact fun x _ => hg [] (by simp) (by simp)
  | succ n ih =>
    intro x hx
    show T x (fun y => sampleLoop T s n (i + 1) y fun l => g (if i % s = 0 then y :: l else l)) =
      T x fun y => sampleLoop T s n (i + 1) y fun l => g' (if i % s = 0 then y :: l else l)
    refine hR.loc x hx _ _ fun y hy => ih (i + 1) _ _ (fun l hl hlen => ?_) y hy
    apply hg
    · split
      · simpa using ⟨hy, hl⟩
      · exact hl
    · rw [Nat.count_succ', Nat.add_zero]
      have e : Nat.count (fun k => (i + (k + 1)) % s = 0) n = Nat.count (fun t => (i + 1 + t) % s = 0) n := by
        congr 1
        funext k
        rw [show i + (k + 1) = i + 1 + k by omega]
      rw [e, ← hlen]
      split <;> simp

/-- A whole run, and any event that says the same as an average after the burn-in. -/
theorem whole_kept {T : X → Law X} (hR : RepOn G T κ) {start : Law X} (hstart : Lands G start)
    {s : ℕ} (hs : 0 < s) {f : X → ℝ} (hf : Measurable f) {p q : ℝ}
    (h : ∀ x ∈ G, ∀ ε > 0, Tendsto (fun n : ℕ => (sampleLoop T s n 0 x).prob {l | |(l.map f).sum / (l.length : ℝ) - p| < ε}) atTop (𝓝 1))
    {β : ℝ} (h0 : 0 ≤ β) (h1 : β < 1) {ε : ℝ} (hε : |p - q| < ε) (E : Set (List X))
    (hE : ∀ l : List X, l ≠ [] → (∀ y ∈ l, y ∈ G) → (l ∈ E ↔ |keptMean β f l - q| < ε)) :
    Tendsto (fun n : ℕ => (Law.bind start fun y => sampleLoop T s n 0 y).prob E) atTop (𝓝 1) := by
  have hev := event_kept (X := X) hf β q ε
  choose u hu1 hu2 using fun n : ℕ => loop_measurable hR s n 0 hev.ind
  have hle : ∀ n, ∀ x ∈ G, u n x ≤ 1 := fun n x hx => by rw [← hu2 n x hx]; exact loop_le_one hR s n 0 hev hx
  obtain ⟨P, hP, hP0, hPd⟩ := hstart
  have hlim : Tendsto (fun n => ∫⁻ y, min (u n y) 1 ∂P) atTop (𝓝 (∫⁻ _, 1 ∂P)) := by
    refine tendsto_lintegral_of_dominated_convergence (fun _ => 1) (fun n => (hu1 n).min measurable_const)
      (fun n => ae_of_all _ fun y => min_le_right _ _) (by simp) ((ae_in hP0).mono fun y hy => ?_)
    have hk := kept_tendsto hR hs hf hy (h y hy) h0 h1 (ε := ε - |p - q|) (by linarith)
    refine tendsto_of_tendsto_of_tendsto_of_le_of_le hk tendsto_const_nhds (fun n => ?_) (fun n => min_le_right _ _)
    show (sampleLoop T s n 0 y).prob _ ≤ min (u n y) 1
    rw [min_eq_left (hle n y hy), ← hu2 n y hy]
    refine loop_mono hR s n 0 (event_kept hf β p _).ind hev.ind (fun l => ?_) y hy
    by_cases hl : |keptMean β f l - p| < ε - |p - q|
    · have : |keptMean β f l - q| < ε := by
        calc _ = |(keptMean β f l - p) + (p - q)| := by ring_nf
          _ ≤ |keptMean β f l - p| + |p - q| := abs_add_le _ _
          _ < ε := by linarith
      rw [Set.indicator_of_mem (show l ∈ {l : List X | |keptMean β f l - p| < ε - |p - q|} from hl),
        Set.indicator_of_mem (show l ∈ {l : List X | |keptMean β f l - q| < ε} from this)]
    · rw [Set.indicator_of_notMem (show l ∉ {l : List X | |keptMean β f l - p| < ε - |p - q|} from hl)]
      exact bot_le
  rw [lintegral_one, measure_univ] at hlim
  refine hlim.congr' ?_
  filter_upwards [eventually_gt_atTop 0] with n hn
  refine (hPd _ _ ((hu1 n).min measurable_const) fun y hy => ?_).symm
  rw [min_eq_left (hle n y hy), ← hu2 n y hy]
  refine loop_congr_on hR s n 0 _ _ (fun l hl hlen => ?_) y hy
  have hne : l ≠ [] := by
    rintro rfl
    simp only [Nat.zero_add, List.length_nil] at hlen
    have := (count_bounds hs n).1
    rw [← hlen] at this
    omega
  by_cases hl' : |keptMean β f l - q| < ε
  · rw [Set.indicator_of_mem ((hE l hne hl).mpr hl'), Set.indicator_of_mem (show l ∈ {l : List X | |keptMean β f l - q| < ε} from hl')]
  · rw [Set.indicator_of_notMem (fun h => hl' ((hE l hne hl).mp h)), Set.indicator_of_notMem (show l ∉ {l : List X | |keptMean β f l - q| < ε} from hl')]

end SBayes.Meas
