import Verif.Lemmas.LawPoint
/- Averages over the log after dropping the burn-in. -/
namespace SBayes.Meas
set_option linter.unusedSectionVars false
open SBayes.MH SBayes.Kernel MeasureTheory Filter Topology
open scoped BigOperators ENNReal

variable {X : Type} [MeasurableSpace X] {G : Set X} {κ : ProbabilityTheory.Kernel X X} [ProbabilityTheory.IsMarkovKernel κ]

/-- Functions of a list that are measurable for every length. -/
def ListMeas (g : List X → ℝ≥0∞) : Prop := ∀ n, Measurable fun ω : Fin n → X => g (List.ofFn ω)

theorem loop_rep {T : X → Law X} (hR : RepOn G T κ) (s r : ℕ) : ∀ (i : ℕ) (Y : Type) [MeasurableSpace Y] (g : Y → List X → ℝ≥0∞)
    (_ : ∀ n, Measurable fun p : Y × (Fin n → X) => g p.1 (List.ofFn p.2)),
    ∃ h : Y × X → ℝ≥0∞, Measurable h ∧ ∀ y, ∀ x ∈ G, sampleLoop T s r i x (g y) = h (y, x) := by
  induction r with
  | zero =>
    intro i Y _ g hg
    refine ⟨fun p => g p.1 [], ?_, fun y x _ => rfl⟩
    have h0 := (hg 0).comp (measurable_fst.prodMk measurable_const : Measurable fun p : Y × X => (p.1, (Fin.elim0 : Fin 0 → X)))
    have e : ((fun p : Y × (Fin 0 → X) => g p.1 (List.ofFn p.2)) ∘ fun p : Y × X => (p.1, (Fin.elim0 : Fin 0 → X))) = fun p => g p.1 [] := by
      funext p
      simp
    rwa [e] at h0
  | succ r ih =>
    intro i Y _ g hg
    obtain ⟨h', hm', he'⟩ := ih (i + 1) (Y × X) (fun q l => g q.1 (if i % s = 0 then q.2 :: l else l)) (fun n => by
      by_cases h0 : i % s = 0
      · have hcons : Measurable fun p : (Y × X) × (Fin n → X) => (p.1.1, (Fin.cons p.1.2 p.2 : Fin (n + 1) → X)) := by
          refine (measurable_fst.comp measurable_fst).prodMk (measurable_pi_iff.mpr fun a => ?_)
          refine Fin.cases ?_ (fun a => ?_) a
          · simp only [Fin.cons_zero]
            exact measurable_snd.comp measurable_fst
          · simp only [Fin.cons_succ]
            exact (measurable_pi_apply a).comp measurable_snd
        have := (hg (n + 1)).comp hcons
        have e : ((fun p : Y × (Fin (n + 1) → X) => g p.1 (List.ofFn p.2)) ∘ fun p : (Y × X) × (Fin n → X) =>
            (p.1.1, (Fin.cons p.1.2 p.2 : Fin (n + 1) → X))) = fun p => g p.1.1 (if i % s = 0 then p.1.2 :: List.ofFn p.2 else List.ofFn p.2) := by
          funext p
          rw [if_pos h0]
          show g p.1.1 (List.ofFn (Fin.cons p.1.2 p.2 : Fin (n + 1) → X)) = _
          rw [List.ofFn_succ]
          simp
        rwa [e] at this
      · simp only [if_neg h0]
        have hmeas : Measurable fun p : (Y × X) × (Fin n → X) => (p.1.1, p.2) := (measurable_fst.comp measurable_fst).prodMk measurable_snd
        exact (hg n).comp hmeas)
    let κ' : ProbabilityTheory.Kernel (Y × X) X := κ.comap Prod.snd measurable_snd
    have : ProbabilityTheory.IsMarkovKernel κ' := ProbabilityTheory.Kernel.IsMarkovKernel.comap κ measurable_snd
    refine ⟨fun p => ∫⁻ x', h' ((p.1, x'), x') ∂κ' p, ?_, fun y x hx => ?_⟩
    · have hf : Measurable fun q : (Y × X) × X => h' ((q.1.1, q.2), q.2) :=
        hm'.comp (((measurable_fst.comp measurable_fst).prodMk measurable_snd).prodMk measurable_snd)
      exact Measurable.lintegral_kernel_prod_right' (κ := κ') hf
    · show T x (fun x' => sampleLoop T s r (i + 1) x' fun l => g y (if i % s = 0 then x' :: l else l)) = _
      have hm2 : Measurable fun x' => h' ((y, x'), x') :=
        hm'.comp ((measurable_const.prodMk measurable_id).prodMk measurable_id)
      rw [hR.rep x hx _ (fun x' => h' ((y, x'), x')) hm2 fun x' hx' => he' (y, x') x' hx']
      rfl

theorem listMeas_step {g : List X → ℝ≥0∞} (hg : ListMeas g) (b : Bool) (n : ℕ) :
    Measurable fun p : X × (Fin n → X) => g (if b then p.1 :: List.ofFn p.2 else List.ofFn p.2) := by
  cases b with
  | true =>
    have hcons : Measurable fun p : X × (Fin n → X) => (Fin.cons p.1 p.2 : Fin (n + 1) → X) := by
      refine measurable_pi_iff.mpr fun a => ?_
      refine Fin.cases ?_ (fun a => ?_) a
      · simp only [Fin.cons_zero]
        exact measurable_fst
      · simp only [Fin.cons_succ]
        exact (measurable_pi_apply a).comp measurable_snd
    have := (hg (n + 1)).comp hcons
    have e : ((fun ω : Fin (n + 1) → X => g (List.ofFn ω)) ∘ fun p : X × (Fin n → X) => (Fin.cons p.1 p.2 : Fin (n + 1) → X)) =
        fun p => g (if true then p.1 :: List.ofFn p.2 else List.ofFn p.2) := by
      funext p
      show g (List.ofFn (Fin.cons p.1 p.2 : Fin (n + 1) → X)) = _
      rw [List.ofFn_succ]
      simp
    rwa [e] at this
  | false => exact (hg n).comp measurable_snd

theorem loop_measurable {T : X → Law X} (hR : RepOn G T κ) (s r i : ℕ) {g : List X → ℝ≥0∞} (hg : ListMeas g) :
    ∃ h : X → ℝ≥0∞, Measurable h ∧ ∀ x ∈ G, sampleLoop T s r i x g = h x := by
  obtain ⟨h, hm, he⟩ := loop_rep hR s r i Unit (fun _ => g) fun n => (hg n).comp measurable_snd
  exact ⟨fun x => h ((), x), hm.comp (measurable_const.prodMk measurable_id), fun x hx => he () x hx⟩

theorem ListMeas.cons {g : List X → ℝ≥0∞} (hg : ListMeas g) (b : Prop) [Decidable b] (y : X) : ListMeas fun l => g (if b then y :: l else l) := by
  intro n
  have := (listMeas_step hg (decide b) n).comp (measurable_const.prodMk measurable_id : Measurable fun ω : Fin n → X => (y, ω))
  simpa [Function.comp_def] using this

theorem loop_add {T : X → Law X} (hR : RepOn G T κ) (s r : ℕ) : ∀ (i : ℕ) (g g' : List X → ℝ≥0∞), ListMeas g → ListMeas g' → ∀ x ∈ G,
    sampleLoop T s r i x (fun l => g l + g' l) = sampleLoop T s r i x g + sampleLoop T s r i x g' := by
  induction r with
  | zero => exact fun i g g' _ _ x _ => rfl
  | succ r ih =>
    intro i g g' hg hg' x hx
    have key : ∀ {g : List X → ℝ≥0∞}, ListMeas g → ∃ h : X → ℝ≥0∞, Measurable h ∧
        ∀ y ∈ G, sampleLoop T s r (i + 1) y (fun l => g (if i % s = 0 then y :: l else l)) = h y := by
      intro g hg
      obtain ⟨h, hm, he⟩ := loop_rep hR s r (i + 1) X (fun y l => g (if i % s = 0 then y :: l else l)) fun n => by
        have := listMeas_step hg (decide (i % s = 0)) n
        simpa using this
      exact ⟨fun y => h (y, y), hm.comp (measurable_id.prodMk measurable_id), fun y hy => he y y hy⟩
    obtain ⟨h1, hm1, he1⟩ := key hg
    obtain ⟨h2, hm2, he2⟩ := key hg'
    show T x (fun y => sampleLoop T s r (i + 1) y fun l => g (if i % s = 0 then y :: l else l) + g' (if i % s = 0 then y :: l else l)) =
      T x (fun y => sampleLoop T s r (i + 1) y fun l => g (if i % s = 0 then y :: l else l)) +
        T x (fun y => sampleLoop T s r (i + 1) y fun l => g' (if i % s = 0 then y :: l else l))
    rw [hR.rep x hx _ h1 hm1 he1, hR.rep x hx _ h2 hm2 he2, ← lintegral_add_left hm1]
    refine hR.rep x hx _ _ (hm1.add hm2) fun y hy => ?_
    rw [ih (i + 1) _ _ (hg.cons _ y) (hg'.cons _ y) y hy, he1 y hy, he2 y hy]

theorem loop_mono {T : X → Law X} (hR : RepOn G T κ) (s r i : ℕ) {g g' : List X → ℝ≥0∞} (hg : ListMeas g) (hg' : ListMeas g')
    (h : ∀ l, g l ≤ g' l) : ∀ x ∈ G, sampleLoop T s r i x g ≤ sampleLoop T s r i x g' := by
  intro x hx
  have e : g' = fun l => g l + (g' l - g l) := funext fun l => (add_tsub_cancel_of_le (h l)).symm
  rw [e, loop_add hR s r i g _ hg (fun n => (hg' n).sub (hg n)) x hx]
  exact le_self_add

/-- An event that is measurable for every length. -/
def ListEvent (A : Set (List X)) : Prop := ∀ n, MeasurableSet {ω : Fin n → X | List.ofFn ω ∈ A}

theorem ListEvent.ind {A : Set (List X)} (hA : ListEvent A) : ListMeas (A.indicator 1) := by
  intro n
  have : (fun ω : Fin n → X => A.indicator (1 : List X → ℝ≥0∞) (List.ofFn ω)) = Set.indicator {ω | List.ofFn ω ∈ A} 1 := by
    funext ω
    by_cases h : List.ofFn ω ∈ A
    · rw [Set.indicator_of_mem h, Set.indicator_of_mem (show ω ∈ {ω : Fin n → X | List.ofFn ω ∈ A} from h)]
      rfl
    · rw [Set.indicator_of_notMem h, Set.indicator_of_notMem (show ω ∉ {ω : Fin n → X | List.ofFn ω ∈ A} from h)]
  rw [this]
  exact measurable_one.indicator (hA n)

theorem ListEvent.inter {A B : Set (List X)} (hA : ListEvent A) (hB : ListEvent B) : ListEvent (A ∩ B) := fun n => (hA n).inter (hB n)

theorem listMeas_one : ListMeas (1 : List X → ℝ≥0∞) := fun _ => measurable_const

theorem loop_le_one {T : X → Law X} (hR : RepOn G T κ) (s r i : ℕ) {A : Set (List X)} (hA : ListEvent A) {x : X} (hx : x ∈ G) :
    (sampleLoop T s r i x).prob A ≤ 1 := by
  refine (loop_mono hR s r i hA.ind listMeas_one (fun l => ?_) x hx).trans (loop_mass hR s r i x hx).le
  exact Set.indicator_le_self' (fun _ _ => bot_le) l

theorem loop_inter {T : X → Law X} (hR : RepOn G T κ) (s r i : ℕ) {A B : Set (List X)} (hA : ListEvent A) (hB : ListEvent B) {x : X} (hx : x ∈ G) :
    (sampleLoop T s r i x).prob A + (sampleLoop T s r i x).prob B ≤ 1 + (sampleLoop T s r i x).prob (A ∩ B) := by
  unfold Law.prob
  rw [← loop_mass hR s r i x hx, ← loop_add hR s r i _ _ hA.ind hB.ind x hx, ← loop_add hR s r i _ _ listMeas_one (hA.inter hB).ind x hx]
  refine loop_mono hR s r i (fun n => (hA.ind n).add (hB.ind n)) (fun n => (listMeas_one n).add ((hA.inter hB).ind n)) (fun l => ?_) x hx
  by_cases h1 : l ∈ A
  · by_cases h2 : l ∈ B
    · rw [Set.indicator_of_mem h1, Set.indicator_of_mem h2, Set.indicator_of_mem (show l ∈ A ∩ B from ⟨h1, h2⟩)]
    · rw [Set.indicator_of_mem h1, Set.indicator_of_notMem h2, Set.indicator_of_notMem (show l ∉ A ∩ B from fun h => h2 h.2)]
  · rw [Set.indicator_of_notMem h1, Set.indicator_of_notMem (show l ∉ A ∩ B from fun h => h1 h.1), zero_add, add_zero]
    exact Set.indicator_le_self' (fun _ _ => bot_le) l

theorem tendsto_inter {a b c : ℕ → ℝ≥0∞} (ha : Tendsto a atTop (𝓝 1)) (hb : Tendsto b atTop (𝓝 1)) (h : ∀ᶠ n in atTop, a n + b n ≤ 1 + c n)
    (hc : ∀ᶠ n in atTop, c n ≤ 1) : Tendsto c atTop (𝓝 1) := by
  have h1 : Tendsto (fun n => a n + b n - 1) atTop (𝓝 (1 + 1 - 1)) :=
    ENNReal.Tendsto.sub (ha.add hb) tendsto_const_nhds (Or.inr ENNReal.one_ne_top)
  rw [ENNReal.add_sub_cancel_right ENNReal.one_ne_top] at h1
  refine tendsto_of_tendsto_of_tendsto_of_le_of_le' h1 tendsto_const_nhds ?_ hc
  filter_upwards [h] with n hn
  exact tsub_le_iff_left.mpr hn

/-- The first samples of a run are a run. -/
theorem loop_take {T : X → Law X} (hR : RepOn G T κ) (s n r i : ℕ) (g : List X → ℝ≥0∞) : ∀ x ∈ G,
    sampleLoop T s (n + r) i x (fun l => g (l.take (Nat.count (fun t => (i + t) % s = 0) n))) = sampleLoop T s n i x g := by
  induction n generalizing i g with
  | zero =>
    intro x hx
    simp only [Nat.count_zero, List.take_zero]
    rw [Nat.zero_add]
    show _ = g []
    have : ∀ (r i : ℕ), ∀ x ∈ G, sampleLoop T s r i x (fun _ => g []) = g [] := by
      intro r
      induction r with
      | zero => exact fun i x _ => rfl
      | succ r ih =>
        intro i x hx
        have := hR.rep x hx (fun y => sampleLoop T s r (i + 1) y fun _ => g []) (fun _ => g []) measurable_const fun y hy => ih (i + 1) y hy
        show T x (fun y => sampleLoop T s r (i + 1) y fun _ => g []) = g []
        rw [this, lintegral_const, measure_univ, mul_one]
    exact this r i x hx
  | succ n ih =>
    intro x hx
    rw [show n + 1 + r = (n + r) + 1 by omega]
    have e : Nat.count (fun k => (i + (k + 1)) % s = 0) n = Nat.count (fun t => (i + 1 + t) % s = 0) n := by
      congr 1
      funext k
      rw [show i + (k + 1) = i + 1 + k by omega]
    show T x (fun y => sampleLoop T s (n + r) (i + 1) y fun l =>
        g ((if i % s = 0 then y :: l else l).take (Nat.count (fun t => (i + t) % s = 0) (n + 1)))) =
      T x fun y => sampleLoop T s n (i + 1) y fun l => g (if i % s = 0 then y :: l else l)
    refine hR.loc x hx _ _ fun y hy => ?_
    rw [← ih (i + 1) (fun l => g (if i % s = 0 then y :: l else l)) y hy]
    congr 1
    funext l
    rw [Nat.count_succ', Nat.add_zero, e]
    by_cases h0 : i % s = 0
    · simp [h0]
    · simp [h0]

theorem count_bounds {s : ℕ} (hs : 0 < s) (n : ℕ) :
    n ≤ Nat.count (fun t => t % s = 0) n * s ∧ Nat.count (fun t => t % s = 0) n * s < n + s := by
  induction n with
  | zero => simpa using hs
  | succ n ih =>
    obtain ⟨h1, h2⟩ := ih
    rw [Nat.count_succ]
    set c := Nat.count (fun t => t % s = 0) n
    by_cases h0 : n % s = 0
    · rw [if_pos h0]
      obtain ⟨k, hk⟩ := Nat.dvd_of_mod_eq_zero h0
      have hck : c = k := by
        have h3 : k * s ≤ c * s := by rw [Nat.mul_comm k s, ← hk]; exact h1
        have h4 : c * s < (k + 1) * s := by rw [Nat.add_mul, Nat.mul_comm k s, ← hk]; omega
        have := Nat.le_of_mul_le_mul_right h3 hs
        have := Nat.lt_of_mul_lt_mul_right h4
        omega
      rw [Nat.add_mul, hck, Nat.mul_comm k s, ← hk]
      omega
    · simp only [if_neg h0, Nat.add_zero]
      have : c * s ≠ n := fun h => h0 (by rw [← h]; exact Nat.mul_mod_left c s)
      omega

theorem count_mul {s : ℕ} (hs : 0 < s) (b : ℕ) : Nat.count (fun t => t % s = 0) (b * s) = b := by
  obtain ⟨h1, h2⟩ := count_bounds hs (b * s)
  have h3 := Nat.le_of_mul_le_mul_right h1 hs
  have h4 : Nat.count (fun t => t % s = 0) (b * s) * s < (b + 1) * s := by rw [Nat.add_mul, Nat.one_mul]; exact h2
  have := Nat.lt_of_mul_lt_mul_right h4
  omega

theorem sum_take_meas {f : X → ℝ} (hf : Measurable f) (b n : ℕ) : Measurable fun ω : Fin n → X => (((List.ofFn ω).take b).map f).sum := by
  induction n generalizing b with
  | zero => simp
  | succ n ih =>
    cases b with
    | zero => simp
    | succ b =>
      simp only [List.ofFn_succ, List.take_succ_cons, List.map_cons, List.sum_cons]
      have h1 : Measurable fun ω : Fin (n + 1) → X => fun i : Fin n => ω i.succ :=
        measurable_pi_iff.mpr fun i => measurable_pi_apply _
      exact (hf.comp (measurable_pi_apply 0)).add ((ih b).comp h1)

theorem sum_drop_meas {f : X → ℝ} (hf : Measurable f) (b n : ℕ) : Measurable fun ω : Fin n → X => (((List.ofFn ω).drop b).map f).sum := by
  have e : (fun ω : Fin n → X => (((List.ofFn ω).drop b).map f).sum) =
      fun ω => (((List.ofFn ω).take n).map f).sum - (((List.ofFn ω).take b).map f).sum := by
    funext ω
    have : (List.ofFn ω).take n = List.ofFn ω := List.take_of_length_le (by simp)
    rw [this]
    conv_rhs => enter [1]; rw [← List.take_append_drop b (List.ofFn ω), List.map_append, List.sum_append]
    ring
  rw [e]
  exact (sum_take_meas hf n n).sub (sum_take_meas hf b n)

theorem event_take {f : X → ℝ} (hf : Measurable f) (b : ℕ) (c ε : ℝ) :
    ListEvent {l : List X | |((l.take b).map f).sum / ((l.take b).length : ℝ) - c| < ε} := by
  intro n
  have h : Measurable fun ω : Fin n → X => |(((List.ofFn ω).take b).map f).sum / (((List.ofFn ω).take b).length : ℝ) - c| := by
    have e : ∀ ω : Fin n → X, ((List.ofFn ω).take b).length = min b n := fun ω => by simp
    simp only [e]
    have h1 : Measurable fun ω : Fin n → X => (((List.ofFn ω).take b).map f).sum / ((min b n : ℕ) : ℝ) - c :=
      ((sum_take_meas hf b n).div_const _).sub_const _
    exact measurable_norm.comp h1
  exact measurableSet_lt h measurable_const

theorem event_all {f : X → ℝ} (hf : Measurable f) (c ε : ℝ) :
    ListEvent {l : List X | |(l.map f).sum / (l.length : ℝ) - c| < ε} := by
  intro n
  have := event_take hf n c ε n
  have e : ∀ ω : Fin n → X, (List.ofFn ω).take n = List.ofFn ω := fun ω => List.take_of_length_le (by simp)
  simp only [Set.mem_ofPred_eq, e] at this ⊢
  exact this

theorem event_length (k : ℕ) : ListEvent {l : List X | l.length = k} := by
  intro n
  by_cases h : n = k
  · simp [h]
  · simp [h]

/-- The average after dropping a fraction `β` of the samples. -/
noncomputable def keptMean (β : ℝ) (f : X → ℝ) (l : List X) : ℝ :=
  ((l.drop ⌊β * (l.length : ℝ)⌋₊).map f).sum / ((l.drop ⌊β * (l.length : ℝ)⌋₊).length : ℝ)

theorem event_kept {f : X → ℝ} (hf : Measurable f) (β c ε : ℝ) : ListEvent {l : List X | |keptMean β f l - c| < ε} := by
  intro n
  have h : Measurable fun ω : Fin n → X => |keptMean β f (List.ofFn ω) - c| := by
    unfold keptMean
    simp only [List.length_ofFn, List.length_drop]
    have h1 : Measurable fun ω : Fin n → X => (((List.ofFn ω).drop ⌊β * (n : ℝ)⌋₊).map f).sum / ((n - ⌊β * (n : ℝ)⌋₊ : ℕ) : ℝ) - c :=
      ((sum_drop_meas hf _ n).div_const _).sub_const _
    exact measurable_norm.comp h1
  exact measurableSet_lt h measurable_const

theorem kept_close {f : X → ℝ} {β c ε : ℝ} (h0 : 0 ≤ β) (h1 : β < 1) (hε : 0 < ε) (l : List X) (hl : l ≠ [])
    (hA : |(l.map f).sum / (l.length : ℝ) - c| < ε * (1 - β) / 2)
    (hB : |((l.take ⌊β * (l.length : ℝ)⌋₊).map f).sum / ((l.take ⌊β * (l.length : ℝ)⌋₊).length : ℝ) - c| < ε * (1 - β) / 2 ∨ ⌊β * (l.length : ℝ)⌋₊ = 0) :
    |keptMean β f l - c| < ε := by
  unfold keptMean
  set b := ⌊β * (l.length : ℝ)⌋₊ with hb
  have hn : (0 : ℝ) < l.length := by
    have := List.length_pos_iff.mpr hl
    exact_mod_cast this
  have hbn : (b : ℝ) ≤ β * l.length := Nat.floor_le (mul_nonneg h0 hn.le)
  have hbl : b ≤ l.length := by
    have : (b : ℝ) ≤ l.length := hbn.trans (by nlinarith)
    exact_mod_cast this
  have hlen : ((l.take b).length : ℝ) = b := by rw [List.length_take, min_eq_left hbl]
  have hlen' : ((l.drop b).length : ℝ) = l.length - b := by rw [List.length_drop, Nat.cast_sub hbl]
  have hsum : (l.map f).sum = ((l.take b).map f).sum + ((l.drop b).map f).sum := by
    rw [← List.sum_append, ← List.map_append, List.take_append_drop]
  rw [hlen']
  rw [hlen] at hB
  have hpos : (0 : ℝ) < l.length - b := by nlinarith
  set A := (l.map f).sum
  set B := ((l.take b).map f).sum
  set D := ((l.drop b).map f).sum
  set n : ℝ := (l.length : ℝ)
  have hA' : |A - n * c| < n * (ε * (1 - β) / 2) := by
    have : A - n * c = n * (A / n - c) := by field_simp
    rw [this, abs_mul, abs_of_pos hn]
    exact mul_lt_mul_of_pos_left hA hn
  have hB' : |B - b * c| ≤ b * (ε * (1 - β) / 2) := by
    rcases hB with hB | hB
    · by_cases hb0 : b = 0
      · have : B = 0 := by simp [B, hb0]
        rw [this, hb0]
        simp
      · have hbpos : (0 : ℝ) < b := by exact_mod_cast Nat.pos_of_ne_zero hb0
        have : B - b * c = b * (B / b - c) := by field_simp
        rw [this, abs_mul, abs_of_pos hbpos]
        exact (mul_lt_mul_of_pos_left hB hbpos).le
    · have : B = 0 := by simp [B, hB]
      rw [this, hB]
      simp
  have hD : |D - (n - b) * c| < (n + b) * (ε * (1 - β) / 2) := by
    have : D - (n - b) * c = (A - n * c) - (B - b * c) := by rw [hsum]; ring
    rw [this]
    calc _ ≤ |A - n * c| + |B - b * c| := abs_sub _ _
      _ < _ := by nlinarith
  have e : D / (n - b) - c = (D - (n - b) * c) / (n - b) := by field_simp
  rw [e, abs_div, abs_of_pos hpos, div_lt_iff₀ hpos]
  refine hD.trans_le ?_
  have h2 : (n + b) * (1 - β) ≤ 2 * (n - b) := by nlinarith
  nlinarith

/-- Averages converge also after dropping the burn-in. -/
theorem kept_tendsto {T : X → Law X} (hR : RepOn G T κ) {s : ℕ} (hs : 0 < s) {f : X → ℝ} (hf : Measurable f) {p : ℝ} {x : X} (hx : x ∈ G)
    (h : ∀ ε > 0, Tendsto (fun n : ℕ => (sampleLoop T s n 0 x).prob {l | |(l.map f).sum / (l.length : ℝ) - p| < ε}) atTop (𝓝 1))
    {β : ℝ} (h0 : 0 ≤ β) (h1 : β < 1) {ε : ℝ} (hε : 0 < ε) :
    Tendsto (fun n : ℕ => (sampleLoop T s n 0 x).prob {l | |keptMean β f l - p| < ε}) atTop (𝓝 1) := by
  have hε' : 0 < ε * (1 - β) / 2 := by have : 0 < 1 - β := by linarith
                                       positivity
  set c : ℕ → ℕ := fun n => Nat.count (fun t => t % s = 0) n with hc
  have hcn : ∀ n, n ≤ c n * s ∧ c n * s < n + s := fun n => count_bounds hs n
  have hctop : Tendsto c atTop atTop := by
    refine tendsto_atTop.mpr fun a => ?_
    filter_upwards [eventually_ge_atTop (a * s)] with n hn
    exact Nat.le_of_mul_le_mul_right (hn.trans (hcn n).1) hs
  let b : ℕ → ℕ := fun n => ⌊β * (c n : ℝ)⌋₊
  -- the samples that are dropped
  have hB : Tendsto (fun n => (sampleLoop T s n 0 x).prob {l | |((l.take (b n)).map f).sum / ((l.take (b n)).length : ℝ) - p| < ε * (1 - β) / 2 ∨ b n = 0})
      atTop (𝓝 1) := by
    rcases h0.eq_or_lt with hβ | hβ
    · have : ∀ n, b n = 0 := fun n => by simp [b, ← hβ]
      simp only [this, or_true]
      refine tendsto_const_nhds.congr fun n => ?_
      rw [← loop_mass hR s n 0 x hx]
      unfold Law.prob
      congr 1
      funext l
      rw [Set.indicator_of_mem (show l ∈ {_l : List X | True} from trivial)]
    · have hbtop : Tendsto b atTop atTop := by
        refine tendsto_nat_floor_atTop.comp ?_
        exact (tendsto_natCast_atTop_atTop.comp hctop).const_mul_atTop hβ
      have hlim := (h _ hε').comp ((tendsto_id.atTop_mul_const' hs).comp hbtop)
      refine hlim.congr' ?_
      filter_upwards [hctop.eventually_gt_atTop 0, hbtop.eventually_gt_atTop 0] with n hn hbn
      have hle : b n * s ≤ n := by
        have h2 : b n < c n := by
          refine (Nat.floor_lt (mul_nonneg h0 (Nat.cast_nonneg _))).mpr ?_
          have : (0 : ℝ) < c n := by exact_mod_cast hn
          nlinarith
        have h3 := (hcn n).2
        have h4 : (b n + 1) * s ≤ c n * s := Nat.mul_le_mul_right s h2
        rw [Nat.add_mul] at h4
        omega
      have := loop_take hR s (b n * s) (n - b n * s) 0 ({l : List X | |(l.map f).sum / (l.length : ℝ) - p| < ε * (1 - β) / 2}.indicator 1) x hx
      simp only [Nat.zero_add] at this
      rw [count_mul hs, Nat.add_sub_cancel' hle] at this
      show (sampleLoop T s (b n * s) 0 x).prob _ = _
      unfold Law.prob
      rw [← this]
      congr 1
      funext l
      by_cases hl : |((l.take (b n)).map f).sum / ((l.take (b n)).length : ℝ) - p| < ε * (1 - β) / 2
      · rw [Set.indicator_of_mem (show l.take (b n) ∈ {l : List X | |(l.map f).sum / (l.length : ℝ) - p| < ε * (1 - β) / 2} from hl),
          Set.indicator_of_mem (show l ∈ {l : List X | |((l.take (b n)).map f).sum / ((l.take (b n)).length : ℝ) - p| < ε * (1 - β) / 2 ∨ b n = 0} from Or.inl hl)]
        rfl
      · rw [Set.indicator_of_notMem (show l.take (b n) ∉ {l : List X | |(l.map f).sum / (l.length : ℝ) - p| < ε * (1 - β) / 2} from hl),
          Set.indicator_of_notMem (show l ∉ {l : List X | |((l.take (b n)).map f).sum / ((l.take (b n)).length : ℝ) - p| < ε * (1 - β) / 2 ∨ b n = 0} from
            fun h => h.elim hl (fun h => by omega))]
  -- the number of samples
  have hC : Tendsto (fun n => (sampleLoop T s n 0 x).prob {l | l.length = c n}) atTop (𝓝 1) := by
    refine tendsto_const_nhds.congr fun n => ?_
    refine (loop_event hR s n 0 _ (fun l _ hlen => ?_) x hx).symm
    simp only [Nat.zero_add] at hlen
    exact Set.indicator_of_mem (show l ∈ {l : List X | l.length = c n} from hlen) _
  have eA := event_all hf p (ε * (1 - β) / 2)
  have eB : ∀ n, ListEvent {l : List X | |((l.take (b n)).map f).sum / ((l.take (b n)).length : ℝ) - p| < ε * (1 - β) / 2 ∨ b n = 0} := by
    intro n k
    have := event_take hf (b n) p (ε * (1 - β) / 2) k
    by_cases hb : b n = 0
    · simp [hb]
    · simpa [hb] using this
  have hAB := tendsto_inter (h _ hε') hB (Eventually.of_forall fun n => loop_inter hR s n 0 eA (eB n) hx)
    (Eventually.of_forall fun n => loop_le_one hR s n 0 (eA.inter (eB n)) hx)
  have hABC := tendsto_inter hAB hC (Eventually.of_forall fun n => loop_inter hR s n 0 (eA.inter (eB n)) (event_length (c n)) hx)
    (Eventually.of_forall fun n => loop_le_one hR s n 0 ((eA.inter (eB n)).inter (event_length (c n))) hx)
  refine tendsto_of_tendsto_of_tendsto_of_le_of_le' hABC tendsto_const_nhds ?_ (Eventually.of_forall fun n => loop_le_one hR s n 0 (event_kept hf β p ε) hx)
  filter_upwards [hctop.eventually_gt_atTop 0] with n hn
  refine loop_mono hR s n 0 ((eA.inter (eB n)).inter (event_length (c n))).ind (event_kept hf β p ε).ind (fun l => ?_) x hx
  refine Set.indicator_le_indicator_of_subset (fun l hl => ?_) (fun _ => bot_le) l
  obtain ⟨⟨hlA, hlB⟩, hlC⟩ := hl
  have hlC : l.length = c n := hlC
  refine kept_close h0 h1 hε l (fun h => by rw [h] at hlC; simp at hlC; omega) hlA ?_
  rw [hlC]
  exact hlB

end SBayes.Meas
