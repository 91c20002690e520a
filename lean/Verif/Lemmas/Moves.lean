import Verif.Lemmas.SamplerPair
/- Random moves of a parameter, and functions that vanish almost surely after moves. -/
namespace SBayes.Meas
set_option linter.unusedSectionVars false
open MeasureTheory
open scoped BigOperators ENNReal

/-- A random move: a draw, and a new point. -/
structure Move (X : Type) [MeasurableSpace X] where
  E : Type
  inst : MeasurableSpace E
  ν : Measure E
  sf : SFinite ν
  φ : X → E → X
  meas : Measurable (Function.uncurry φ)

attribute [instance] Move.inst Move.sf

variable {X : Type} [MeasurableSpace X]

/-- The expected value after the move. -/
noncomputable def Move.op (m : Move X) (h : X → ℝ≥0∞) (x : X) : ℝ≥0∞ := ∫⁻ e, h (m.φ x e) ∂m.ν

theorem Move.op_meas (m : Move X) {h : X → ℝ≥0∞} (hh : Measurable h) : Measurable (m.op h) :=
  Measurable.lintegral_prod_right' (f := fun p : X × m.E => h (m.φ p.1 p.2)) (hh.comp m.meas)

/-- The move stays in the set. -/
def Move.Stays (m : Move X) (G : Set X) : Prop := ∀ x ∈ G, ∀ᵐ e ∂m.ν, m.φ x e ∈ G

theorem Move.op_mono {m : Move X} {G : Set X} (hG : m.Stays G) {h k : X → ℝ≥0∞} (hhk : ∀ x ∈ G, h x ≤ k x) {x : X} (hx : x ∈ G) :
    m.op h x ≤ m.op k x := lintegral_mono_ae ((hG x hx).mono fun _ he => hhk _ he)

theorem Move.op_zero {m : Move X} {G : Set X} (hG : m.Stays G) {h : X → ℝ≥0∞} (hh : ∀ x ∈ G, h x = 0) {x : X} (hx : x ∈ G) :
    m.op h x = 0 := by
  have := Move.op_mono hG (k := 0) (fun x hx => (hh x hx).le) hx
  refine le_antisymm (this.trans ?_) bot_le
  unfold Move.op
  simp

theorem Move.op_add (m : Move X) {h k : X → ℝ≥0∞} (hh : Measurable h) (x : X) : m.op (fun y => h y + k y) x = m.op h x + m.op k x :=
  lintegral_add_left (hh.comp (m.meas.comp (measurable_const.prodMk measurable_id))) _

/-- The moves may be done in any order. -/
def Comm (m n : Move X) : Prop := ∀ x d e, n.φ (m.φ x d) e = m.φ (n.φ x e) d

theorem Comm.symm {m n : Move X} (h : Comm m n) : Comm n m := fun x d e => (h x e d).symm

theorem Comm.op {m n : Move X} (h : Comm m n) {g : X → ℝ≥0∞} (hg : Measurable g) : m.op (n.op g) = n.op (m.op g) := by
  funext x
  unfold Move.op
  have hm : Measurable fun p : m.E × n.E => g (n.φ (m.φ x p.1) p.2) := by
    have h1 : Measurable fun p : m.E × n.E => m.φ x p.1 := m.meas.comp (measurable_const.prodMk measurable_fst)
    exact hg.comp (n.meas.comp (h1.prodMk measurable_snd))
  rw [lintegral_lintegral_swap hm.aemeasurable]
  simp only [h x]

/-- Several moves. -/
noncomputable def opL : List (Move X) → (X → ℝ≥0∞) → X → ℝ≥0∞
  | [], h => h
  | m :: l, h => m.op (opL l h)

theorem opL_meas (l : List (Move X)) {h : X → ℝ≥0∞} (hh : Measurable h) : Measurable (opL l h) := by
  induction l with
  | nil => exact hh
  | cons m l ih => exact m.op_meas ih

theorem opL_append (l k : List (Move X)) (h : X → ℝ≥0∞) : opL (l ++ k) h = opL l (opL k h) := by
  induction l with
  | nil => rfl
  | cons m l ih => rw [List.cons_append]; unfold opL; rw [ih]

theorem opL_mono {l : List (Move X)} {G : Set X} (hG : ∀ m ∈ l, m.Stays G) {h k : X → ℝ≥0∞} (hhk : ∀ x ∈ G, h x ≤ k x) :
    ∀ x ∈ G, opL l h x ≤ opL l k x := by
  induction l with
  | nil => exact hhk
  | cons m l ih =>
    intro x hx
    exact Move.op_mono (hG m List.mem_cons_self) (ih fun n hn => hG n (List.mem_cons_of_mem _ hn)) hx

theorem opL_zero {l : List (Move X)} {G : Set X} (hG : ∀ m ∈ l, m.Stays G) {h : X → ℝ≥0∞} (hh : ∀ x ∈ G, h x = 0) :
    ∀ x ∈ G, opL l h x = 0 := by
  induction l with
  | nil => exact hh
  | cons m l ih =>
    intro x hx
    exact Move.op_zero (hG m List.mem_cons_self) (ih fun n hn => hG n (List.mem_cons_of_mem _ hn)) hx

theorem opL_add (l : List (Move X)) {h k : X → ℝ≥0∞} (hh : Measurable h) (x : X) :
    opL l (fun y => h y + k y) x = opL l h x + opL l k x := by
  induction l generalizing x with
  | nil => rfl
  | cons m l ih =>
    show m.op (opL l fun y => h y + k y) x = m.op (opL l h) x + m.op (opL l k) x
    rw [← m.op_add (opL_meas l hh)]
    congr 1
    funext y
    exact ih y

theorem opL_sum {ι : Type} (s : Finset ι) (l : List (Move X)) {h : ι → X → ℝ≥0∞} (hh : ∀ i, Measurable (h i)) (x : X)
    (h0 : opL l (fun _ => 0) x = 0) : opL l (fun y => ∑ i ∈ s, h i y) x = ∑ i ∈ s, opL l (h i) x := by
  classical
  induction s using Finset.induction_on with
  | empty => simpa using h0
  | insert i s hi ih =>
    simp only [Finset.sum_insert hi]
    rw [opL_add l (hh i), ih]

theorem opL_const_zero (l : List (Move X)) (x : X) : opL l (fun _ => 0) x = 0 :=
  opL_zero (G := Set.univ) (fun _ _ _ _ => Filter.Eventually.of_forall fun _ => Set.mem_univ _) (fun _ _ => rfl) x (Set.mem_univ x)

theorem Comm.opL {m : Move X} {l : List (Move X)} (h : ∀ n ∈ l, Comm m n) {g : X → ℝ≥0∞} (hg : Measurable g) :
    Meas.opL l (m.op g) = m.op (Meas.opL l g) := by
  induction l with
  | nil => rfl
  | cons n l ih =>
    show n.op (Meas.opL l (m.op g)) = m.op (n.op (Meas.opL l g))
    rw [ih fun k hk => h k (List.mem_cons_of_mem _ hk), (h n List.mem_cons_self).op (opL_meas l hg)]

/-! ### Functions that vanish after moves -/

/-- The function vanishes almost surely after the moves, from everywhere in the set. -/
def Null (G : Set X) (l : List (Move X)) (h : X → ℝ≥0∞) : Prop := ∀ x ∈ G, opL l h x = 0

section Null
variable {G : Set X} {l : List (Move X)} {h k : X → ℝ≥0∞}

theorem Null.mono (hG : ∀ m ∈ l, m.Stays G) (hh : Null G l h) (hk : ∀ x ∈ G, k x ≤ h x) : Null G l k := fun x hx =>
  le_antisymm ((opL_mono hG hk x hx).trans_eq (hh x hx)) bot_le

theorem Null.add (hh : Measurable h) (h1 : Null G l h) (h2 : Null G l k) : Null G l fun x => h x + k x := fun x hx => by
  rw [opL_add l hh, h1 x hx, h2 x hx, add_zero]

theorem Null.sum {ι : Type} (s : Finset ι) {h : ι → X → ℝ≥0∞} (hh : ∀ i, Measurable (h i)) (hn : ∀ i ∈ s, Null G l (h i)) :
    Null G l fun x => ∑ i ∈ s, h i x := fun x hx => by
  rw [opL_sum s l hh x (opL_const_zero l x)]
  exact Finset.sum_eq_zero fun i hi => hn i hi x hx

/-- A move that commutes with the moves. -/
theorem Null.comm {P : Move X} (hh : Measurable h) (hn : Null G l h) (hc : ∀ m ∈ l, Comm P m) (hP : P.Stays G) : Null G l (P.op h) :=
  fun x hx => by
    rw [Comm.opL hc hh]
    exact Move.op_zero hP hn hx

/-- What a move does to functions that vanish almost surely after another move. -/
def Absorbs (G : Set X) (b P : Move X) : Prop :=
  ∀ g, Measurable g → (∀ x ∈ G, b.op g x = 0) → ∀ x ∈ G, b.op (P.op g) x = 0

/-- A move that does not commute with one of the moves. -/
theorem Null.absorb {P b : Move X} {l1 l2 : List (Move X)} (hh : Measurable h) (hn : Null G (l1 ++ b :: l2) h)
    (h1 : ∀ m ∈ l1, Comm P m ∧ Comm b m) (h2 : ∀ m ∈ l2, Comm P m) (hb : Absorbs G b P) :
    Null G (l1 ++ b :: l2) (P.op h) := by
  have e : ∀ k, Measurable k → opL (l1 ++ b :: l2) k = b.op (opL l1 (opL l2 k)) := by
    intro k hk
    rw [opL_append]
    show opL l1 (b.op (opL l2 k)) = _
    rw [Comm.opL (fun m hm => (h1 m hm).2) (opL_meas l2 hk)]
  intro x hx
  rw [e _ (P.op_meas hh), Comm.opL h2 hh, Comm.opL (fun m hm => (h1 m hm).1) (opL_meas l2 hh)]
  refine hb _ (opL_meas l1 (opL_meas l2 hh)) (fun y hy => ?_) x hx
  have := hn y hy
  rwa [e _ hh] at this

end Null

/-! ### Moves of a part of the structure -/

/-- Setting one part does not touch the other. -/
def Indep {R Q : Type} [MeasurableSpace R] [MeasurableSpace Q] (L : Lens X R) (M : Lens X Q) : Prop :=
  ∀ x v u, L.set (M.set x u) v = M.set (L.set x v) u

theorem Indep.symm {R Q : Type} [MeasurableSpace R] [MeasurableSpace Q] {L : Lens X R} {M : Lens X Q} (h : Indep L M) : Indep M L :=
  fun x v u => (h x u v).symm

theorem Indep.get {R Q : Type} [MeasurableSpace R] [MeasurableSpace Q] {L : Lens X R} {M : Lens X Q} (h : Indep L M) (x : X) (u : Q) :
    L.get (M.set x u) = L.get x := by
  have := h x (L.get x) u
  rw [L.set_get] at this
  rw [← this, L.get_set]

/-- A move of one part. -/
def Lens.move {R E : Type} [MeasurableSpace R] [i : MeasurableSpace E] (L : Lens X R) (ν : Measure E) [s : SFinite ν] (step : R → E → R)
    (hs : Measurable (Function.uncurry step)) : Move X where
  E := E
  inst := i
  ν := ν
  sf := s
  φ x e := L.set x (step (L.get x) e)
  meas := by
    have h1 : Measurable fun p : X × E => step (L.get p.1) p.2 :=
      hs.comp (Measurable.prodMk (L.mget.comp measurable_fst) measurable_snd)
    exact L.mset.comp (measurable_fst.prodMk h1)

theorem Lens.move_op {R E : Type} [MeasurableSpace R] [MeasurableSpace E] (L : Lens X R) (ν : Measure E) [SFinite ν] (step : R → E → R)
    (hs : Measurable (Function.uncurry step)) (h : X → ℝ≥0∞) (x : X) :
    (L.move ν step hs).op h x = ∫⁻ e, h (L.set x (step (L.get x) e)) ∂ν := rfl

theorem Indep.comm {R Q E D : Type} [MeasurableSpace R] [MeasurableSpace Q] [MeasurableSpace E] [MeasurableSpace D] {L : Lens X R}
    {M : Lens X Q} (h : Indep L M) (ν : Measure E) [SFinite ν] (step : R → E → R) (hs : Measurable (Function.uncurry step))
    (μ : Measure D) [SFinite μ] (step' : Q → D → Q) (hs' : Measurable (Function.uncurry step')) :
    Comm (L.move ν step hs) (M.move μ step' hs') := by
  intro x d e
  show M.set (L.set x (step (L.get x) d)) (step' (M.get (L.set x (step (L.get x) d))) e) =
    L.set (M.set x (step' (M.get x) e)) (step (L.get (M.set x (step' (M.get x) e))) d)
  rw [h.get, h.symm.get, h]

end SBayes.Meas
