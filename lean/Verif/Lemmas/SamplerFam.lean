import Verif.Lemmas.SamplerMeas
/- Random computations with finitely many outcomes whose probabilities depend measurably on parameters. -/
namespace SBayes.Meas
open SBayes.Lik SBayes.Clusters SBayes.MH SBayes.Source SBayes.Effects SBayes.Posterior SBayes.Draws SBayes.Kernel MeasureTheory
open scoped BigOperators ENNReal

variable {K N F S M C G : ℕ} {nG : Fin M → ℕ} {Θ : Type} [MeasurableSpace Θ] {α β D : Type}

/-- The paths of the computation are fixed, their outcomes satisfy `P` and their probabilities are measurable. -/
def Fam (P : (Θ → α) → Prop) (r : Θ → Rand α) : Prop :=
  ∃ l : List ((Θ → α) × (Θ → ℝ)), (∀ p ∈ l, P p.1 ∧ Measurable p.2) ∧ ∀ θ, r θ = l.map fun p => (p.1 θ, p.2 θ)

/-- Outcomes that do not depend on the parameters. -/
def Cst (a : Θ → α) : Prop := ∃ v, a = fun _ => v

/-- Proposals of a fixed new state with measurable transition probabilities. -/
def MRes (a : Θ → Result D) : Prop :=
  ∃ v q r, Measurable q ∧ Measurable r ∧ a = fun θ => ⟨v, q θ, r θ⟩

theorem Fam.bind {P : (Θ → α) → Prop} {Q : (Θ → β) → Prop} {r : Θ → Rand α} {f : Θ → α → Rand β} (hr : Fam P r)
    (hf : ∀ a, P a → Fam Q fun θ => f θ (a θ)) : Fam Q fun θ => MH.bind (r θ) (f θ) := by
  obtain ⟨l, hl, hr⟩ := hr
  simp only [hr]
  clear hr
  induction l with
  | nil => exact ⟨[], by simp, fun θ => rfl⟩
  | cons p l ih =>
    obtain ⟨l1, h1, e1⟩ := ih fun p hp => hl p (List.mem_cons_of_mem _ hp)
    obtain ⟨hP, hm⟩ := hl p List.mem_cons_self
    obtain ⟨l2, h2, e2⟩ := hf p.1 hP
    refine ⟨l2.map (fun b => (b.1, fun θ => p.2 θ * b.2 θ)) ++ l1, ?_, fun θ => ?_⟩
    · intro b hb
      rcases List.mem_append.mp hb with hb | hb
      · obtain ⟨c, hc, rfl⟩ := List.mem_map.mp hb
        exact ⟨(h2 c hc).1, hm.mul (h2 c hc).2⟩
      · exact h1 b hb
    · rw [List.map_append, ← e1 θ]
      unfold MH.bind
      dsimp only
      rw [List.map_cons, List.flatMap_cons]
      congr 1
      dsimp only
      have e2 : f θ (p.1 θ) = _ := e2 θ
      rw [e2, List.map_map, List.map_map]
      rfl

theorem Fam.ret {P : (Θ → α) → Prop} {a : Θ → α} (ha : P a) : Fam P fun θ => MH.ret (a θ) :=
  ⟨[(a, fun _ => 1)], by simpa using ha, fun θ => rfl⟩

theorem Fam.retC (a : α) : Fam (Θ := Θ) Cst fun _ => MH.ret a := Fam.ret (a := fun _ => a) ⟨a, rfl⟩

theorem Fam.choice (l : List α) {w : Θ → α → ℝ} (hw : ∀ a, Measurable fun θ => w θ a) :
    Fam Cst fun θ => MH.choice l (w θ) := by
  refine ⟨l.map fun a => (fun _ => a, fun θ => w θ a), ?_, fun θ => ?_⟩
  · intro p hp
    obtain ⟨a, -, rfl⟩ := List.mem_map.mp hp
    exact ⟨⟨a, rfl⟩, hw a⟩
  · rw [List.map_map]; rfl

theorem Fam.uniform (l : List α) : Fam (Θ := Θ) Cst fun _ => MH.uniform l :=
  Fam.choice l (w := fun _ _ => 1 / (l.length : ℝ)) fun _ => measurable_const

theorem Fam.bernoulli {p : Θ → ℝ} (hp : Measurable p) : Fam Cst fun θ => MH.bernoulli (p θ) := by
  refine ⟨[(fun _ => true, p), (fun _ => false, fun θ => 1 - p θ)], ?_, fun θ => rfl⟩
  intro q hq
  simp only [List.mem_cons, List.not_mem_nil, or_false] at hq
  rcases hq with rfl | rfl
  · exact ⟨⟨true, rfl⟩, hp⟩
  · exact ⟨⟨false, rfl⟩, hp.const_sub 1⟩

theorem Fam.bindC {Q : (Θ → β) → Prop} {r : Θ → Rand α} {f : Θ → α → Rand β} (hr : Fam Cst r)
    (hf : ∀ a, Fam Q fun θ => f θ a) : Fam Q fun θ => MH.bind (r θ) (f θ) :=
  hr.bind fun a ha => by obtain ⟨v, rfl⟩ := ha; exact hf v

theorem Fam.indep {ι : Type} [DecidableEq ι] {d : Θ → ι → Rand β} (hd : ∀ i, Fam Cst fun θ => d θ i) (l : List ι) :
    ∀ v : ι → β, Fam Cst fun θ => MH.indep (d θ) l v := by
  induction l with
  | nil => intro v; exact Fam.retC v
  | cons i l ih => intro v; exact (hd i).bindC fun b => ih _

theorem Fam.ite {P : (Θ → α) → Prop} {r s : Θ → Rand α} {p : Prop} [Decidable p] (hr : Fam P r) (hs : Fam P s) :
    Fam P fun θ => if p then r θ else s θ := by
  by_cases h : p
  · simpa [h] using hr
  · simpa [h] using hs

theorem Fam.rejectR (x : D) : Fam (Θ := Θ) MRes fun _ => MH.ret (reject x) :=
  Fam.ret (a := fun _ => reject x) ⟨x, fun _ => 1, fun _ => 0, measurable_const, measurable_const, rfl⟩

theorem Fam.retR (x : D) {q r : Θ → ℝ} (hq : Measurable q) (hr : Measurable r) :
    Fam MRes fun θ => MH.ret (⟨x, q θ, r θ⟩ : Result D) :=
  Fam.ret (a := fun θ => (⟨x, q θ, r θ⟩ : Result D)) ⟨x, q, r, hq, hr, rfl⟩

/-- Expected values of a measurable family are measurable. -/
theorem Fam.meas {P : (Θ → α) → Prop} {r : Θ → Rand α} (h : Fam P r) {H : Θ → α → ℝ≥0∞}
    (hH : ∀ a, P a → Measurable fun θ => H θ (a θ)) : Measurable fun θ => Law.ofRand (r θ) (H θ) := by
  obtain ⟨l, hl, hr⟩ := h
  unfold Law.ofRand
  simp only [hr]
  clear hr
  induction l with
  | nil => simp
  | cons p l ih =>
    obtain ⟨hP, hm⟩ := hl p List.mem_cons_self
    simp only [List.map_cons, List.sum_cons]
    exact (hm.ennreal_ofReal.mul (hH p.1 hP)).add (ih fun p hp => hl p (List.mem_cons_of_mem _ hp))

/-! ### The operators -/

theorem meas_normalizeVec {x : Θ → Fin N → ℝ} (hx : ∀ n, Measurable fun θ => x θ n) (n : Fin N) :
    Measurable fun θ => normalizeVec (x θ) n := by
  unfold normalizeVec
  exact (hx n).div (meas_list_sum _ hx)

section
variable {post : Θ → Clus K N → Fin K → Fin N → ℝ} (hp : ∀ cl z n, Measurable fun θ => post θ cl z n)
include hp

theorem fam_gibbsish (cfg : Cfg N) (cl : Clus K N) : Fam MRes fun θ => gibbsish cfg (post θ) cl := by
  have hA : ∀ (cl cl' : Clus K N) z n, Measurable fun θ => normalizeVec (fun n => post θ cl z n * ind (free cl' n)) n :=
    fun cl cl' z n => meas_normalizeVec (fun n => (hp cl z n).mul_const _) n
  have hR : ∀ (cl : Clus K N) z (c : Fin N → Bool) n, Measurable fun θ => normalizeVec (fun n => (1 - post θ cl z n) * ind (c n)) n :=
    fun cl z c n => meas_normalizeVec (fun n => ((hp cl z n).const_sub 1).mul_const _) n
  refine (Fam.bernoulli measurable_const).bindC fun b => Fam.ite ?_ ?_
  · refine (Fam.uniform _).bindC fun z => Fam.ite (Fam.rejectR cl) ?_
    exact (Fam.choice _ fun n => hR cl z (cl z) n).bindC fun o => Fam.retR _ (hR _ _ _ _) (hA _ _ _ _)
  · refine (Fam.uniform _).bindC fun z => Fam.ite (Fam.rejectR cl) (Fam.ite (Fam.rejectR cl) ?_)
    exact (Fam.choice _ fun n => hA cl cl z n).bindC fun o => Fam.retR _ (hA _ _ _ _) (hR _ _ _ _)

theorem fam_gibbsish2 (cfg : Cfg N) (cl : Clus K N) : Fam MRes fun θ => gibbsish2 cfg (post θ) cl := by
  have hq : ∀ (z : Fin K) (l : List (Fin N)) (v : Fin N → Bool), Measurable fun θ =>
      (l.map fun n => post θ cl z n * ind (v n) + (1 - post θ cl z n) * (1 - ind (v n))).prod := fun z l v =>
    meas_list_prod _ fun n => ((hp cl z n).mul_const _).add (((hp cl z n).const_sub 1).mul_const _)
  refine (Fam.uniform _).bindC fun z => ?_
  refine (Fam.indep (fun n => Fam.bernoulli (hp cl z n)) _ _).bindC fun v => ?_
  exact Fam.ite (Fam.rejectR cl) (Fam.ite (Fam.rejectR cl) (Fam.retR _ (hq _ _ _) (hq _ _ _)))

end

theorem fam_alterCluster (cfg : Cfg N) (cl : Clus K N) : Fam (Θ := Θ) MRes fun _ => alterCluster cfg cl := by
  refine (Fam.bernoulli measurable_const).bindC fun b => Fam.ite ?_ ?_
  · refine (Fam.uniform _).bindC fun z => Fam.ite (Fam.rejectR cl) ?_
    exact (Fam.uniform _).bindC fun o => Fam.retR _ measurable_const measurable_const
  · refine (Fam.uniform _).bindC fun z => Fam.ite (Fam.rejectR cl) ?_
    refine (Fam.bernoulli measurable_const).bindC fun b => Fam.ite (Fam.rejectR cl) ?_
    exact (Fam.uniform _).bindC fun o => Fam.retR _ measurable_const measurable_const

theorem fam_withSource {p : Θ → Clus K N → Fin N → Fin F → Fin C → ℝ} (hp : ∀ cl n f c, Measurable fun θ => p θ cl n f c)
    {op : Θ → Clus K N → Rand (Result (Clus K N))} (x : Clus K N × (Fin N × Fin F → Fin C))
    (hop : Fam MRes fun θ => op θ x.1) : Fam MRes fun θ => withSource (p θ) (op θ) x := by
  refine hop.bind ?_
  rintro a ⟨v, q, r, hq, hr, rfl⟩
  dsimp only
  refine Fam.ite (p := v = x.1) (Fam.rejectR (Θ := Θ) x) ?_
  refine (Fam.indep (ι := Fin N × Fin F) (d := fun θ i => MH.choice (List.finRange C) (p θ v i.1 i.2))
    (fun i => Fam.choice _ fun c => hp _ i.1 i.2 c) _ _).bindC fun s => ?_
  exact Fam.retR _ (hq.mul (meas_list_prod _ (h := fun θ i => p θ v i.1 i.2 (s i)) fun i => hp _ i.1 i.2 _))
    (hr.mul (meas_list_prod _ (h := fun θ i => p θ x.1 i.1 i.2 (x.2 i)) fun i => hp _ i.1 i.2 _))

theorem fam_gibbsSource {p : Θ → Fin N → Fin F → Fin C → ℝ} (hp : ∀ n f c, Measurable fun θ => p θ n f c)
    (subset : List (Fin N)) (s : Fin N × Fin F → Fin C) : Fam MRes fun θ => gibbsSource (p θ) subset s := by
  refine (Fam.indep (ι := Fin N × Fin F) (d := fun θ i => MH.choice (List.finRange C) (p θ i.1 i.2))
    (fun i => Fam.choice _ fun c => hp i.1 i.2 c) _ _).bindC fun t => ?_
  exact Fam.retR (q := fun _ => 0) (r := fun _ => 1) t measurable_const measurable_const

end SBayes.Meas
