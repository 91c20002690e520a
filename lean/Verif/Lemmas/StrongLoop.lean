import Verif.Lemmas.LawLLN
import Verif.Lemmas.StrongLaw
/- Averages over the log: from some sample on, they stay close to the mean, with high probability. -/
namespace SBayes.Meas
set_option linter.unusedSectionVars false
open SBayes.MH SBayes.Kernel MeasureTheory Filter Topology
open scoped BigOperators ENNReal

variable {X : Type} [MeasurableSpace X] {π : Measure X}

/-- The states of a path. -/
def ofPath : (n : ℕ) → Path X n → List X
  | 0, _ => []
  | n + 1, p => p.1 :: ofPath n p.2

theorem ofPath_length : ∀ (n : ℕ) (p : Path X n), (ofPath n p).length = n
  | 0, _ => rfl
  | n + 1, p => by
    show (ofPath n p.2).length + 1 = n + 1
    rw [ofPath_length n p.2]

theorem psum_ofPath (f : X → ℝ) : ∀ (n m : ℕ) (p : Path X n), psum f n m p = (((ofPath n p).take m).map f).sum
  | n, 0, p => by
    have e : psum f n 0 p = 0 := by cases n <;> rfl
    rw [e]; simp
  | 0, m + 1, p => by
    have e : ofPath 0 p = [] := rfl
    rw [e]; simp [psum]
  | n + 1, m + 1, p => by
    have e : ofPath (n + 1) p = p.1 :: ofPath n p.2 := rfl
    have e2 : psum f (n + 1) (m + 1) p = psum f n m p.2 + f p.1 := rfl
    rw [e, e2, psum_ofPath f n m p.2, List.take_succ_cons, List.map_cons, List.sum_cons, add_comm]

theorem sum_centred (f : X → ℝ) (c : ℝ) (l : List X) : (l.map fun x => f x - c).sum = (l.map f).sum - l.length * c := by
  induction l with
  | nil => simp
  | cons x l ih =>
    rw [List.map_cons, List.sum_cons, ih, List.map_cons, List.sum_cons, List.length_cons]
    push_cast
    ring

/-- The average over the first samples is close to the mean from the `n0`-th sample on. -/
def Settles (f : X → ℝ) (c ε : ℝ) (n0 : ℕ) (l : List X) : Prop :=
  ∀ n, n0 ≤ n → n ≤ l.length → |((l.take n).map f).sum / (n : ℝ) - c| < ε

/-- The excess over the first samples is large at some time. -/
def badPath (f : X → ℝ) (c ε : ℝ) (n0 n : ℕ) : Set (Path X n) := {p | ∃ m, n0 ≤ m ∧ m ≤ n ∧ ε * m ≤ |psum (fun x => f x - c) n m p|}

theorem badPath_meas {f : X → ℝ} (hf : Measurable f) (c ε : ℝ) (n0 n : ℕ) : MeasurableSet (badPath f c ε n0 n) := by
  have e : badPath f c ε n0 n = ⋃ m, ({_p | n0 ≤ m} ∩ ({_p | m ≤ n} ∩ {p | ε * m ≤ |psum (fun x => f x - c) n m p|})) := by
    ext p
    rw [Set.mem_iUnion]
    rfl
  rw [e]
  refine MeasurableSet.iUnion fun m => (MeasurableSet.const _).inter ((MeasurableSet.const _).inter ?_)
  exact measurableSet_le measurable_const (measurable_norm.comp (psum_meas (hf.sub measurable_const) n m))

theorem badPath_mono {f : X → ℝ} {c ε : ℝ} {n0 n1 n : ℕ} (h : n0 ≤ n1) : badPath f c ε n1 n ⊆ (badPath f c ε n0 n : Set (Path X n)) :=
  fun _ ⟨m, h1, h2, h3⟩ => ⟨m, h.trans h1, h2, h3⟩

/-- A list of `n` samples whose excess is never large. -/
def goodList (f : X → ℝ) (c ε : ℝ) (n0 n : ℕ) : Set (List X) :=
  {l | l.length = n ∧ ∀ m, n0 ≤ m → m ≤ n → |((l.take m).map f).sum - m * c| < ε * m}

theorem goodList_ofPath {f : X → ℝ} {c ε : ℝ} {n0 n : ℕ} (p : Path X n) : ofPath n p ∈ goodList f c ε n0 n ↔ p ∉ badPath f c ε n0 n := by
  have e : ∀ m, m ≤ n → psum (fun x => f x - c) n m p = (((ofPath n p).take m).map f).sum - m * c := fun m hm => by
    rw [psum_ofPath, sum_centred, List.length_take, ofPath_length, min_eq_left hm]
  constructor
  · rintro ⟨-, h⟩ ⟨m, h1, h2, h3⟩
    rw [e m h2] at h3
    exact absurd (h m h1 h2) (not_lt.mpr h3)
  · refine fun h => ⟨ofPath_length n p, fun m h1 h2 => ?_⟩
    by_contra hc
    exact h ⟨m, h1, h2, by rw [e m h2]; exact not_lt.mp hc⟩

theorem settles_of_good {f : X → ℝ} {B c ε : ℝ} (hB : |c| ≤ B) (hf : ∀ x, |f x| ≤ B) (hε : 0 < ε) {n0 n : ℕ} (hn0 : 2 * B ≤ ε / 2 * n0)
    {l : List X} (hl : l ∈ goodList f c (ε / 2) n0 n) (y : X) : Settles f c ε (n0 + 1) (y :: l) := by
  intro k hk hkl
  obtain ⟨m, rfl⟩ : ∃ m, k = m + 1 := ⟨k - 1, by omega⟩
  rw [List.length_cons, hl.1] at hkl
  rw [List.take_succ_cons, List.map_cons, List.sum_cons]
  refine close_of_close (B := B) hB (hf y) ?_ hε (hl.2 m (by omega) (by omega))
  refine hn0.trans (mul_le_mul_of_nonneg_left ?_ (by positivity))
  exact_mod_cast (by omega : n0 ≤ m)

end SBayes.Meas
