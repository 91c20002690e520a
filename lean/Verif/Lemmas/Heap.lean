import Verif.Model.Heap
import Verif.Spec.Store
/- Helper lemmas for C01-C03. -/
namespace SBayes.Heap
variable {ρ : Type}

/-- Addresses are allocated, and an array used by two parameters is marked shared in both. -/
structure Inv (w : World ρ) : Prop where
  bound : ∀ (i : Nat) (p : Param), w.params[i]? = some p → p.vaddr < w.vnext ∧ p.gaddr < w.gnext
  aliased : ∀ (i j : Nat) (p q : Param), i ≠ j → w.params[i]? = some p → w.params[j]? = some q →
    p.vaddr = q.vaddr → p.shared = true

/-- Same for the group counters. -/
def InvG (w : World ρ) : Prop :=
  ∀ (i j : Nat) (p q : Param), i ≠ j → w.params[i]? = some p → w.params[j]? = some q →
    p.gaddr = q.gaddr → p.grouped = q.grouped ∧ (p.grouped = true → p.shared = true)

/-- The concrete world represents the store `s`. -/
structure R (w : World ρ) (s : List (PV ρ)) : Prop where
  len : w.params.length = s.length
  val : ∀ (j : Nat) (p : Param) (v : PV ρ), w.params[j]? = some p → s[j]? = some v →
    v.grouped = p.grouped ∧ v.rows = (w.vheap p.vaddr).rows ∧ v.version = p.version

def RG (w : World ρ) (s : List (PV ρ)) : Prop :=
  ∀ (j : Nat) (p : Param) (v : PV ρ), w.params[j]? = some p → s[j]? = some v → p.grouped = true → v.groups = w.gheap p.gaddr

theorem mut_R {w w' : World ρ} {s : List (PV ρ)} {i : Nat} {p p' : Param} {v : PV ρ}
    {f : PV ρ → PV ρ} (hI : Inv w) (hR : R w s) (hp : w.params[i]? = some p) (hv : s[i]? = some v)
    (hpar : w'.params = w.params.set i p') (hvn : w.vnext ≤ w'.vnext) (hgn : w.gnext ≤ w'.gnext)
    (hheap : ∀ a, a < w.vnext → a ≠ p'.vaddr → w'.vheap a = w.vheap a)
    (hown : w.vnext ≤ p'.vaddr ∨ (p'.vaddr = p.vaddr ∧ p.shared = false))
    (hlt : p'.vaddr < w'.vnext ∧ p'.gaddr < w'.gnext)
    (hval : (f v).grouped = p'.grouped ∧ (f v).rows = (w'.vheap p'.vaddr).rows ∧
      (f v).version = p'.version) :
    Inv w' ∧ R w' (s.modify i f) := by
  have hi : i < w.params.length := by
    rcases List.getElem?_eq_some_iff.mp hp with ⟨h, _⟩; exact h
  have key : ∀ (j : Nat) (q : Param), i ≠ j → w.params[j]? = some q → q.vaddr ≠ p'.vaddr := by
    intro j q hij hq heq
    rcases hown with h | ⟨h1, h2⟩
    · have := (hI.bound j q hq).1; omega
    · have := hI.aliased i j p q hij hp hq (by rw [heq, h1])
      rw [h2] at this; cases this
  refine ⟨⟨?_, ?_⟩, ⟨?_, ?_⟩⟩
  · intro j q hq
    rw [hpar, List.getElem?_set] at hq
    split at hq
    · simp only [Option.some.injEq] at hq; subst hq; exact hlt
    · have := hI.bound j q hq; omega
  · intro j k q r hjk hq hr heq
    rw [hpar, List.getElem?_set] at hq hr
    by_cases hj : i = j
    · subst hj
      rw [if_pos rfl, if_pos hi] at hq
      rw [if_neg hjk] at hr
      simp only [Option.some.injEq] at hq; subst hq
      exact absurd heq.symm (key k r hjk hr)
    · rw [if_neg hj] at hq
      by_cases hk : i = k
      · subst hk
        rw [if_pos rfl, if_pos hi] at hr
        simp only [Option.some.injEq] at hr; subst hr
        exact absurd heq (key j q hj hq)
      · rw [if_neg hk] at hr
        exact hI.aliased j k q r hjk hq hr heq
  · rw [hpar]; simp [hR.len]
  · intro j q u hq hu
    rw [hpar, List.getElem?_set] at hq
    rw [List.getElem?_modify] at hu
    by_cases hj : i = j
    · subst hj
      rw [if_pos rfl, if_pos hi] at hq
      simp only [Option.some.injEq] at hq; subst hq
      simp [hv] at hu; subst hu; exact hval
    · rw [if_neg hj] at hq
      simp [hj] at hu
      obtain ⟨h1, h2, h3⟩ := hR.val j q u hq hu
      refine ⟨h1, ?_, h3⟩
      rw [h2, hheap _ (hI.bound j q hq).1 (key j q hj hq)]

theorem mut_RG {w w' : World ρ} {s : List (PV ρ)} {i : Nat} {p p' : Param} {v : PV ρ}
    {f : PV ρ → PV ρ} (hI : Inv w) (hG : InvG w) (hR : RG w s)
    (hp : w.params[i]? = some p) (hv : s[i]? = some v)
    (hpar : w'.params = w.params.set i p') (hgr : p'.grouped = p.grouped)
    (hheap : ∀ a, a < w.gnext → (p.grouped = true → a ≠ p'.gaddr) → w'.gheap a = w.gheap a)
    (hown : (p.grouped = true ∧ w.gnext ≤ p'.gaddr) ∨
      (p'.gaddr = p.gaddr ∧ (p.grouped = true → p.shared = false)))
    (hval : p.grouped = true → (f v).groups = w'.gheap p'.gaddr) :
    InvG w' ∧ RG w' (s.modify i f) := by
  have hi : i < w.params.length := by
    rcases List.getElem?_eq_some_iff.mp hp with ⟨h, _⟩; exact h
  have key : ∀ (j : Nat) (q : Param), i ≠ j → w.params[j]? = some q → p.grouped = true → q.gaddr ≠ p'.gaddr := by
    intro j q hij hq hg heq
    rcases hown with ⟨_, h⟩ | ⟨h1, h2⟩
    · have := (hI.bound j q hq).2; omega
    · have := (hG i j p q hij hp hq (by rw [heq, h1])).2 hg
      rw [h2 hg] at this; cases this
  have key2 : ∀ (j : Nat) (q : Param), i ≠ j → w.params[j]? = some q → p.grouped = false → q.gaddr = p'.gaddr →
      q.grouped = false := by
    intro j q hij hq hg heq
    rcases hown with ⟨h, _⟩ | ⟨h1, _⟩
    · rw [hg] at h; cases h
    · rw [← (hG i j p q hij hp hq (by rw [heq, h1])).1]; exact hg
  refine ⟨?_, ?_⟩
  · intro j k q r hjk hq hr heq
    rw [hpar, List.getElem?_set] at hq hr
    by_cases hj : i = j
    · subst hj
      rw [if_pos rfl, if_pos hi] at hq
      rw [if_neg hjk] at hr
      simp only [Option.some.injEq] at hq; subst hq
      by_cases hpg : p.grouped = true
      · exact absurd heq.symm (key k r hjk hr hpg)
      · have hpg : p.grouped = false := by simpa using hpg
        rw [key2 k r hjk hr hpg heq.symm, hgr, hpg]; simp
    · rw [if_neg hj] at hq
      by_cases hk : i = k
      · subst hk
        rw [if_pos rfl, if_pos hi] at hr
        simp only [Option.some.injEq] at hr; subst hr
        by_cases hpg : p.grouped = true
        · exact absurd heq (key j q hj hq hpg)
        · have hpg : p.grouped = false := by simpa using hpg
          rw [key2 j q hj hq hpg heq, hgr, hpg]; simp
      · rw [if_neg hk] at hr
        exact hG j k q r hjk hq hr heq
  · intro j q u hq hu hg
    rw [hpar, List.getElem?_set] at hq
    rw [List.getElem?_modify] at hu
    by_cases hj : i = j
    · subst hj
      rw [if_pos rfl, if_pos hi] at hq
      simp only [Option.some.injEq] at hq; subst hq
      simp [hv] at hu; subst hu; exact hval (hgr ▸ hg)
    · rw [if_neg hj] at hq
      simp [hj] at hu
      rw [hR j q u hq hu hg, hheap _ (hI.bound j q hq).2 (key j q hj hq)]


/-- What `unshare` guarantees. -/
structure Unshared (w : World ρ) (p : Param) (w₁ : World ρ) (p₁ : Param) : Prop where
  params : w₁.params = w.params
  vnext : w.vnext ≤ w₁.vnext
  gnext : w.gnext ≤ w₁.gnext
  vheap : ∀ a, a < w.vnext → w₁.vheap a = w.vheap a
  gheap : ∀ a, a < w.gnext → w₁.gheap a = w.gheap a
  vown : (w.vnext ≤ p₁.vaddr) ∨ (p₁.vaddr = p.vaddr ∧ p.shared = false)
  gown : (p.grouped = true ∧ w.gnext ≤ p₁.gaddr) ∨
    (p₁.gaddr = p.gaddr ∧ (p.grouped = true → p.shared = false))
  vlt : p₁.vaddr < w₁.vnext
  glt : p₁.gaddr < w₁.gnext
  rows : (w₁.vheap p₁.vaddr).rows = (w.vheap p.vaddr).rows
  groups : p.grouped = true → w₁.gheap p₁.gaddr = w.gheap p.gaddr
  version : p₁.version = p.version
  grouped : p₁.grouped = p.grouped

theorem unshare_spec {w : World ρ} {p : Param} (hv : p.vaddr < w.vnext) (hg : p.gaddr < w.gnext) :
    Unshared w p (unshare w p).1 (unshare w p).2 := by
  unfold unshare resolveSharing
  by_cases hs : p.shared = true
  · by_cases hgr : p.grouped = true
    · simp only [hs, hgr, if_true]
      constructor <;> simp [upd, hgr]
      · intro a ha hne; omega
      · intro a ha hne; omega
    · simp only [hs, hgr, if_true]
      constructor <;> simp [upd, hgr, hg]
      · intro a ha hne; omega
  · have hs' : p.shared = false := by simpa using hs
    simp only [hs']
    constructor <;> simp [hv, hg, hs']

theorem step_create {w : World ρ} {s : List (PV ρ)} (g : Bool) (rows : List ρ)
    (hI : Inv w) (hR : R w s) :
    Inv (step w (.create g rows)).1 ∧ R (step w (.create g rows)).1 (specStep s (.create g rows)) := by
  have hb := hI.bound
  refine ⟨⟨?_, ?_⟩, ⟨?_, ?_⟩⟩
  · intro i p hp
    simp only [step, List.getElem?_append] at hp ⊢
    split at hp
    · have := hb i p hp; omega
    · rw [List.getElem?_singleton] at hp
      split at hp
      · simp only [Option.some.injEq] at hp; subst hp; simp
      · cases hp
  · intro i j p q hij hp hq heq
    simp only [step, List.getElem?_append] at hp hq
    split at hp <;> split at hq
    · exact hI.aliased i j p q hij hp hq heq
    · rw [List.getElem?_singleton] at hq
      split at hq
      · simp only [Option.some.injEq] at hq; subst hq
        have := (hb i p hp).1; simp at heq; omega
      · cases hq
    · rw [List.getElem?_singleton] at hp
      split at hp
      · simp only [Option.some.injEq] at hp; subst hp
        have := (hb j q hq).1; simp at heq; omega
      · cases hp
    · rw [List.getElem?_singleton] at hp hq
      split at hp <;> split at hq <;> first | omega | (cases hp; done) | (cases hq; done)
  · simp [step, specStep, hR.len]
  · intro j p v hp hv
    simp only [step, List.getElem?_append] at hp
    simp only [specStep, List.getElem?_append, ← hR.len] at hv
    split at hp
    · rename_i hlt
      rw [if_pos hlt] at hv
      have := (hb j p hp).1
      have hne : p.vaddr ≠ w.vnext := by omega
      simpa [step, upd, hne] using hR.val j p v hp hv
    · rename_i hlt
      rw [if_neg hlt] at hv
      rw [List.getElem?_singleton] at hp hv
      split at hp
      · rename_i h0
        rw [if_pos h0] at hv
        simp only [Option.some.injEq] at hp hv; subst hp hv; simp [step, upd]
      · cases hp

theorem step_create_G {w : World ρ} {s : List (PV ρ)} (g : Bool) (rows : List ρ)
    (hI : Inv w) (hR : R w s) (hG : InvG w) (hRG : RG w s) :
    InvG (step w (.create g rows)).1 ∧
      RG (step w (.create g rows)).1 (specStep s (.create g rows)) := by
  have hb := hI.bound
  refine ⟨?_, ?_⟩
  · intro i j p q hij hp hq heq
    simp only [step, List.getElem?_append] at hp hq
    split at hp <;> split at hq
    · exact hG i j p q hij hp hq heq
    · rw [List.getElem?_singleton] at hq
      split at hq
      · simp only [Option.some.injEq] at hq; subst hq
        have := (hb i p hp).2; simp at heq; omega
      · cases hq
    · rw [List.getElem?_singleton] at hp
      split at hp
      · simp only [Option.some.injEq] at hp; subst hp
        have := (hb j q hq).2; simp at heq; omega
      · cases hp
    · rw [List.getElem?_singleton] at hp hq
      split at hp <;> split at hq <;> first | omega | (cases hp; done) | (cases hq; done)
  · intro j p v hp hv hgr
    simp only [step, List.getElem?_append] at hp
    simp only [specStep, List.getElem?_append, ← hR.len] at hv
    split at hp
    · rename_i hlt
      rw [if_pos hlt] at hv
      have := (hb j p hp).2
      have hne : p.gaddr ≠ w.gnext := by omega
      simpa [step, upd, hne] using hRG j p v hp hv hgr
    · rename_i hlt
      rw [if_neg hlt] at hv
      rw [List.getElem?_singleton] at hp hv
      split at hp
      · rename_i h0
        rw [if_pos h0] at hv
        simp only [Option.some.injEq] at hp hv; subst hp hv; simp [step, upd]
      · cases hp

/-- Every parameter of the world after a copy is an old one, up to the `shared` flag. -/
theorem copy_key {w : World ρ} {i : Nat} {p : Param} (hp : w.params[i]? = some p) :
    ∀ (j : Nat) (q : Param), (step w (.copy i)).1.params[j]? = some q →
        (q = { p with shared := true } ∧ (j = i ∨ j = w.params.length)) ∨
        (w.params[j]? = some q ∧ j ≠ i ∧ j < w.params.length) := by
  have hi : i < w.params.length := by
    rcases List.getElem?_eq_some_iff.mp hp with ⟨h, _⟩; exact h
  intro j q hq
  simp only [step, hp, putParam, List.getElem?_append, List.length_set] at hq
  split at hq
  · rename_i hj
    rw [List.getElem?_set] at hq
    by_cases hji : i = j
    · rw [if_pos hji] at hq
      simp only [hi, if_true, Option.some.injEq] at hq
      left; exact ⟨hq.symm, Or.inl hji.symm⟩
    · rw [if_neg hji] at hq; right; exact ⟨hq, fun h => hji h.symm, hj⟩
  · rw [List.getElem?_singleton] at hq
    split at hq
    · simp only [Option.some.injEq] at hq
      left; exact ⟨hq.symm, Or.inr (by omega)⟩
    · cases hq

theorem step_copy {w : World ρ} {s : List (PV ρ)} (i : Nat)
    (hI : Inv w) (hR : R w s) :
    Inv (step w (.copy i)).1 ∧ R (step w (.copy i)).1 (specStep s (.copy i)) := by
  cases hp : w.params[i]? with
  | none =>
    have hi : s[i]? = none := by
      rw [List.getElem?_eq_none_iff] at hp ⊢; rw [← hR.len]; exact hp
    simp only [step, specStep, hp, hi]; exact ⟨hI, hR⟩
  | some p =>
    have hi : i < w.params.length := by
      rcases List.getElem?_eq_some_iff.mp hp with ⟨h, _⟩; exact h
    obtain ⟨v, hv⟩ : ∃ v, s[i]? = some v := ⟨s[i]'(hR.len ▸ hi), by simp [hR.len ▸ hi]⟩
    have key := copy_key hp
    have hheap : (step w (.copy i)).1.vheap = w.vheap := by simp [step, hp, putParam]
    have hvn : (step w (.copy i)).1.vnext = w.vnext := by simp [step, hp, putParam]
    have hgn : (step w (.copy i)).1.gnext = w.gnext := by simp [step, hp, putParam]
    refine ⟨⟨?_, ?_⟩, ⟨?_, ?_⟩⟩
    · intro j q hq
      rw [hvn, hgn]
      rcases key j q hq with ⟨rfl, _⟩ | ⟨h, _⟩
      · exact hI.bound i p hp
      · exact hI.bound j q h
    · intro j k q r hjk hq hr heq
      rcases key j q hq with ⟨rfl, _⟩ | ⟨h, hji, _⟩
      · rfl
      · rcases key k r hr with ⟨rfl, _⟩ | ⟨h', _, _⟩
        · exact hI.aliased j i q p hji h hp heq
        · exact hI.aliased j k q r hjk h h' heq
    · simp [step, specStep, hp, hv, putParam, hR.len]
    · intro j q u hq hu
      rw [hheap]
      have hs : specStep s (.copy i) = s ++ [v] := by simp [specStep, hv]
      rw [hs, List.getElem?_append] at hu
      rcases key j q hq with ⟨rfl, h | h⟩ | ⟨h, hji, hlt⟩
      · subst h
        rw [if_pos (hR.len ▸ hi)] at hu
        exact hR.val _ p _ hp hu
      · subst h
        rw [if_neg (by rw [hR.len]; omega)] at hu
        simp [hR.len] at hu
        subst hu
        exact hR.val _ p _ hp hv
      · rw [if_pos (hR.len ▸ hlt)] at hu
        exact hR.val _ _ _ h hu

theorem step_copy_G {w : World ρ} {s : List (PV ρ)} (i : Nat)
    (hR : R w s) (hG : InvG w) (hRG : RG w s) :
    InvG (step w (.copy i)).1 ∧ RG (step w (.copy i)).1 (specStep s (.copy i)) := by
  cases hp : w.params[i]? with
  | none =>
    have hi : s[i]? = none := by
      rw [List.getElem?_eq_none_iff] at hp ⊢; rw [← hR.len]; exact hp
    simp only [step, specStep, hp, hi]; exact ⟨hG, hRG⟩
  | some p =>
    have hi : i < w.params.length := by
      rcases List.getElem?_eq_some_iff.mp hp with ⟨h, _⟩; exact h
    obtain ⟨v, hv⟩ : ∃ v, s[i]? = some v := ⟨s[i]'(hR.len ▸ hi), by simp [hR.len ▸ hi]⟩
    have key := copy_key hp
    have hheap : (step w (.copy i)).1.gheap = w.gheap := by simp [step, hp, putParam]
    refine ⟨?_, ?_⟩
    · intro j k q r hjk hq hr heq
      rcases key j q hq with ⟨rfl, _⟩ | ⟨h, hji, _⟩
      · rcases key k r hr with ⟨rfl, _⟩ | ⟨h', hki, _⟩
        · simp
        · exact ⟨(hG i k p r (Ne.symm hki) hp h' heq).1, fun _ => rfl⟩
      · rcases key k r hr with ⟨rfl, _⟩ | ⟨h', _, _⟩
        · exact hG j i q p hji h hp heq
        · exact hG j k q r hjk h h' heq
    · intro j q u hq hu hgr
      rw [hheap]
      have hs : specStep s (.copy i) = s ++ [v] := by simp [specStep, hv]
      rw [hs, List.getElem?_append] at hu
      rcases key j q hq with ⟨rfl, h | h⟩ | ⟨h, hji, hlt⟩
      · subst h
        rw [if_pos (hR.len ▸ hi)] at hu
        exact hRG _ p _ hp hu hgr
      · subst h
        rw [if_neg (by rw [hR.len]; omega)] at hu
        simp [hR.len] at hu
        subst hu
        exact hRG _ p _ hp hv hgr
      · rw [if_pos (hR.len ▸ hlt)] at hu
        exact hRG _ _ _ h hu hgr

theorem modify_none {s : List (PV ρ)} {i : Nat} {f : PV ρ → PV ρ} (h : s[i]? = none) :
    s.modify i f = s := by
  apply List.ext_getElem?
  intro j
  rw [List.getElem?_modify]
  by_cases hj : i = j
  · subst hj; simp [h]
  · simp [hj]

theorem modify_oob {l : List ρ} {g : Nat} {f : ρ → ρ} (h : ¬ g < l.length) :
    l.modify g f = l := by
  apply List.ext_getElem?; intro j; rw [List.getElem?_modify]
  by_cases hj : g = j
  · subst hj
    have : l[g]? = none := List.getElem?_eq_none_iff.mpr (by omega)
    simp [this]
  · simp [hj]

theorem modify_id' {s : List (PV ρ)} {i : Nat} {f : PV ρ → PV ρ} {v : PV ρ}
    (h : s[i]? = some v) (hf : f v = v) : s.modify i f = s := by
  apply List.ext_getElem?
  intro j
  rw [List.getElem?_modify]
  by_cases hj : i = j
  · subst hj; simp [h, hf]
  · simp [hj]

/-- All mutating operations refine the spec; the group counters do too unless the operation is
`set_value` on a grouped parameter. -/
theorem step_sim {w : World ρ} {s : List (PV ρ)} (op : Op ρ) (hI : Inv w) (hR : R w s) :
    Inv (step w op).1 ∧ R (step w op).1 (specStep s op) := by
  have none_case : ∀ i : Nat, w.params[i]? = none → s[i]? = none := by
    intro i hp
    rw [List.getElem?_eq_none_iff] at hp ⊢; rw [← hR.len]; exact hp
  have some_case : ∀ (i : Nat) (p : Param), w.params[i]? = some p → ∃ v, s[i]? = some v := by
    intro i p hp
    have hi : i < w.params.length := by
      rcases List.getElem?_eq_some_iff.mp hp with ⟨h, _⟩; exact h
    exact ⟨s[i]'(hR.len ▸ hi), by simp [hR.len ▸ hi]⟩
  cases op with
  | create g rows => exact step_create g rows hI hR
  | copy i => exact step_copy i hI hR
  | setValue i rows =>
    cases hp : w.params[i]? with
    | none => simp only [step, specStep, hp, modify_none (none_case i hp)]; exact ⟨hI, hR⟩
    | some p =>
      obtain ⟨v, hv⟩ := some_case i p hp
      obtain ⟨h1, h2, h3⟩ := hR.val i p v hp hv
      obtain ⟨hb1, hb2⟩ := hI.bound i p hp
      simp only [step, specStep, hp]
      refine mut_R hI hR hp hv rfl ?_ ?_ ?_ (Or.inl ?_) ?_ ?_
      all_goals simp [putParam, upd, PV.apply, PV.newRows, PV.completes, h1, h3, hb2]
      intro a ha hne; omega
  | setItems i it =>
    cases hp : w.params[i]? with
    | none => simp only [step, specStep, hp, modify_none (none_case i hp)]; exact ⟨hI, hR⟩
    | some p =>
      obtain ⟨v, hv⟩ := some_case i p hp
      obtain ⟨h1, h2, h3⟩ := hR.val i p v hp hv
      obtain ⟨hb1, hb2⟩ := hI.bound i p hp
      have U := unshare_spec hb1 hb2
      simp only [step, specStep, hp]
      generalize unshare w p = up at U
      obtain ⟨w₁, p₁⟩ := up
      simp only at U ⊢
      have hrows := U.rows
      have hver := U.version
      have hgr := U.grouped
      cases it with
      | row g f =>
        by_cases hg : g < (w.vheap p.vaddr).rows.length
        · simp only [Items.inRange, hrows, decide_eq_true_eq, hg, if_true]
          split
          · refine mut_R hI hR hp hv (congrArg (fun l => List.set l i _) U.params) U.vnext U.gnext ?_ U.vown ?_ ?_
            · intro a ha hne; simp only [putParam, bumpGroup, writeRows, upd, if_neg hne]; exact U.vheap a ha
            · exact ⟨U.vlt, U.glt⟩
            · simp [putParam, bumpGroup, writeRows, upd, PV.apply, PV.newRows, PV.completes, h1, h3, h2, hg, Items.apply, hver, hgr]
          · refine mut_R hI hR hp hv (congrArg (fun l => List.set l i _) U.params) U.vnext U.gnext ?_ U.vown ?_ ?_
            · intro a ha hne; simp only [putParam, writeRows, upd, if_neg hne]; exact U.vheap a ha
            · exact ⟨U.vlt, U.glt⟩
            · simp [putParam, writeRows, upd, PV.apply, PV.newRows, PV.completes, h1, h3, h2, hg, Items.apply, hver, hgr]
        · simp only [Items.inRange, hrows, decide_eq_true_eq, hg, if_false]
          refine mut_R hI hR hp hv (congrArg (fun l => List.set l i _) U.params) U.vnext U.gnext ?_ U.vown ?_ ?_
          · intro a ha hne; simp only [putParam, writeRows, upd, if_neg hne]; exact U.vheap a ha
          · exact ⟨U.vlt, U.glt⟩
          · have : (w.vheap p.vaddr).rows.modify g f = (w.vheap p.vaddr).rows := modify_oob hg
            simp [putParam, writeRows, upd, PV.apply, PV.newRows, PV.completes, h1, h3, h2, hg, hver, hgr, this]
      | other f =>
        simp only [Items.inRange, if_true]
        split <;>
        · refine mut_R hI hR hp hv (congrArg (fun l => List.set l i _) U.params) U.vnext U.gnext ?_ U.vown ?_ ?_
          · intro a ha hne; simp only [putParam, writeRows, upd, if_neg hne]; exact U.vheap a ha
          · exact ⟨U.vlt, U.glt⟩
          · simp [putParam, writeRows, upd, PV.apply, PV.newRows, PV.completes, h1, h3, h2, Items.apply, hver, hgr, hrows]
  | edit i f | editAbort i f =>
    cases hp : w.params[i]? with
    | none => simp only [step, specStep, hp, modify_none (none_case i hp)]; exact ⟨hI, hR⟩
    | some p =>
      obtain ⟨v, hv⟩ := some_case i p hp
      obtain ⟨h1, h2, h3⟩ := hR.val i p v hp hv
      obtain ⟨hb1, hb2⟩ := hI.bound i p hp
      have U := unshare_spec hb1 hb2
      simp only [step, specStep, hp]
      generalize unshare w p = up at U
      obtain ⟨w₁, p₁⟩ := up
      simp only at U ⊢
      have hrows := U.rows
      have hver := U.version
      have hgr := U.grouped
      refine mut_R hI hR hp hv (congrArg (fun l => List.set l i _) U.params) U.vnext U.gnext ?_ U.vown ?_ ?_
      · intro a ha hne; simp only [putParam, writeRows, upd, if_neg hne]; exact U.vheap a ha
      · exact ⟨U.vlt, U.glt⟩
      · simp [putParam, writeRows, upd, PV.apply, PV.newRows, PV.completes, h1, h3, h2, hver, hgr, hrows]
  | editGroup i g f | editGroupAbort i g f =>
    cases hp : w.params[i]? with
    | none => simp only [step, specStep, hp, modify_none (none_case i hp)]; exact ⟨hI, hR⟩
    | some p =>
      obtain ⟨v, hv⟩ := some_case i p hp
      obtain ⟨h1, h2, h3⟩ := hR.val i p v hp hv
      obtain ⟨hb1, hb2⟩ := hI.bound i p hp
      have U := unshare_spec hb1 hb2
      simp only [step, specStep, hp]
      generalize unshare w p = up at U
      obtain ⟨w₁, p₁⟩ := up
      simp only at U ⊢
      have hrows := U.rows
      have hver := U.version
      have hgr := U.grouped
      by_cases hpg : p.grouped = true
      · rw [if_pos hpg]
        have hmod : ¬ g < (w.vheap p.vaddr).rows.length →
            (w.vheap p.vaddr).rows.modify g f = (w.vheap p.vaddr).rows :=
          fun hg => modify_oob hg
        try split
        all_goals
          refine mut_R hI hR hp hv (congrArg (fun l => List.set l i _) U.params) U.vnext U.gnext ?_ U.vown ?_ ?_
          · intro a ha hne; simp only [putParam, bumpGroup, writeRows, upd, if_neg hne]; exact U.vheap a ha
          · exact ⟨U.vlt, U.glt⟩
          · simp_all [putParam, bumpGroup, writeRows, upd, PV.apply, PV.newRows, PV.completes]
      · rw [if_neg hpg]
        rw [modify_id' hv]
        · exact ⟨hI, hR⟩
        · have hvg : v.grouped = false := by rw [h1]; simpa using hpg
          cases v
          simp_all [PV.apply, PV.newRows, PV.completes, Op.group]

/-- The operation is not `set_value` on a grouped parameter. -/
def noGroupedSetValue (w : World ρ) : Op ρ → Prop
  | .setValue i _ => ∀ p, w.params[i]? = some p → p.grouped = false
  | _ => True

theorem step_sim_G {w : World ρ} {s : List (PV ρ)} (op : Op ρ) (hop : noGroupedSetValue w op)
    (hI : Inv w) (hR : R w s) (hG : InvG w) (hRG : RG w s) :
    InvG (step w op).1 ∧ RG (step w op).1 (specStep s op) := by
  have none_case : ∀ i : Nat, w.params[i]? = none → s[i]? = none := by
    intro i hp
    rw [List.getElem?_eq_none_iff] at hp ⊢; rw [← hR.len]; exact hp
  have some_case : ∀ (i : Nat) (p : Param), w.params[i]? = some p → ∃ v, s[i]? = some v := by
    intro i p hp
    have hi : i < w.params.length := by
      rcases List.getElem?_eq_some_iff.mp hp with ⟨h, _⟩; exact h
    exact ⟨s[i]'(hR.len ▸ hi), by simp [hR.len ▸ hi]⟩
  cases op with
  | create g rows => exact step_create_G g rows hI hR hG hRG
  | copy i => exact step_copy_G i hR hG hRG
  | setValue i rows =>
    cases hp : w.params[i]? with
    | none => simp only [step, specStep, hp, modify_none (none_case i hp)]; exact ⟨hG, hRG⟩
    | some p =>
      obtain ⟨v, hv⟩ := some_case i p hp
      have hpg := hop p hp
      simp only [step, specStep, hp]
      refine mut_RG hI hG hRG hp hv rfl rfl (fun a _ _ => rfl) (Or.inr ⟨rfl, ?_⟩) ?_
      · intro h; rw [hpg] at h; cases h
      · intro h; rw [hpg] at h; cases h
  | setItems i it =>
    cases hp : w.params[i]? with
    | none => simp only [step, specStep, hp, modify_none (none_case i hp)]; exact ⟨hG, hRG⟩
    | some p =>
      obtain ⟨v, hv⟩ := some_case i p hp
      obtain ⟨h1, h2, h3⟩ := hR.val i p v hp hv
      have hgv := hRG i p v hp hv
      obtain ⟨hb1, hb2⟩ := hI.bound i p hp
      have U := unshare_spec hb1 hb2
      simp only [step, specStep, hp]
      generalize unshare w p = up at U
      obtain ⟨w₁, p₁⟩ := up
      simp only at U ⊢
      have hrows := U.rows
      have hver := U.version
      have hgr := U.grouped
      have hgs := U.groups
      split
      · cases it with
        | row g f =>
          simp only
          split
          · refine mut_RG hI hG hRG hp hv (congrArg (fun l => List.set l i _) U.params) hgr ?_ U.gown ?_
            · intro a ha hne
              simp only [putParam, bumpGroup, writeRows, upd, if_neg (hne ‹_›)]; exact U.gheap a ha
            · intro hpg
              simp_all [putParam, bumpGroup, writeRows, upd, PV.apply, PV.completes, Op.group, Items.inRange]
          · refine mut_RG hI hG hRG hp hv (congrArg (fun l => List.set l i _) U.params) hgr ?_ U.gown ?_
            · intro a ha hne
              simp only [putParam, writeRows]; exact U.gheap a ha
            · intro hpg
              simp_all
        | other f =>
          simp only
          split <;>
          · refine mut_RG hI hG hRG hp hv (congrArg (fun l => List.set l i _) U.params) hgr ?_ U.gown ?_
            · intro a ha hne
              simp only [putParam, writeRows]; exact U.gheap a ha
            · intro hpg
              simp_all [putParam, writeRows, PV.apply, Op.group]
      · refine mut_RG hI hG hRG hp hv (congrArg (fun l => List.set l i _) U.params) hgr ?_ U.gown ?_
        · intro a ha hne
          simp only [putParam, writeRows]; exact U.gheap a ha
        · intro hpg
          cases it <;> simp_all [putParam, writeRows, PV.apply, PV.completes, Op.group, Items.inRange]
          intro h; omega
  | edit i f | editAbort i f =>
    cases hp : w.params[i]? with
    | none => simp only [step, specStep, hp, modify_none (none_case i hp)]; exact ⟨hG, hRG⟩
    | some p =>
      obtain ⟨v, hv⟩ := some_case i p hp
      have hgv := hRG i p v hp hv
      obtain ⟨hb1, hb2⟩ := hI.bound i p hp
      have U := unshare_spec hb1 hb2
      simp only [step, specStep, hp]
      generalize unshare w p = up at U
      obtain ⟨w₁, p₁⟩ := up
      simp only at U ⊢
      have hgr := U.grouped
      have hgs := U.groups
      refine mut_RG hI hG hRG hp hv (congrArg (fun l => List.set l i _) U.params) hgr ?_ U.gown ?_
      · intro a ha hne
        simp only [putParam, writeRows]; exact U.gheap a ha
      · intro hpg
        simp_all [putParam, writeRows, PV.apply, Op.group]
  | editGroup i g f | editGroupAbort i g f =>
    cases hp : w.params[i]? with
    | none => simp only [step, specStep, hp, modify_none (none_case i hp)]; exact ⟨hG, hRG⟩
    | some p =>
      obtain ⟨v, hv⟩ := some_case i p hp
      obtain ⟨h1, h2, h3⟩ := hR.val i p v hp hv
      have hgv := hRG i p v hp hv
      obtain ⟨hb1, hb2⟩ := hI.bound i p hp
      have U := unshare_spec hb1 hb2
      simp only [step, specStep, hp]
      generalize unshare w p = up at U
      obtain ⟨w₁, p₁⟩ := up
      simp only at U ⊢
      have hrows := U.rows
      have hver := U.version
      have hgr := U.grouped
      have hgs := U.groups
      by_cases hpg : p.grouped = true
      · rw [if_pos hpg]
        try split
        all_goals
          refine mut_RG hI hG hRG hp hv (congrArg (fun l => List.set l i _) U.params) hgr ?_ U.gown ?_
          · intro a ha hne
            simp only [putParam, bumpGroup, writeRows, upd, if_neg (hne hpg)]; exact U.gheap a ha
          · intro _
            simp_all [putParam, bumpGroup, writeRows, upd, PV.apply, PV.completes, Op.group]
            try (intro h; omega)
      · rw [if_neg hpg]
        rw [modify_id' hv]
        · exact ⟨hG, hRG⟩
        · have hvg : v.grouped = false := by rw [h1]; simpa using hpg
          cases v
          simp_all [PV.apply, PV.newRows, PV.completes, Op.group]

theorem inv_empty : Inv (World.empty ρ) := ⟨by simp [World.empty], by simp [World.empty]⟩
theorem invG_empty : InvG (World.empty ρ) := by simp [InvG, World.empty]
theorem r_empty : R (World.empty ρ) [] := ⟨rfl, by simp [World.empty]⟩
theorem rG_empty : RG (World.empty ρ) [] := by simp [RG, World.empty]

theorem run_sim (ops : List (Op ρ)) : ∀ {w : World ρ} {s : List (PV ρ)}, Inv w → R w s →
    Inv (run w ops) ∧ R (run w ops) (specRun s ops) := by
  induction ops with
  | nil => intro w s hI hR; exact ⟨hI, hR⟩
  | cons op ops ih =>
    intro w s hI hR
    obtain ⟨h1, h2⟩ := step_sim op hI hR
    exact ih h1 h2

theorem run_sim_G (ops : List (Op ρ)) : ∀ {w : World ρ} {s : List (PV ρ)}, Inv w → R w s →
    InvG w → RG w s → plainSetValueOnly s ops → RG (run w ops) (specRun s ops) := by
  induction ops with
  | nil => intro w s hI hR hG hRG _; exact hRG
  | cons op ops ih =>
    intro w s hI hR hG hRG hops
    obtain ⟨h1, h2⟩ := step_sim op hI hR
    have hop : noGroupedSetValue w op := by
      cases op with
      | setValue i rows =>
        intro p hp
        have hi : i < w.params.length := by
          rcases List.getElem?_eq_some_iff.mp hp with ⟨h, _⟩; exact h
        obtain ⟨v, hv⟩ : ∃ v, s[i]? = some v := ⟨s[i]'(hR.len ▸ hi), by simp [hR.len ▸ hi]⟩
        have := hops.1 i rows rfl v hv
        rw [(hR.val i p v hp hv).1] at this; exact this
      | _ => trivial
    obtain ⟨h3, h4⟩ := step_sim_G op hop hI hR hG hRG
    exact ih h1 h2 h3 h4 hops.2

theorem specStep_get {s : List (PV ρ)} {i : Nat} {v : PV ρ} (op : Op ρ) (hv : s[i]? = some v) :
    (specStep s op)[i]? = some (if op.target = some i then v.apply op else v) := by
  have hl : i < s.length := by rcases List.getElem?_eq_some_iff.mp hv with ⟨h, _⟩; exact h
  cases op <;> simp only [specStep, Op.target]
  · rw [List.getElem?_append, if_pos hl, hv]; simp
  · have hc : ∀ k, v.apply (.copy k) = v := by
      intro k; cases v; simp [PV.apply, PV.newRows, PV.completes, Op.group]
    split
    · rw [List.getElem?_append, if_pos hl, hv]; simp [hc]
    · simp [hv, hc]
  all_goals
    rw [List.getElem?_modify, hv]; simp only [Option.some.injEq]
    split <;> simp

theorem apply_rows_of_not_completes {v : PV ρ} {op : Op ρ} (ha : op.aborts = false)
    (hc : v.completes op = false) : (v.apply op).rows = v.rows := by
  cases op with
  | setItems i it =>
    cases it with
    | row g f =>
      simp only [PV.completes, decide_eq_false_iff_not] at hc
      exact modify_oob hc
    | other f => cases hc
  | editGroup i g f =>
    simp only [PV.completes] at hc
    simp only [PV.apply, PV.newRows]
    split
    · rename_i h; rw [h] at hc; exact modify_oob (by simpa using hc)
    · rfl
  | create _ _ | copy _ => rfl
  | setValue _ _ | edit _ _ => cases hc
  | editAbort _ _ | editGroupAbort _ _ _ => cases ha

end SBayes.Heap
