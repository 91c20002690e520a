import Verif.Spec.Config
import Verif.Lemmas.LogNames
import Mathlib.Tactic.NormNum
import Mathlib.Tactic.Common
/- Lemmas for Props/Config.lean. -/
namespace SBayes.Config
variable {κ α : Type} [DecidableEq κ]

theorem get_set (d : Dict κ α) (x : κ) (w : Val κ α) (y : κ) :
    (d.set x w).get y = if y = x then some w else d.get y := by
  match d with
  | .nil => simp [Dict.set, Dict.get]
  | .cons k v rest =>
    rw [Dict.set]
    by_cases hx : x = k
    · rw [if_pos hx]
      subst hx
      rw [Dict.get, Dict.get]
      split_ifs <;> rfl
    · rw [if_neg hx, Dict.get, Dict.get, get_set rest]
      by_cases hy : y = k
      · have : y ≠ x := fun h => hx (by rw [← h, hy])
        rw [if_pos hy, if_neg this, if_pos hy]
      · rw [if_neg hy, if_neg hy]

theorem set_same (d : Dict κ α) (x : κ) (w : Val κ α) (h : d.get x = some w) : d.set x w = d := by
  match d with
  | .nil => simp [Dict.get] at h
  | .cons k v rest =>
    rw [Dict.set]
    rw [Dict.get] at h
    by_cases hx : x = k
    · rw [if_pos hx] at h ⊢
      rw [Option.some.injEq] at h
      rw [h]
    · rw [if_neg hx] at h ⊢
      rw [set_same rest x w h]

/-- One level of `set_defaults`. -/
theorem get_setDefaults (d : Dict κ α) (hd : d.Distinct) (c : Dict κ α) (y : κ) :
    (setDefaults c d).get y = match c.get y, d.get y with
      | none, w => w
      | some v, none => some v
      | some v, some w => some (keepVal v w) := by
  match d, hd with
  | .nil, _ =>
    rw [setDefaults]
    cases hc : c.get y <;> simp [Dict.get]
  | .cons k v rest, hd =>
    rw [Dict.Distinct] at hd
    rw [setDefaults, get_setDefaults rest hd.2.2]
    by_cases hy : y = k
    · subst hy
      rw [hd.1]
      cases hc : c.get y with
      | none => simp [get_set, Dict.get]
      | some old => simp [get_set, Dict.get]
    · have h2 : (Dict.cons k v rest).get y = rest.get y := by rw [Dict.get, if_neg hy]
      rw [h2]
      cases c.get k with
      | none => simp only [get_set, if_neg hy]
      | some old => simp only [get_set, if_neg hy]

/-- One level of `update_recursive`. -/
theorem get_updateRecursive (d : Dict κ α) (hd : d.Distinct) (c : Dict κ α) (y : κ) :
    (updateRecursive c d).get y = match d.get y with
      | none => c.get y
      | some w => some (newVal (c.get y) w) := by
  match d, hd with
  | .nil, _ => rw [updateRecursive]; simp [Dict.get]
  | .cons k v rest, hd =>
    rw [Dict.Distinct] at hd
    rw [updateRecursive, get_updateRecursive rest hd.2.2]
    by_cases hy : y = k
    · subst hy
      rw [hd.1]
      simp [get_set, Dict.get]
    · have h2 : (Dict.cons k v rest).get y = rest.get y := by rw [Dict.get, if_neg hy]
      rw [h2, get_set, if_neg hy]

theorem distinct_get {d : Dict κ α} (hd : d.Distinct) {k : κ} {v : Val κ α} (h : d.get k = some v) : v.Distinct := by
  match d, hd with
  | .nil, _ => simp [Dict.get] at h
  | .cons x w rest, hd =>
    rw [Dict.Distinct] at hd
    rw [Dict.get] at h
    by_cases hx : k = x
    · rw [if_pos hx, Option.some.injEq] at h
      rw [← h]; exact hd.2.1
    · rw [if_neg hx] at h
      exact distinct_get hd.2.2 h

theorem at_dict_cons (d : Dict κ α) (k : κ) (p : List κ) :
    (Val.dict d).at (k :: p) = (d.get k).bind (fun v => v.at p) := rfl

theorem at_nil (v : Val κ α) : v.at [] = some v := by cases v <;> rfl

theorem at_atom_cons (a : α) (k : κ) (p : List κ) : (Val.atom a : Val κ α).at (k :: p) = none := rfl

/-- The ways in which a path can go. -/
theorem path_cases (c : Val κ α) (p : List κ) :
    (∃ a, c.at p = some (.atom a)) ∨ (∃ d, c.at p = some (.dict d)) ∨ Open c p ∨ Blocked c p := by
  induction p generalizing c with
  | nil =>
    rw [at_nil]
    cases c with
    | atom a => exact Or.inl ⟨a, rfl⟩
    | dict d => exact Or.inr (Or.inl ⟨d, rfl⟩)
  | cons k p ih =>
    cases c with
    | atom a => exact Or.inr (Or.inr (Or.inr ⟨[], k, p, a, rfl, rfl⟩))
    | dict d =>
      cases hk : d.get k with
      | none => exact Or.inr (Or.inr (Or.inl ⟨[], k, p, d, rfl, rfl, hk⟩))
      | some v =>
        rcases ih v with ⟨a, h⟩ | ⟨d', h⟩ | ⟨q, k', r, d', h1, h2, h3⟩ | ⟨q, k', r, a, h1, h2⟩
        · exact Or.inl ⟨a, by rw [at_dict_cons, hk]; exact h⟩
        · exact Or.inr (Or.inl ⟨d', by rw [at_dict_cons, hk]; exact h⟩)
        · exact Or.inr (Or.inr (Or.inl ⟨k :: q, k', r, d', by rw [h1]; rfl, by rw [at_dict_cons, hk]; exact h2, h3⟩))
        · exact Or.inr (Or.inr (Or.inr ⟨k :: q, k', r, a, by rw [h1]; rfl, by rw [at_dict_cons, hk]; exact h2⟩))

theorem open_cons {d : Dict κ α} {k : κ} {p : List κ} (h : Open (.dict d) (k :: p)) :
    d.get k = none ∨ ∃ v, d.get k = some v ∧ Open v p := by
  obtain ⟨q, k', r, d', h1, h2, h3⟩ := h
  cases q with
  | nil =>
    simp only [List.nil_append, List.cons.injEq] at h1
    rw [at_nil, Option.some.injEq, Val.dict.injEq] at h2
    left; rw [h1.1, h2]; exact h3
  | cons a q =>
    simp only [List.cons_append, List.cons.injEq] at h1
    rw [at_dict_cons, ← h1.1] at h2
    cases hk : d.get k with
    | none => left; rfl
    | some v =>
      right
      rw [hk] at h2
      exact ⟨v, rfl, q, k', r, d', h1.2, h2, h3⟩

theorem not_open_nil (c : Val κ α) : ¬ Open c [] := by
  rintro ⟨q, k, r, d, h1, _⟩
  simp at h1

theorem not_open_atom (a : α) (p : List κ) : ¬ Open (.atom a : Val κ α) p := by
  rintro ⟨q, k, r, d, h1, h2, _⟩
  cases q with
  | nil => rw [at_nil] at h2; simp at h2
  | cons => simp [Val.at] at h2

theorem blocked_cons {d : Dict κ α} {k : κ} {p : List κ} (h : Blocked (.dict d) (k :: p)) :
    ∃ v, d.get k = some v ∧ Blocked v p := by
  obtain ⟨q, k', r, a, h1, h2⟩ := h
  cases q with
  | nil => rw [at_nil] at h2; simp at h2
  | cons b q =>
    simp only [List.cons_append, List.cons.injEq] at h1
    rw [at_dict_cons, ← h1.1] at h2
    cases hk : d.get k with
    | none => simp [hk] at h2
    | some v =>
      rw [hk] at h2
      exact ⟨v, rfl, q, k', r, a, h1.2, h2⟩

/-! ### set_defaults along a path -/

theorem keepVal_atom_left (a : α) (w : Val κ α) : keepVal (.atom a) w = .atom a := by
  cases w <;> rfl

theorem keep_at (p : List κ) : ∀ (c w : Val κ α), w.Distinct →
    (∀ a, c.at p = some (.atom a) → (keepVal c w).at p = some (.atom a)) ∧
    (∀ d, c.at p = some (.dict d) → ∃ d', (keepVal c w).at p = some (.dict d')) ∧
    (Blocked c p → (keepVal c w).at p = none) := by
  induction p with
  | nil =>
    intro c w hw
    refine ⟨?_, ?_, ?_⟩
    · intro a h
      rw [at_nil, Option.some.injEq] at h
      subst h
      rw [keepVal_atom_left]; rfl
    · intro d h
      rw [at_nil, Option.some.injEq] at h
      subst h
      cases w with
      | atom b => exact ⟨d, by rw [keepVal, at_nil]⟩
      | dict e => exact ⟨setDefaults d e, by rw [keepVal, at_nil]⟩
    · rintro ⟨q, k, r, a, h, _⟩
      simp at h
  | cons k p ih =>
    intro c w hw
    cases c with
    | atom a =>
      rw [keepVal_atom_left]
      refine ⟨fun a h => ?_, fun d h => ?_, fun _ => rfl⟩
      · simp [at_atom_cons] at h
      · simp [at_atom_cons] at h
    | dict d =>
      cases w with
      | atom b =>
        rw [keepVal]
        refine ⟨fun a h => h, fun d h => ⟨d, h⟩, ?_⟩
        intro h
        obtain ⟨v, hv, hb⟩ := blocked_cons h
        rw [at_dict_cons, hv]
        have := (ih v (.atom b) hw).2.2 hb
        rw [Option.bind_some]
        have e : keepVal v (.atom b) = v := by rw [keepVal]
        rw [e] at this
        exact this
      | dict e =>
        rw [keepVal]
        have he : e.Distinct := hw
        rw [at_dict_cons, at_dict_cons, get_setDefaults e he]
        cases hk : d.get k with
        | none =>
          refine ⟨fun a h => ?_, fun d h => ?_, fun h => ?_⟩
          · simp at h
          · simp at h
          · obtain ⟨v, hv, _⟩ := blocked_cons h
            rw [hk] at hv; simp at hv
        | some v =>
          have hb : Blocked (.dict d) (k :: p) → Blocked v p := by
            intro h
            obtain ⟨v', hv, hb⟩ := blocked_cons h
            rw [hk, Option.some.injEq] at hv
            rw [hv]; exact hb
          cases hek : e.get k with
          | none =>
            simp only [Option.bind_some]
            refine ⟨fun a h => h, fun d h => ⟨d, h⟩, fun h => ?_⟩
            have := (ih v (.dict .nil) trivial).2.2 (hb h)
            have e : keepVal v (.dict .nil) = v := by
              cases v with
              | atom => rfl
              | dict x => simp [keepVal, setDefaults]
            rw [e] at this; exact this
          | some w =>
            simp only [Option.bind_some]
            have := ih v w (distinct_get he hek)
            exact ⟨this.1, this.2.1, fun h => this.2.2 (hb h)⟩

theorem fill_at (p : List κ) : ∀ (c w : Val κ α), w.Distinct → Open c p →
    (∀ d, w = .dict d → (keepVal c w).at p = w.at p) ∧ (∀ a, w = .atom a → (keepVal c w).at p = none) := by
  induction p with
  | nil => intro c w _ h; exact absurd h (not_open_nil c)
  | cons k p ih =>
    intro c w hw ho
    cases c with
    | atom a => exact absurd ho (not_open_atom a _)
    | dict d =>
      refine ⟨?_, ?_⟩
      · rintro e rfl
        have he : e.Distinct := hw
        rw [keepVal, at_dict_cons, at_dict_cons, get_setDefaults e he]
        rcases open_cons ho with h | ⟨v, hv, hov⟩
        · rw [h]
        · rw [hv]
          cases hek : e.get k with
          | none =>
            simp only [Option.bind_some, Option.bind_none]
            have := (ih v (.dict .nil) trivial hov).1 .nil rfl
            have e : keepVal v (.dict .nil) = v := by
              cases v with
              | atom => rfl
              | dict x => simp [keepVal, setDefaults]
            rw [e] at this
            rw [this]
            cases p with
            | nil => exact absurd hov (not_open_nil v)
            | cons k' p => simp [at_dict_cons, Dict.get]
          | some w =>
            simp only [Option.bind_some]
            have := ih v w (distinct_get he hek) hov
            cases w with
            | atom a =>
              rw [this.2 a rfl]
              cases p with
              | nil => exact absurd hov (not_open_nil v)
              | cons k' p => rw [at_atom_cons]
            | dict f => exact this.1 f rfl
      · rintro b rfl
        rw [keepVal, at_dict_cons]
        rcases open_cons ho with h | ⟨v, hv, hov⟩
        · rw [h]; rfl
        · rw [hv, Option.bind_some]
          have := (ih v (.atom b) trivial hov).2 b rfl
          have e : keepVal v (.atom b) = v := by rw [keepVal]
          rw [e] at this; exact this

/-! ### Idempotence of set_defaults -/

theorem setDefaults_fixed (d : Dict κ α) (hd : d.Distinct) (c : Dict κ α)
    (h : ∀ k v, d.get k = some v → ∃ old, c.get k = some old ∧ keepVal old v = old) : setDefaults c d = c := by
  match d, hd with
  | .nil, _ => rw [setDefaults]
  | .cons k v rest, hd =>
    rw [Dict.Distinct] at hd
    obtain ⟨old, h1, h2⟩ := h k v (by rw [Dict.get, if_pos rfl])
    rw [setDefaults, h1]
    dsimp only
    rw [h2, set_same c k old h1]
    apply setDefaults_fixed rest hd.2.2
    intro k' v' hk'
    have hne : k' ≠ k := by
      rintro rfl
      rw [hd.1] at hk'; simp at hk'
    exact h k' v' (by rw [Dict.get, if_neg hne]; exact hk')

mutual
theorem keep_idem (v : Val κ α) (hv : v.Distinct) :
    (∀ old, keepVal (keepVal old v) v = keepVal old v) ∧ keepVal v v = v := by
  match v, hv with
  | .atom a, _ => exact ⟨fun old => by rw [keepVal], by rw [keepVal]⟩
  | .dict b, hb =>
    have hb' : b.Distinct := hb
    have hall := vals_idem b hb'
    refine ⟨?_, ?_⟩
    · intro old
      cases old with
      | atom a => rfl
      | dict c =>
        rw [keepVal, keepVal]
        rw [setDefaults_fixed b hb']
        intro k v hk
        rw [get_setDefaults b hb', hk]
        cases hc : c.get k with
        | none => exact ⟨v, rfl, (hall k v hk).2⟩
        | some old => exact ⟨_, rfl, (hall k v hk).1 old⟩
    · rw [keepVal]
      rw [setDefaults_fixed b hb']
      intro k v hk
      exact ⟨v, hk, (hall k v hk).2⟩
theorem vals_idem (d : Dict κ α) (hd : d.Distinct) (k : κ) (v : Val κ α) (h : d.get k = some v) :
    (∀ old, keepVal (keepVal old v) v = keepVal old v) ∧ keepVal v v = v := by
  match d, hd with
  | .nil, _ => simp [Dict.get] at h
  | .cons x w rest, hd =>
    rw [Dict.Distinct] at hd
    rw [Dict.get] at h
    by_cases hx : k = x
    · rw [if_pos hx, Option.some.injEq] at h
      rw [← h]
      exact keep_idem w hd.2.1
    · rw [if_neg hx] at h
      exact vals_idem rest hd.2.2 k v h
end

/-! ### update_recursive along a path -/

theorem newVal_at (p : List κ) : ∀ (c : Option (Val κ α)) (w : Val κ α), w.Distinct →
    (∀ a, w.at p = some (.atom a) → (newVal c w).at p = some (.atom a)) ∧
    (∀ d, w.at p = some (.dict d) → ∃ d', (newVal c w).at p = some (.dict d')) ∧
    (Blocked w p → (newVal c w).at p = none) ∧
    (Open w p → (newVal c w).at p = c.bind (fun v => v.at p)) := by
  induction p with
  | nil =>
    intro c w hw
    refine ⟨?_, ?_, ?_, fun h => absurd h (not_open_nil w)⟩
    · intro a h
      rw [at_nil, Option.some.injEq] at h
      subst h
      rw [newVal]; rfl
    · intro d h
      rw [at_nil, Option.some.injEq] at h
      subst h
      rcases c with _ | ⟨_ | _⟩ <;> exact ⟨_, at_nil _⟩
    · rintro ⟨q, k, r, a, h, _⟩
      simp at h
  | cons k p ih =>
    intro c w hw
    cases w with
    | atom b =>
      rw [newVal]
      refine ⟨fun a h => ?_, fun d h => ?_, fun _ => rfl, fun h => absurd h (not_open_atom b _)⟩
      · simp [at_atom_cons] at h
      · simp [at_atom_cons] at h
    | dict e =>
      have he : e.Distinct := hw
      have hob : ∀ v, e.get k = some v → (Blocked (.dict e) (k :: p) → Blocked v p) ∧
          (Open (.dict e) (k :: p) → Open v p) := by
        intro v hv
        constructor
        · intro h
          obtain ⟨v', hv', hb⟩ := blocked_cons h
          rw [hv, Option.some.injEq] at hv'
          rw [hv']; exact hb
        · intro h
          rcases open_cons h with h | ⟨v', hv', hb⟩
          · rw [hv] at h; simp at h
          · rw [hv, Option.some.injEq] at hv'
            rw [hv']; exact hb
      have hnone : e.get k = none → ¬ Blocked (.dict e) (k :: p) := by
        intro hn h
        obtain ⟨v', hv', _⟩ := blocked_cons h
        rw [hn] at hv'; simp at hv'
      -- the two cases for the old value
      by_cases hc : ∃ d, c = some (.dict d)
      · obtain ⟨d, rfl⟩ := hc
        rw [newVal]
        rw [at_dict_cons, at_dict_cons, get_updateRecursive e he]
        cases hek : e.get k with
        | none =>
          refine ⟨fun a h => ?_, fun d h => ?_, fun h => absurd h (hnone hek), fun _ => ?_⟩
          · simp at h
          · simp at h
          · rw [Option.bind_some, at_dict_cons]
        | some w =>
          simp only [Option.bind_some]
          obtain ⟨i1, i2, i3, i4⟩ := ih (d.get k) w (distinct_get he hek)
          refine ⟨i1, i2, fun h => i3 ((hob w hek).1 h), fun h => ?_⟩
          rw [i4 ((hob w hek).2 h), at_dict_cons]
      · have hn : newVal c (.dict e) = .dict e := by
          rcases c with _ | ⟨a | d⟩
          · rfl
          · rfl
          · exact absurd ⟨d, rfl⟩ hc
        rw [hn]
        have hcn : c.bind (fun v => v.at (k :: p)) = none := by
          cases c with
          | none => rfl
          | some v =>
            cases v with
            | atom a => rfl
            | dict d => exact absurd ⟨d, rfl⟩ hc
        rw [hcn]
        refine ⟨fun a h => h, fun d h => ⟨d, h⟩, fun h => ?_, fun h => ?_⟩
        · obtain ⟨q, k', r, a, h1, h2⟩ := h
          rw [h1]
          clear h1 ih hob hnone hw he hc hn
          generalize Val.dict e = v at h2
          induction q generalizing v with
          | nil => rw [at_nil, Option.some.injEq] at h2; rw [h2]; rfl
          | cons x q ihq =>
            cases v with
            | atom b => rfl
            | dict f =>
              rw [at_dict_cons] at h2
              rw [List.cons_append, at_dict_cons]
              cases hx : f.get x with
              | none => rfl
              | some u => rw [hx] at h2; exact ihq u h2
        · obtain ⟨q, k', r, d', h1, h2, h3⟩ := h
          rw [h1]
          clear h1 ih hob hnone hw he hc hn
          generalize Val.dict e = v at h2
          induction q generalizing v with
          | nil => rw [at_nil, Option.some.injEq] at h2; rw [h2, List.nil_append, at_dict_cons, h3]; rfl
          | cons x q ihq =>
            cases v with
            | atom b => rfl
            | dict f =>
              rw [at_dict_cons] at h2
              rw [List.cons_append, at_dict_cons]
              cases hx : f.get x with
              | none => rfl
              | some u => rw [hx] at h2; exact ihq u h2

/-! ### iter_items_recursive -/

mutual
theorem mem_iterVal (v : Val κ α) (hv : v.Distinct) (k : κ) (loc : List κ) (x : κ) (a : α) (l : List κ) :
    (x, a, l) ∈ iterVal k loc v ↔ ∃ p, loc ++ k :: p = l ++ [x] ∧ v.at p = some (.atom a) := by
  match v, hv with
  | .atom b, _ =>
    rw [iterVal, List.mem_singleton]
    constructor
    · rintro h
      simp only [Prod.mk.injEq] at h
      obtain ⟨rfl, rfl, rfl⟩ := h
      exact ⟨[], rfl, rfl⟩
    · rintro ⟨p, h1, h2⟩
      cases p with
      | nil =>
        rw [at_nil, Option.some.injEq, Val.atom.injEq] at h2
        have := List.append_inj' h1 rfl
        simp only [List.cons.injEq, and_true] at this
        rw [this.1, this.2, h2]
      | cons y p => simp [at_atom_cons] at h2
  | .dict d, hd =>
    rw [iterVal, mem_iterItems d hd]
    constructor
    · rintro ⟨y, p, h1, h2⟩
      exact ⟨y :: p, by rw [← h1]; simp, h2⟩
    · rintro ⟨p, h1, h2⟩
      cases p with
      | nil => rw [at_nil] at h2; simp at h2
      | cons y p => exact ⟨y, p, by rw [← h1]; simp, h2⟩
theorem mem_iterItems (d : Dict κ α) (hd : d.Distinct) (loc : List κ) (x : κ) (a : α) (l : List κ) :
    (x, a, l) ∈ iterItems loc d ↔ ∃ y p, loc ++ y :: p = l ++ [x] ∧ (Val.dict d).at (y :: p) = some (.atom a) := by
  match d, hd with
  | .nil, _ =>
    rw [iterItems]
    constructor
    · intro h; simp at h
    · rintro ⟨y, p, _, h2⟩
      simp [at_dict_cons, Dict.get] at h2
  | .cons k v rest, hd =>
    rw [Dict.Distinct] at hd
    rw [iterItems, List.mem_append, mem_iterVal v hd.2.1, mem_iterItems rest hd.2.2]
    constructor
    · rintro (⟨p, h1, h2⟩ | ⟨y, p, h1, h2⟩)
      · exact ⟨k, p, h1, by rw [at_dict_cons, Dict.get, if_pos rfl]; exact h2⟩
      · refine ⟨y, p, h1, ?_⟩
        rw [at_dict_cons] at h2 ⊢
        have : y ≠ k := by
          rintro rfl
          rw [hd.1] at h2; simp at h2
        rw [Dict.get, if_neg this]; exact h2
    · rintro ⟨y, p, h1, h2⟩
      rw [at_dict_cons, Dict.get] at h2
      by_cases hy : y = k
      · rw [if_pos hy] at h2
        left; exact ⟨p, by rw [← h1, hy], h2⟩
      · rw [if_neg hy] at h2
        right; exact ⟨y, p, h1, h2⟩
end

mutual
theorem nodup_iterVal (v : Val κ α) (hv : v.Distinct) (k : κ) (loc : List κ) : (iterVal k loc v).Nodup := by
  match v, hv with
  | .atom b, _ => rw [iterVal]; simp
  | .dict d, hd => rw [iterVal]; exact nodup_iterItems d hd _
theorem nodup_iterItems (d : Dict κ α) (hd : d.Distinct) (loc : List κ) : (iterItems loc d).Nodup := by
  match d, hd with
  | .nil, _ => rw [iterItems]; simp
  | .cons k v rest, hd =>
    have hd0 := hd
    rw [Dict.Distinct] at hd
    rw [iterItems, List.nodup_append]
    refine ⟨nodup_iterVal v hd.2.1 k loc, nodup_iterItems rest hd.2.2 loc, ?_⟩
    rintro ⟨x, a, l⟩ h1 y h2 rfl
    obtain ⟨p, e1, _⟩ := (mem_iterVal v hd.2.1 k loc x a l).mp h1
    obtain ⟨z, q, e2, e3⟩ := (mem_iterItems rest hd.2.2 loc x a l).mp h2
    have : loc ++ k :: p = loc ++ z :: q := by rw [e1, e2]
    have := List.append_cancel_left this
    simp only [List.cons.injEq] at this
    rw [at_dict_cons, ← this.1, hd.1] at e3
    simp at e3
end

/-! ### File names -/

open SBayes.Log in
theorem slash_num (n : ℕ) : '/' ∉ num n := by
  intro h
  have := Nat.isDigit_of_mem_toDigits (b := 10) (by norm_num) (by norm_num) h
  exact absurd this (by decide)

/-- The only `sep` of `a` cuts it. -/
theorem cut {sep : Char} {a b r t : Str} (ha : sep ∉ a) (hb : sep ∉ b) (h : a ++ sep :: r = b ++ sep :: t) :
    a = b ∧ r = t := by
  induction a generalizing b with
  | nil =>
    cases b with
    | nil => exact ⟨rfl, by simpa using h⟩
    | cons x b =>
      simp only [List.nil_append, List.cons_append, List.cons.injEq] at h
      exact absurd (h.1 ▸ List.mem_cons_self) hb
  | cons x a ih =>
    cases b with
    | nil =>
      simp only [List.nil_append, List.cons_append, List.cons.injEq] at h
      exact absurd (h.1 ▸ List.mem_cons_self) ha
    | cons y b =>
      simp only [List.cons_append, List.cons.injEq] at h
      rw [List.mem_cons, not_or] at ha hb
      obtain ⟨h1, h2⟩ := ih ha.2 hb.2 h.2
      exact ⟨by rw [h.1, h1], h2⟩

/-- The part of a file name that says what the file contains. -/
def kindPrefix : Kind → Str
  | .stats => SBayes.Log.lit "stats_K"
  | .clusters => SBayes.Log.lit "clusters_K"
  | .likelihood => SBayes.Log.lit "likelihood_K"
  | .operatorStats => SBayes.Log.lit "operator_stats_K"

def kindExt : Kind → Str
  | .likelihood => SBayes.Log.lit ".h5"
  | _ => SBayes.Log.lit ".txt"

theorem resultFile_eq (kind : Kind) (k run : ℕ) : resultFile kind k run =
    'K' :: (SBayes.Log.num k ++ '/' :: (kindPrefix kind ++ (SBayes.Log.num k ++ '_' :: (SBayes.Log.num run ++ kindExt kind)))) := by
  have hK : SBayes.Log.lit "K" = ['K'] := rfl
  have hs : SBayes.Log.lit "/" = ['/'] := rfl
  have hu : SBayes.Log.lit "_" = ['_'] := rfl
  cases kind <;> simp only [resultFile, kindPrefix, kindExt, hK, hs, hu, List.append_assoc, List.cons_append, List.nil_append]

theorem runnerSettings_distinct (k : ℕ) : (runnerSettings k).Distinct := by
  have hne : SBayes.Log.lit "model" ≠ SBayes.Log.lit "mcmc" := by decide
  simp only [runnerSettings, Dict.Distinct, Val.Distinct, Dict.get, if_neg hne, and_self]

end SBayes.Config
