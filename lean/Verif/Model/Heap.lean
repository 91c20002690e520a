/-
Model of the copy-on-write parameters of `sbayes/sampling/state.py` (lines 20-148).

Numpy arrays live in an explicit heap, because aliasing between copies is what is at stake.
An array is a list of rows (axis 0); a row is an arbitrary value of type `ρ`.
Each public method is one atomic operation.  Simplification: the body of a `with p.edit()` block
is a function on the array (no other operation happens while the block is open), and arrays passed
to a constructor or to `set_value` are not held by anybody else.
-/
namespace SBayes.Heap

/-- A numpy array object: its rows and its `flags.writeable`. -/
structure Cell (ρ : Type) where
  rows : List ρ
  writeable : Bool

/-- `ArrayParameter` / `GroupedParameters` objects, state.py:20-28, 38-43, 82-88.
`grouped` is the class of the object; `gaddr` is only used when `grouped`. -/
structure Param where
  grouped : Bool
  vaddr : Nat
  version : Nat
  shared : Bool
  gaddr : Nat
deriving Repr, DecidableEq

/-- All live arrays and parameters.  `vnext`/`gnext` are the next unused addresses. -/
structure World (ρ : Type) where
  vheap : Nat → Cell ρ
  vnext : Nat
  gheap : Nat → List Nat
  gnext : Nat
  params : List Param

/-- The program state before any parameter has been created. -/
def World.empty (ρ : Type) : World ρ :=
  { vheap := fun _ => ⟨[], true⟩, vnext := 0, gheap := fun _ => [], gnext := 0, params := [] }

/-- Writing to one heap address. -/
def upd {α : Type} (h : Nat → α) (a : Nat) (x : α) : Nat → α := fun b => if b = a then x else h b

/-- The `keys`/`values` of `set_items`: either `keys` selects inside row `g`
(`int` or `tuple` key, state.py:94-97), or it is any other numpy index. -/
inductive Items (ρ : Type) where
  | row (g : Nat) (f : ρ → ρ)
  | other (f : List ρ → List ρ)

/-- `self._value[keys] = values` as a function on the rows (state.py:59). -/
def Items.apply {ρ : Type} : Items ρ → List ρ → List ρ
  | .row g f, l => l.modify g f
  | .other f, l => f l

/-- Does the row key exist?  (Python would raise IndexError; negative indices are not modelled.) -/
def Items.inRange {ρ : Type} : Items ρ → List ρ → Bool
  | .row g _, l => g < l.length
  | .other _, _ => true

/-- The public operations. `i` is the index of the parameter object they are called on. -/
inductive Op (ρ : Type) where
  | create (grouped : Bool) (rows : List ρ)
  | copy (i : Nat)
  | setValue (i : Nat) (rows : List ρ)
  | setItems (i : Nat) (it : Items ρ)
  | edit (i : Nat) (f : List ρ → List ρ)
  | editAbort (i : Nat) (f : List ρ → List ρ)
  | editGroup (i g : Nat) (f : ρ → ρ)
  | editGroupAbort (i g : Nat) (f : ρ → ρ)

/-- `resolve_sharing`, state.py:77-79 (arrays) and 121-123 (grouped): the value array, and for
grouped parameters the counters, are copied to fresh arrays (`ndarray.copy()` gives a writeable
array) and the object is not shared any more. -/
def resolveSharing {ρ : Type} (w : World ρ) (p : Param) : World ρ × Param :=
  let w₁ : World ρ := { w with
    vheap := upd w.vheap w.vnext ⟨(w.vheap p.vaddr).rows, true⟩, vnext := w.vnext + 1 }
  if p.grouped then
    ({ w₁ with gheap := upd w.gheap w.gnext (w.gheap p.gaddr), gnext := w.gnext + 1 },
     { p with vaddr := w.vnext, gaddr := w.gnext, shared := false })
  else (w₁, { p with vaddr := w.vnext, shared := false })

/-- `if self.shared: self.resolve_sharing()`, state.py:55-56, 65-66, 112-113. -/
def unshare {ρ : Type} (w : World ρ) (p : Param) : World ρ × Param :=
  if p.shared then resolveSharing w p else (w, p)

/-- Overwrite the rows of the array of `p` and set its writeable flag. -/
def writeRows {ρ : Type} (w : World ρ) (p : Param) (rows : List ρ) (wr : Bool) : World ρ :=
  { w with vheap := upd w.vheap p.vaddr ⟨rows, wr⟩ }

/-- `self.group_versions[g] = self.version`, state.py:95, 97, 119. -/
def bumpGroup {ρ : Type} (w : World ρ) (p : Param) (g : Nat) : World ρ :=
  { w with gheap := upd w.gheap p.gaddr ((w.gheap p.gaddr).set g p.version) }

/-- Store the (mutated) object back. -/
def putParam {ρ : Type} (w : World ρ) (i : Nat) (p : Param) : World ρ :=
  { w with params := w.params.set i p }

/-- One operation; the `Bool` says whether it returned normally (`false`: it raised). -/
def step {ρ : Type} (w : World ρ) : Op ρ → World ρ × Bool
  | .create grouped rows =>
    -- state.py:40-43 and 86-88: array made read-only, version 0, `np.zeros(n_groups)` counters
    ({ w with
        vheap := upd w.vheap w.vnext ⟨rows, false⟩, vnext := w.vnext + 1
        gheap := upd w.gheap w.gnext (List.replicate rows.length 0), gnext := w.gnext + 1
        params := w.params ++ [⟨grouped, w.vnext, 0, false, w.gnext⟩] }, true)
  | .copy i =>
    -- state.py:73-75: mark shared, shallow copy
    match w.params[i]? with
    | none => (w, false)
    | some p =>
      let p' := { p with shared := true }
      let w' := putParam w i p'
      ({ w' with params := w'.params ++ [p'] }, true)
  | .setValue i rows =>
    -- state.py:33-35 and 49-52
    match w.params[i]? with
    | none => (w, false)
    | some p =>
      let w' := { w with vheap := upd w.vheap w.vnext ⟨rows, false⟩, vnext := w.vnext + 1 }
      (putParam w' i { p with vaddr := w.vnext, version := p.version + 1, shared := false }, true)
  | .setItems i it =>
    -- state.py:54-61 (arrays), 90-100 (grouped)
    match w.params[i]? with
    | none => (w, false)
    | some p =>
      let (w₁, p₁) := unshare w p
      if it.inRange (w₁.vheap p₁.vaddr).rows then
      let w₂ := writeRows w₁ p₁ (it.apply (w₁.vheap p₁.vaddr).rows) false
      let p₂ := { p₁ with version := p₁.version + 1 }
      if p.grouped then
        match it with
        | .row g _ => (putParam (bumpGroup w₂ p₂ g) i p₂, true)
        | .other _ => (putParam w₂ i p₂, false)     -- RuntimeError, state.py:99-100
      else (putParam w₂ i p₂, true)
      else -- IndexError in line 59; the array stays writeable
        (putParam (writeRows w₁ p₁ (w₁.vheap p₁.vaddr).rows true) i p₁, false)
  | .edit i f =>
    -- state.py:63-71
    match w.params[i]? with
    | none => (w, false)
    | some p =>
      let (w₁, p₁) := unshare w p
      let w₂ := writeRows w₁ p₁ (f (w₁.vheap p₁.vaddr).rows) false
      (putParam w₂ i { p₁ with version := p₁.version + 1 }, true)
  | .editAbort i f =>
    -- state.py:63-71 when the body raises after having applied `f`: lines 70-71 are skipped
    match w.params[i]? with
    | none => (w, false)
    | some p =>
      let (w₁, p₁) := unshare w p
      (putParam (writeRows w₁ p₁ (f (w₁.vheap p₁.vaddr).rows) true) i p₁, false)
  | .editGroup i g f =>
    -- state.py:110-119; also `set_group` (102-104), `add_object`, `remove_object` (142-148)
    -- (a plain `ArrayParameter` has no such method: AttributeError)
    match w.params[i]? with
    | none => (w, false)
    | some p =>
      if p.grouped then
      let (w₁, p₁) := unshare w p
      if g < (w₁.vheap p₁.vaddr).rows.length then
      let w₂ := writeRows w₁ p₁ ((w₁.vheap p₁.vaddr).rows.modify g f) false
      let p₂ := { p₁ with version := p₁.version + 1 }
      (putParam (bumpGroup w₂ p₂ g) i p₂, true)
      else -- IndexError in line 116; the array stays writeable
        (putParam (writeRows w₁ p₁ (w₁.vheap p₁.vaddr).rows true) i p₁, false)
      else (w, false)
  | .editGroupAbort i g f =>
    -- state.py:110-119 when the body raises: lines 117-119 are skipped
    match w.params[i]? with
    | none => (w, false)
    | some p =>
      if p.grouped then
      let (w₁, p₁) := unshare w p
      (putParam (writeRows w₁ p₁ ((w₁.vheap p₁.vaddr).rows.modify g f) true) i p₁, false)
      else (w, false)

/-- A history of operations. -/
def run {ρ : Type} (w : World ρ) : List (Op ρ) → World ρ
  | [] => w
  | op :: ops => run (step w op).1 ops

/-- What a user reads: `p.value` (state.py:29-31). -/
def value {ρ : Type} (w : World ρ) (i : Nat) : Option (List ρ) :=
  (w.params[i]?).map fun p => (w.vheap p.vaddr).rows

/-- `p.version`. -/
def version {ρ : Type} (w : World ρ) (i : Nat) : Option Nat := (w.params[i]?).map (·.version)

/-- `p.group_versions` (only meaningful for grouped parameters). -/
def groupVersions {ρ : Type} (w : World ρ) (i : Nat) : Option (List Nat) :=
  (w.params[i]?).map fun p => w.gheap p.gaddr

/-- `p.value.flags.writeable`: may the array be written to outside of an edit block? -/
def writeable {ρ : Type} (w : World ρ) (i : Nat) : Option Bool :=
  (w.params[i]?).map fun p => (w.vheap p.vaddr).writeable

end SBayes.Heap
