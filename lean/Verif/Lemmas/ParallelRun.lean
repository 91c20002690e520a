import Verif.Lemmas.Parallel
/- What the runs of one command read and write. -/
namespace SBayes.Par
open Command
open SBayes.Config (Kind resultFile runConfigurations)
open SBayes.Log (lit)

variable {E : Command}

/-! ### The files of a run -/

/-- The result files of a run. -/
def Own (E : Command) (x : ℕ × ℕ) : Set Path := {q | ∃ kind, q = E.filePath kind x.2 x.1}

/-- The files that a run may change. -/
def Mine (E : Command) (x : ℕ × ℕ) : Set Path := {q | q = E.logPath ∨ q = E.copyPath ∨ q ∈ Own E x}

/-- Files outside the results directory. -/
def Outside (E : Command) : Set Path := {q | ¬ (E.base ++ ['/']) <+: q}

/-- Files in the results directory. -/
def Inside (E : Command) : Set Path := {q | (E.base ++ ['/']) <+: q}

theorem inBase_inside (name : Str) : E.inBase name ∈ Inside E := by
  refine ⟨name, ?_⟩
  simp [inBase]

theorem inBase_inj {a b : Str} (h : E.inBase a = E.inBase b) : a = b := by
  have := List.append_cancel_left h
  simpa using this

theorem slash_resultFile (kind : Kind) (k run : ℕ) : '/' ∈ resultFile kind k run := by
  unfold resultFile
  cases kind <;> simp [lit]

theorem slash_basename (p : Path) : '/' ∉ basename p := by
  unfold basename
  rw [List.mem_reverse]
  intro h
  have := List.all_eq_true.mp (List.all_takeWhile (p := fun c => decide (c ≠ '/')) (l := p.reverse)) _ h
  simp at this

theorem own_ne_log {x : ℕ × ℕ} {q : Path} (h : q ∈ Own E x) : q ≠ E.logPath := by
  obtain ⟨kind, rfl⟩ := h
  intro e
  have h1 := slash_resultFile kind x.2 x.1
  rw [inBase_inj e] at h1
  exact absurd h1 (by decide)

theorem own_ne_copy {x : ℕ × ℕ} {q : Path} (h : q ∈ Own E x) : q ≠ E.copyPath := by
  obtain ⟨kind, rfl⟩ := h
  intro e
  have h1 := slash_resultFile kind x.2 x.1
  rw [inBase_inj e] at h1
  exact slash_basename _ h1

theorem own_disjoint {x y : ℕ × ℕ} {q : Path} (h : q ∈ Own E x) (h' : q ∈ Own E y) : x = y := by
  obtain ⟨kind, rfl⟩ := h
  obtain ⟨kind', e⟩ := h'
  obtain ⟨_, h1, h2⟩ := SBayes.Config.C44_files_differ (inBase_inj e)
  exact Prod.ext h2 h1

theorem mine_inside (x : ℕ × ℕ) : Mine E x ⊆ Inside E := by
  rintro q (rfl | rfl | ⟨kind, rfl⟩) <;> exact inBase_inside _

theorem outside_inside : Disjoint (Outside E) (Inside E) := Set.disjoint_left.mpr fun _ h h' => h h'

theorem copy_ne_log (hE : E.Tidy) : E.copyPath ≠ E.logPath := fun e => hE.name (inBase_inj e)

/-! ### What a run does -/

theorem within_mono {R W W' : Set Path} (hW : W ⊆ W') : ∀ {p : Prog}, Within R W p → Within R W' p
  | .done, _ => trivial
  | .read _ _, h => ⟨h.1, fun t => within_mono hW (h.2 t)⟩
  | .op _ _, h => ⟨hW h.1, within_mono hW h.2⟩

theorem within_ops {R W : Set Path} {os : List Op} {next : Prog} (h : ∀ o ∈ os, o.path ∈ W) (hn : Within R W next) :
    Within R W (ops os next) := by
  induction os with
  | nil => exact hn
  | cons o os ih => exact ⟨h o (by simp), ih fun o' ho' => h o' (by simp [ho'])⟩

theorem within_readAll {R W : Set Path} {ps : List Path} : ∀ {next : List Str → Prog}, (∀ p ∈ ps, p ∈ R) →
    (∀ ts, Within R W (next ts)) → Within R W (readAll ps next) := by
  induction ps with
  | nil => exact fun _ hn => hn []
  | cons p ps ih => exact fun h hn => ⟨h p (by simp), fun t => ih (fun q hq => h q (by simp [hq])) fun ts => hn _⟩

theorem writeBlocks_path {p : Path} {bs : List Str} : ∀ {pos : ℕ}, ∀ o ∈ writeBlocks p pos bs, o.path = p := by
  induction bs with
  | nil => intro pos o ho; cases ho
  | cons b bs ih =>
    intro pos o ho
    rcases List.mem_cons.mp ho with rfl | ho
    · rfl
    · exact ih o ho

theorem within_init (hE : E.Tidy) {x : ℕ × ℕ} {log : Bool} {next : Str → Prog} (hn : ∀ c, Within (Outside E) (Mine E x) (next c)) :
    Within (Outside E) (Mine E x) (E.init log next) := by
  refine ⟨hE.config, fun c => ⟨Or.inl rfl, within_ops ?_ ⟨hE.config, fun c' => ⟨Or.inr (Or.inl rfl), within_ops ?_ (hn c)⟩⟩⟩⟩
  · intro o ho
    split at ho
    · obtain ⟨m, -, rfl⟩ := List.mem_map.mp ho
      exact Or.inl rfl
    · cases ho
  · intro o ho
    exact Or.inr (Or.inl (writeBlocks_path o ho))

theorem runOp_path (x : ℕ × ℕ) (o : RunOp) : (E.runOp x.1 x.2 o).path ∈ Mine E x := by
  cases o with
  | log m => exact Or.inl rfl
  | create k => exact Or.inr (Or.inr ⟨k, rfl⟩)
  | append k t => exact Or.inr (Or.inr ⟨k, rfl⟩)
  | writeAt k p t => exact Or.inr (Or.inr ⟨k, rfl⟩)

theorem runner_within (hE : E.Tidy) (x : ℕ × ℕ) : Within (Outside E) (Mine E x) (E.runner x) := by
  refine within_init hE fun c => within_readAll (hE.data c) fun ds => within_ops ?_ trivial
  intro o ho
  obtain ⟨r, -, rfl⟩ := List.mem_map.mp ho
  exact runOp_path x r

theorem onlyAdds_ops {log : Path} {os : List Op} {next : Prog} (h : ∀ o ∈ os, o.path ≠ log ∨ ∃ t, o = .append log t)
    (hn : OnlyAdds log next) : OnlyAdds log (ops os next) := by
  induction os with
  | nil => exact hn
  | cons o os ih =>
    have ih := ih fun o' ho' => h o' (by simp [ho'])
    have ho := h o (by simp)
    cases o with
    | create p => exact ⟨by rcases ho with ho | ⟨t, ho⟩; exacts [ho, by cases ho], ih⟩
    | append p t => exact ih
    | writeAt p pos t => exact ⟨by rcases ho with ho | ⟨t, ho⟩; exacts [ho, by cases ho], ih⟩

theorem onlyAdds_readAll {log : Path} {ps : List Path} : ∀ {next : List Str → Prog}, (∀ ts, OnlyAdds log (next ts)) →
    OnlyAdds log (readAll ps next) := by
  induction ps with
  | nil => exact fun hn => hn []
  | cons p ps ih => exact fun hn t => ih fun ts => hn _

theorem onlyAdds_init (hE : E.Tidy) {log : Bool} {next : Str → Prog} (hn : ∀ c, OnlyAdds E.logPath (next c)) :
    OnlyAdds E.logPath (E.init log next) := by
  refine fun c => onlyAdds_ops ?_ fun c' => ⟨copy_ne_log hE, onlyAdds_ops ?_ (hn c)⟩
  · intro o ho
    split at ho
    · obtain ⟨m, -, rfl⟩ := List.mem_map.mp ho
      exact Or.inr ⟨m, rfl⟩
    · cases ho
  · intro o ho
    left
    rw [writeBlocks_path o ho]
    exact copy_ne_log hE

theorem runner_onlyAdds (hE : E.Tidy) (x : ℕ × ℕ) : OnlyAdds E.logPath (E.runner x) := by
  refine onlyAdds_init hE fun c => onlyAdds_readAll fun ds => onlyAdds_ops ?_ trivial
  intro o ho
  obtain ⟨r, -, rfl⟩ := List.mem_map.mp ho
  cases r with
  | log m => exact Or.inr ⟨m, rfl⟩
  | create k => exact Or.inl (own_ne_log (x := x) ⟨k, rfl⟩)
  | append k t => exact Or.inl (own_ne_log (x := x) ⟨k, rfl⟩)
  | writeAt k p t => exact Or.inl (own_ne_log (x := x) ⟨k, rfl⟩)

theorem copies_ops {P : Path} {c : Str} {d : Disk} {m : ℕ} {os : List Op} {next : Prog} (h : ∀ o ∈ os, o.path ≠ P)
    (hn : Copies P c d m next) : Copies P c d m (ops os next) := by
  induction os with
  | nil => exact hn
  | cons o os ih =>
    have ih := ih fun o' ho' => h o' (by simp [ho'])
    have ho := h o (by simp)
    cases o with
    | create p => change p ≠ P at ho; rw [ops, List.foldr_cons, Copies, if_neg ho]; exact ih
    | append p t => exact ⟨ho, ih⟩
    | writeAt p pos t => change p ≠ P at ho; rw [ops, List.foldr_cons, Copies, if_neg ho]; exact ih

theorem copies_readAll {P : Path} {c : Str} {d : Disk} {ps : List Path} : ∀ {next : List Str → Prog},
    (∀ ts, Copies P c d c.length (next ts)) → Copies P c d c.length (readAll ps next) := by
  induction ps with
  | nil => exact fun hn => hn []
  | cons p ps ih =>
    intro next hn
    rw [readAll, Copies]
    cases d p with
    | none => rfl
    | some t => exact ih fun ts => hn _

theorem copies_blocks {P : Path} {c : Str} {d : Disk} {next : Prog} (hn : Copies P c d c.length next) (bs : List Str) :
    ∀ m, c.drop m = bs.flatten → m ≤ c.length → Copies P c d m (ops (writeBlocks P m bs) next) := by
  induction bs with
  | nil =>
    intro m h hm
    have : m = c.length := by
      have := congrArg List.length h
      simp at this
      omega
    subst this
    exact hn
  | cons b bs ih =>
    intro m h hm
    rw [List.flatten_cons] at h
    have hl := congrArg List.length h
    rw [List.length_drop, List.length_append] at hl
    rw [writeBlocks, ops, List.foldr_cons, Copies, if_pos rfl]
    refine ⟨rfl, by omega, fun x hx => ?_, ih _ ?_ (by omega)⟩
    · rw [← List.getElem?_drop, h, List.getElem?_append_left hx]
    · rw [← List.drop_drop, h, List.drop_left]

theorem copies_init (hE : E.Tidy) {d : Disk} {c : Str} (hc : d E.config = some c) {log : Bool} {next : Str → Prog}
    (hn : Copies E.copyPath c d c.length (next c)) : Copies E.copyPath c d c.length (E.init log next) := by
  unfold Command.init
  rw [Copies, hc]
  refine ⟨fun e => copy_ne_log hE e.symm, copies_ops ?_ ?_⟩
  · intro o ho
    split at ho
    · obtain ⟨m, -, rfl⟩ := List.mem_map.mp ho
      exact fun e => copy_ne_log hE e.symm
    · cases ho
  · rw [Copies, hc]
    dsimp only
    rw [Copies, if_pos rfl]
    exact copies_blocks hn _ 0 (by rw [hE.blocks]; rfl) (Nat.zero_le _)

theorem runner_copies (hE : E.Tidy) {d : Disk} {c : Str} (hc : d E.config = some c) (x : ℕ × ℕ) :
    Copies E.copyPath c d c.length (E.runner x) := by
  refine copies_init hE hc (copies_readAll fun ds => copies_ops ?_ rfl)
  intro o ho
  obtain ⟨r, -, rfl⟩ := List.mem_map.mp ho
  cases r with
  | log m => exact fun e => copy_ne_log hE e.symm
  | create k => exact own_ne_copy (x := x) ⟨k, rfl⟩
  | append k t => exact own_ne_copy (x := x) ⟨k, rfl⟩
  | writeAt k p t => exact own_ne_copy (x := x) ⟨k, rfl⟩

/-! ### One run -/

theorem finish_ops (os : List Op) (next : Prog) : ∀ d, finish d (ops os next) = finish (os.foldl doOp d) next := by
  induction os with
  | nil => exact fun d => rfl
  | cons o os ih => exact fun d => ih _

theorem finish_readAll (ps : List Path) : ∀ (next : List Str → Prog) (d : Disk), finish d (readAll ps next) =
    match ps.mapM d with
    | none => (d, false)
    | some ts => finish d (next ts) := by
  induction ps with
  | nil => exact fun next d => rfl
  | cons p ps ih =>
    intro next d
    rw [readAll, finish]
    cases hd : d p with
    | none => simp [List.mapM_cons, hd]
    | some t =>
      dsimp only
      rw [ih]
      cases hm : ps.mapM d with
      | none => simp [List.mapM_cons, hd, hm]
      | some ts => simp [List.mapM_cons, hd, hm]

/-- Alone, until the end, in one operation after the other. -/
theorem finish_alone (d : Disk) (p : Prog) : ∃ n, (alone d p n).2 = .done ∧ (alone d p n).1 = (finish d p).1 := by
  obtain ⟨n, hn⟩ := alone_ends p d
  exact ⟨n, hn, alone_finish n d p hn⟩

/-- A copy made by a process that is alone is complete. -/
theorem finish_copies {R W : Set Path} {P : Path} {c : Str} (hRW : Disjoint R W) {d : Disk} {p : Prog} (hW : Within R W p)
    (h : Copies P c d c.length p) (hf : d P = some c) : (finish d p).1 P = some c := by
  obtain ⟨n, h1, h2⟩ := finish_alone d p
  have := pool_alone (R := R) (A := Set.univ) (fun j => if j = 0 then W else ∅) (Set.subset_univ _) (i := 0)
    (fun j hj => by rw [if_neg hj]; simp) (List.replicate n 0) d d [p] p rfl
    (fun j q hq => by
      cases j with
      | zero => cases hq; rw [if_pos rfl]; exact hW
      | succ j => cases hq) (fun _ _ => rfl)
  rw [List.count_replicate_self] at this
  rw [← h2, ← this.2 P trivial]
  refine pool_copy hRW (d := d) (ps := [p]) (fun q hq => ?_) hf _ ?_
  · rw [List.mem_singleton] at hq
    subst hq
    exact ⟨hW, h⟩
  · intro q hq
    obtain ⟨i, hi⟩ := List.mem_iff_getElem?.mp hq
    have hl := (List.getElem?_eq_some_iff.mp hi).1
    rw [pool_length] at hl
    have : i = 0 := by simpa using hl
    subst this
    rw [this.1] at hi
    cases hi
    exact h1

/-- A run: it fails if the configuration or one of the data files is missing, whatever the run and number of clusters, and then
has not touched any result file. -/
theorem runner_fails {d : Disk} (hE : E.Tidy) (x y : ℕ × ℕ) :
    (finish d (E.runner x)).2 = (finish d (E.runner y)).2 ∧
      ((finish d (E.runner x)).2 = false → ∀ z, ∀ q ∈ Own E z, (finish d (E.runner x)).1 q = d q) := by
  unfold runner Command.init
  simp only [finish]
  cases hc : d E.config with
  | none => exact ⟨rfl, fun _ _ _ _ => rfl⟩
  | some c =>
    dsimp only
    simp only [finish_ops, finish, if_true]
    have hsame : ∀ q, q ∈ Outside E ∨ (∃ z, q ∈ Own E z) →
        (List.foldl doOp (doOp d (Op.append E.logPath [])) (List.map (Op.append E.logPath) E.hello)) q =
          d q := by
      intro q hq
      have hql : q ≠ E.logPath := by
        rcases hq with hq | ⟨z, hq⟩
        · rintro rfl; exact hq (inBase_inside _)
        · exact own_ne_log hq
      have : ∀ (ms : List Str) (d' : Disk), (List.foldl doOp d' (ms.map (Op.append E.logPath))) q = d' q := by
        intro ms
        induction ms with
        | nil => exact fun _ => rfl
        | cons m ms ih => exact fun d' => (ih _).trans (doOp_other (o := .append E.logPath m) hql)
      rw [this]
      exact doOp_other (o := .append E.logPath []) hql
    rw [hsame E.config (Or.inl hE.config), hc]
    dsimp only
    simp only [finish_ops, finish, finish_readAll]
    have hblocks : ∀ (bs : List Str) (pos : ℕ) (d' : Disk) (q : Path), q ≠ E.copyPath →
        (List.foldl doOp d' (writeBlocks E.copyPath pos bs)) q = d' q := by
      intro bs
      induction bs with
      | nil => exact fun _ _ _ _ => rfl
      | cons b bs ih => exact fun pos d' q hq => (ih _ _ q hq).trans (doOp_other (o := .writeAt E.copyPath pos b) hq)
    generalize hD : List.foldl doOp (doOp _ (Op.create E.copyPath)) _ = D
    have hDq : ∀ z, ∀ q ∈ Own E z, D q = d q := by
      intro z q hq
      rw [← hD, hblocks _ _ _ _ (own_ne_copy hq), doOp_other (o := .create E.copyPath) (own_ne_copy hq)]
      exact hsame q (Or.inr ⟨z, hq⟩)
    cases (E.dataFiles c).mapM D with
    | none => exact ⟨rfl, fun _ => hDq⟩
    | some ts => exact ⟨rfl, fun h => by cases h⟩

/-- The runs one after the other: files that they do not touch. -/
theorem sequential_other (hE : E.Tidy) (xs : List (ℕ × ℕ)) : ∀ (d : Disk) (q : Path), (∀ x ∈ xs, q ∉ Mine E x) →
    E.sequential d xs q = d q := by
  induction xs with
  | nil => exact fun _ _ _ => rfl
  | cons x xs ih =>
    intro d q hq
    have h1 := finish_other _ d (runner_within hE x) q (hq x (by simp))
    rw [sequential]
    split
    · rw [ih _ _ fun y hy => hq y (by simp [hy]), h1]
    · exact h1

/-- The runs one after the other: each has written the files that it would have written alone. -/
theorem sequential_own (hE : E.Tidy) (d0 : Disk) (xs : List (ℕ × ℕ)) : ∀ (d : Disk), xs.Nodup → (∀ q ∈ Outside E, d q = d0 q) →
    (∀ x ∈ xs, ∀ q ∈ Own E x, d q = d0 q) → ∀ x ∈ xs, ∀ q ∈ Own E x, E.sequential d xs q = (finish d0 (E.runner x)).1 q := by
  induction xs with
  | nil => intro d _ _ _ x hx; cases hx
  | cons x xs ih =>
    intro d hnd hR hO y hy q hq
    rw [List.nodup_cons] at hnd
    have hx := finish_congr (A := Outside E ∪ Own E x) Set.subset_union_left (E.runner x) d d0 (runner_within hE x)
      (by rintro r (hr | hr); exacts [hR r hr, hO x (by simp) r hr])
    have hother : ∀ r, r ∈ Outside E ∨ (∃ z ∈ xs, r ∈ Own E z) → (finish d (E.runner x)).1 r = d r := by
      intro r hr
      apply finish_other _ d (runner_within hE x)
      rintro (e | e | e)
      · rcases hr with hr | ⟨z, hz, hr⟩
        · exact hr (e ▸ inBase_inside _)
        · exact own_ne_log hr e
      · rcases hr with hr | ⟨z, hz, hr⟩
        · exact hr (e ▸ inBase_inside _)
        · exact own_ne_copy hr e
      · rcases hr with hr | ⟨z, hz, hr⟩
        · exact hr (mine_inside x (Or.inr (Or.inr e)))
        · exact hnd.1 (own_disjoint e hr ▸ hz)
    have hyx : y ∈ xs → q ∉ Mine E x := by
      rintro hyxs (e | e | e)
      · exact own_ne_log hq e
      · exact own_ne_copy hq e
      · exact hnd.1 (own_disjoint e hq ▸ hyxs)
    rw [sequential]
    split
    · rename_i hok
      rcases List.mem_cons.mp hy with rfl | hy
      · rw [sequential_other hE xs _ q, hx.2 q (Or.inr hq)]
        rintro z hz (e | e | e)
        · exact own_ne_log hq e
        · exact own_ne_copy hq e
        · exact hnd.1 (own_disjoint hq e ▸ hz)
      · refine ih _ hnd.2 (fun r hr => ?_) (fun z hz r hr => ?_) y hy q hq
        · rw [hother r (Or.inl hr), hR r hr]
        · rw [hother r (Or.inr ⟨z, hz, hr⟩), hO z (by simp [hz]) r hr]
    · rename_i hfail
      have hf : (finish d0 (E.runner x)).2 = false := by rw [← hx.1]; simpa using hfail
      have hfy : (finish d0 (E.runner y)).2 = false := by rw [(runner_fails hE y x).1]; exact hf
      rw [(runner_fails hE y y).2 hfy y q hq]
      rcases List.mem_cons.mp hy with rfl | hy'
      · rw [hx.2 q (Or.inr hq), (runner_fails hE y y).2 hfy y q hq]
      · rw [hother q (Or.inr ⟨y, hy', hq⟩), hO y (by simp [hy']) q hq]

/-- The runs one after the other: the copy of the configuration. -/
theorem sequential_copy (hE : E.Tidy) {c : Str} (xs : List (ℕ × ℕ)) : ∀ (d : Disk), d E.config = some c →
    d E.copyPath = some c → E.sequential d xs E.copyPath = some c := by
  induction xs with
  | nil => exact fun _ _ h => h
  | cons x xs ih =>
    intro d hc hf
    have h1 : (finish d (E.runner x)).1 E.copyPath = some c :=
      finish_copies (Disjoint.mono_right (mine_inside x) outside_inside) (runner_within hE x) (runner_copies hE hc x) hf
    rw [sequential]
    split
    · refine ih _ ?_ h1
      rw [finish_other _ d (runner_within hE x) E.config fun h => hE.config (mine_inside x h), hc]
    · exact h1

/-- The preparation: it succeeds if the configuration file exists, which is then copied. -/
theorem prepare_ok (hE : E.Tidy) {d : Disk} (h : (E.prepare d).2 = true) :
    ∃ c, d E.config = some c ∧ (E.prepare d).1 E.config = some c ∧ (E.prepare d).1 E.copyPath = some c := by
  have hw : Within (Outside E) (Mine E (0, 0)) (E.init false fun _ => .done) := within_init hE fun _ => trivial
  have hout := finish_other _ d hw E.config fun h => hE.config (mine_inside _ h)
  cases hc : d E.config with
  | none =>
    unfold prepare Command.init at h
    rw [finish, hc] at h
    cases h
  | some c =>
    refine ⟨c, rfl, by rw [← hc]; exact hout, ?_⟩
    unfold prepare Command.init
    rw [finish, hc]
    dsimp only
    rw [finish, finish_ops]
    have hne : E.config ≠ E.logPath := fun e => hE.config (e ▸ inBase_inside _)
    rw [if_neg (by simp), List.foldl_nil, finish, doOp_other (o := .append E.logPath []) hne, hc]
    dsimp only
    rw [finish]
    set d1 : Disk := doOp (doOp d (.append E.logPath [])) (.create E.copyPath) with hd1
    have key : ∀ (bs : List Str) (m : ℕ) (D : Disk) (f : Str), c.drop m = bs.flatten → m ≤ c.length → D E.copyPath = some f →
        Good c f m → (finish D (ops (writeBlocks E.copyPath m bs) .done)).1 E.copyPath = some c := by
      intro bs
      induction bs with
      | nil =>
        intro m D f hm hml hD hg
        have : m = c.length := by
          have := congrArg List.length hm
          simp at this
          omega
        subst this
        rw [← good_full hg]
        exact hD
      | cons b bs ih =>
        intro m D f hm hml hD hg
        rw [List.flatten_cons] at hm
        have hl := congrArg List.length hm
        rw [List.length_drop, List.length_append] at hl
        have hb : ∀ x < b.length, b[x]? = c[m + x]? := fun x hx => by
          rw [← List.getElem?_drop, hm, List.getElem?_append_left hx]
        refine ih (m + b.length) (doOp D (.writeAt E.copyPath m b)) (overwrite f m b) ?_ (by omega) ?_ ?_
        · rw [← List.drop_drop, hm, List.drop_left]
        · simp [doOp, hD]
        · exact (good_overwrite hg (by omega) hb).2 rfl
    refine key _ 0 d1 [] (by rw [hE.blocks]; rfl) (Nat.zero_le _) ?_ ⟨by simp, by simp, fun x hx => by omega⟩
    rw [hd1]
    simp [doOp]

/-! ### The operations of a run on its own files -/

/-- If the files of `d0` are read, the process leads to the operations `os`, without touching the files in `own` before. -/
def Leads (own : Set Path) (d0 : Disk) (os : List Op) : Prog → Prop
  | .done => Prog.done = ops os .done
  | .read q next => Prog.read q next = ops os .done ∨ ∃ t, d0 q = some t ∧ Leads own d0 os (next t)
  | .op o next => Prog.op o next = ops os .done ∨ (o.path ∉ own ∧ Leads own d0 os next)

theorem leads_self {own : Set Path} {d0 : Disk} {os : List Op} : ∀ {p : Prog}, p = ops os .done → Leads own d0 os p
  | .done, h => h
  | .read _ _, h => Or.inl h
  | .op _ _, h => Or.inl h

theorem leads_ops {own : Set Path} {d0 : Disk} {os os' : List Op} {p : Prog} (h : ∀ o ∈ os', o.path ∉ own) (hp : Leads own d0 os p) :
    Leads own d0 os (ops os' p) := by
  induction os' with
  | nil => exact hp
  | cons o os' ih => exact Or.inr ⟨h o (by simp), ih fun o' ho' => h o' (by simp [ho'])⟩

theorem leads_readAll {own : Set Path} {d0 : Disk} {os : List Op} {ps : List Path} : ∀ {next : List Str → Prog} {ts : List Str},
    ps.mapM d0 = some ts → Leads own d0 os (next ts) → Leads own d0 os (readAll ps next) := by
  induction ps with
  | nil =>
    intro next ts h hn
    have : ts = [] := by simpa using h.symm
    subst this
    exact hn
  | cons p ps ih =>
    intro next ts h hn
    rw [List.mapM_cons] at h
    cases hp : d0 p with
    | none => rw [hp] at h; cases h
    | some t =>
      cases hm : ps.mapM d0 with
      | none => rw [hp, hm] at h; cases h
      | some ts' =>
        rw [hp, hm] at h
        cases h
        exact Or.inr ⟨t, hp, ih hm hn⟩

theorem alone_ops (os : List Op) : ∀ (n : ℕ) (d : Disk), (alone d (ops os .done) n).1 = (os.take n).foldl doOp d ∧
    ((alone d (ops os .done) n).2 = .done → os.length ≤ n) := by
  induction os with
  | nil => intro n d; rw [ops, List.foldr_nil, alone_done]; simp
  | cons o os ih =>
    intro n d
    cases n with
    | zero => exact ⟨rfl, fun h => by cases h⟩
    | succ n =>
      obtain ⟨h1, h2⟩ := ih n (doOp d o)
      exact ⟨h1, fun h => by have := h2 h; simp only [List.length_cons]; omega⟩

theorem foldl_congr {own : Set Path} (os : List Op) : ∀ {d d' : Disk}, (∀ q ∈ own, d q = d' q) →
    ∀ q ∈ own, os.foldl doOp d q = os.foldl doOp d' q := by
  induction os with
  | nil => exact fun h => h
  | cons o os ih => exact fun h => ih fun q hq => doOp_congr q (h q hq)

/-- The files in `own` after some operations: those of a beginning of `os`, and of all of `os` at the end. -/
theorem leads_alone {own R W : Set Path} (hRW : Disjoint R W) {d0 : Disk} {os : List Op} (n : ℕ) : ∀ (p : Prog) (d : Disk), Within R W p →
    (∀ q ∈ R, d q = d0 q) → Leads own d0 os p → ∃ m, (∀ q ∈ own, (alone d p n).1 q = (os.take m).foldl doOp d q) ∧
      ((alone d p n).2 = .done → os.length ≤ m) := by
  induction n with
  | zero =>
    intro p d _ _ h
    refine ⟨0, fun q _ => rfl, fun hp => ?_⟩
    change p = .done at hp
    subst hp
    cases os with
    | nil => exact le_rfl
    | cons o os => cases h
  | succ n ih =>
    intro p d hw hd h
    by_cases hp : p = ops os .done
    · subst hp
      exact ⟨n + 1, fun q _ => by rw [(alone_ops os (n + 1) d).1], (alone_ops os (n + 1) d).2⟩
    · cases p with
      | done => exact absurd h hp
      | read q next =>
        rcases h with h | ⟨t, ht, h⟩
        · exact absurd h hp
        · have hq := (hd q hw.1).trans ht
          rw [alone]
          have hs : step d (.read q next) = (d, next t) := by simp only [step, hq]
          rw [hs]
          exact ih (next t) d (hw.2 t) hd h
      | op o next =>
        rcases h with h | ⟨ho, h⟩
        · exact absurd h hp
        · obtain ⟨m, h1, h2⟩ := ih next (doOp d o) hw.2 (fun q hq => by
            rw [doOp_other (o := o) (p := q) (fun e => Set.disjoint_left.mp hRW hq (e ▸ hw.1)), hd q hq]) h
          refine ⟨m, fun q hq => ?_, h2⟩
          rw [alone]
          refine (h1 q hq).trans (foldl_congr _ (fun r hr => ?_) q hq)
          exact doOp_other (fun e => ho (e ▸ hr))

theorem runner_leads {d : Disk} {c : Str} {ds : List Str} (hc : d E.config = some c) (hds : (E.dataFiles c).mapM d = some ds)
    (x : ℕ × ℕ) : Leads (Own E x) d ((E.session c ds x.1 x.2).map (E.runOp x.1 x.2)) (E.runner x) := by
  refine Or.inr ⟨c, hc, Or.inr ⟨fun h => own_ne_log h rfl, leads_ops ?_ (Or.inr ⟨c, hc, Or.inr ⟨fun h => own_ne_copy h rfl,
    leads_ops ?_ (leads_readAll hds (leads_self rfl))⟩⟩)⟩⟩
  · intro o ho
    rw [if_pos rfl] at ho
    obtain ⟨m, -, rfl⟩ := List.mem_map.mp ho
    exact fun h => own_ne_log h rfl
  · intro o ho h
    exact own_ne_copy h (writeBlocks_path o ho)

theorem filePath_kind {k run : ℕ} {kind kind' : Kind} (h : E.filePath kind k run = E.filePath kind' k run) : kind = kind' :=
  (SBayes.Config.C44_files_differ (inBase_inj h)).1

/-- The text files under the operations of a run. -/
theorem text_files (k run : ℕ) (os : List RunOp) : ∀ (d : Disk) (D : SBayes.Log.Disk),
    (∀ kind pos t, .writeAt kind pos t ∈ os → kind = .likelihood) →
    (∀ f, (d (E.filePath (kindOf f) k run)).getD [] = D f) →
    ∀ f, (((os.map (E.runOp run k)).foldl doOp d) (E.filePath (kindOf f) k run)).getD [] =
      ((os.filterMap textOp).foldl SBayes.Log.diskStep D) f := by
  induction os with
  | nil => exact fun d D _ h => h
  | cons o os ih =>
    intro d D hos h f
    have hos' : ∀ kind pos t, .writeAt kind pos t ∈ os → kind = .likelihood := fun kind pos t ht =>
      hos kind pos t (List.mem_cons_of_mem _ ht)
    rw [List.map_cons, List.foldl_cons]
    have other : ∀ (o' : Op), (∀ f, E.filePath (kindOf f) k run ≠ o'.path) →
        ∀ f, (doOp d o' (E.filePath (kindOf f) k run)).getD [] = D f := fun o' ho' f => by rw [doOp_other (ho' f)]; exact h f
    have cre : ∀ g, ∀ f, (doOp d (.create (E.filePath (kindOf g) k run)) (E.filePath (kindOf f) k run)).getD [] =
        SBayes.Log.diskStep D (.create g) f := by
      intro g f
      by_cases hf : f = g
      · subst hf; simp [doOp, SBayes.Log.diskStep]
      · rw [doOp_other, SBayes.Log.diskStep, Function.update_of_ne hf, h f]
        intro e
        have := filePath_kind e
        exact hf (by revert this; cases f <;> cases g <;> simp [kindOf])
    have app : ∀ g t, ∀ f, (doOp d (.append (E.filePath (kindOf g) k run) t) (E.filePath (kindOf f) k run)).getD [] =
        SBayes.Log.diskStep D (.append g t) f := by
      intro g t f
      by_cases hf : f = g
      · subst hf; simp [doOp, SBayes.Log.diskStep, h]
      · rw [doOp_other, SBayes.Log.diskStep, Function.update_of_ne hf, h f]
        intro e
        have := filePath_kind e
        exact hf (by revert this; cases f <;> cases g <;> simp [kindOf])
    cases o with
    | log m => exact ih _ _ hos' (other _ fun f e => own_ne_log (x := (run, k)) ⟨kindOf f, rfl⟩ e) f
    | writeAt kind pos t =>
      have := hos kind pos t List.mem_cons_self
      subst this
      refine ih _ _ hos' (other _ fun f e => ?_) f
      have := filePath_kind e
      cases f <;> cases this
    | create kind =>
      cases kind with
      | stats => exact ih _ _ hos' (cre .stats) f
      | clusters => exact ih _ _ hos' (cre .clusters) f
      | operatorStats => exact ih _ _ hos' (cre .opStats) f
      | likelihood =>
        refine ih _ _ hos' (other _ fun f e => ?_) f
        have := filePath_kind e
        cases f <;> cases this
    | append kind t =>
      cases kind with
      | stats => exact ih _ _ hos' (app .stats t) f
      | clusters => exact ih _ _ hos' (app .clusters t) f
      | operatorStats => exact ih _ _ hos' (app .opStats t) f
      | likelihood =>
        refine ih _ _ hos' (other _ fun f e => ?_) f
        have := filePath_kind e
        cases f <;> cases this

theorem filterMap_take {α β : Type} (g : α → Option β) (l : List α) (m : ℕ) : ∃ n, (l.take m).filterMap g = (l.filterMap g).take n := by
  refine ⟨((l.take m).filterMap g).length, ?_⟩
  conv_rhs => rw [← List.take_append_drop m l, List.filterMap_append]
  simp

end SBayes.Par
