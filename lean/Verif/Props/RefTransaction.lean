import Verif.Model.RefTransaction
import Verif.Lemmas.Lines
import Verif.Props.RewriteHooks

/-! C28: the reference-transaction hook. -/

namespace Verif.Props

/-- The text of a target: `ref:` and a name, or an object id. -/
inductive TargetText : Text → RefTarget → Prop where
  | symbolic (name : Text) : TargetText (t!"ref:" ++ name) (.symbolic name)
  | direct {s : Text} {oid : MaybeZero} : MaybeZero.parse s = some oid → TargetText s (.direct oid)

theorem targetText_iff (s : Text) (t : RefTarget) : RefTarget.parse s = some t ↔ TargetText s t := by
  have href : ∀ name : Text, MaybeZero.parse (t!"ref:" ++ name) = none := by
    intro name
    cases h : MaybeZero.parse (t!"ref:" ++ name) with
    | none => rfl
    | some z =>
      have := (isSome_parse_iff (t!"ref:" ++ name)).1 (by rw [h]; rfl)
      have := this.2.2 'r' (by simp)
      simp at this
  unfold RefTarget.parse
  constructor
  · intro h
    split at h
    · rename_i hp
      obtain ⟨name, rfl⟩ := List.isPrefixOf_iff_prefix.1 hp
      cases h
      exact .symbolic name
    · cases hs : MaybeZero.parse s with
      | none => simp [hs] at h
      | some o => simp [hs] at h; subst h; exact .direct hs
  · intro h
    cases h with
    | symbolic name => simp
    | direct hs =>
      split
      · rename_i hp
        obtain ⟨name, rfl⟩ := List.isPrefixOf_iff_prefix.1 hp
        rw [href] at hs; simp at hs
      · simp [hs]

/-- A line `old new name` of the hook's input. -/
def UpdateLine (line : Text) (name : Text) (old new : RefTarget) : Prop :=
  ∃ o n, line = o ++ ' ' :: (n ++ ' ' :: name) ∧ ' ' ∉ o ∧ ' ' ∉ n ∧ ' ' ∉ name ∧
    TargetText o old ∧ TargetText n new

theorem parseRefLine_iff (line name : Text) (old new : RefTarget) :
    parseRefLine line = some ⟨name, old, new⟩ ↔ UpdateLine line name old new := by
  constructor
  · intro h
    unfold parseRefLine at h
    split at h
    · rename_i o n nm hs
      split at h
      · rename_i o' n' h1 h2
        simp at h
        obtain ⟨rfl, rfl, rfl⟩ := h
        have hsp := splitChar_spec ' ' line
        rw [hs] at hsp
        refine ⟨o, n, ?_, hsp.1 o (by simp), hsp.1 n (by simp), hsp.1 nm (by simp),
          (targetText_iff _ _).1 h1, (targetText_iff _ _).1 h2⟩
        rw [← hsp.2]; simp [List.intercalate]
      · simp at h
    · simp at h
  · rintro ⟨o, n, rfl, h1, h2, h3, h4, h5⟩
    unfold parseRefLine
    rw [splitChar_append_sep h1, splitChar_append_sep h2, splitChar_of_not_mem h3]
    simp [(targetText_iff _ _).2 h4, (targetText_iff _ _).2 h5]

/-- The name of a reference which is internal: below `refs/branchless/`, or one of git's
pseudo-references. -/
def Internal (name : Text) : Prop :=
  (∃ rest, name = t!"refs/branchless/" ++ rest) ∨
  name ∈ [t!"ORIG_HEAD", t!"CHERRY_PICK", t!"REBASE_HEAD", t!"CHERRY_PICK_HEAD", t!"AUTO_MERGE",
    t!"FETCH_HEAD"]

theorem ignored_iff (name : Text) : shouldIgnoreRefUpdates name = true ↔ Internal name := by
  unfold shouldIgnoreRefUpdates isGcRef Internal
  simp only [Bool.or_eq_true, List.isPrefixOf_iff_prefix, beq_iff_eq, List.mem_cons,
    List.not_mem_nil, or_false]
  constructor
  · rintro ((((((⟨r, h⟩ | h) | h) | h) | h) | h) | h)
    · exact .inl ⟨r, h.symm⟩
    all_goals simp [h]
  · rintro (⟨r, h⟩ | h)
    · exact .inl (.inl (.inl (.inl (.inl (.inl ⟨r, h.symm⟩)))))
    · grind

/-- A target says that reference `name` is in the packed-refs file as it is. -/
inductive InPacked (packed : Text → Option MaybeZero) (name : Text) : RefTarget → Prop where
  | direct {oid : MaybeZero} : packed name = some oid → InPacked packed name (.direct oid)
  | symbolic : InPacked packed name (.symbolic name)

/-- The correction for packed references: a creation (deletion) of a value which is in the
packed-refs file is no change at all. Everything else is taken as it is. -/
inductive Corrected (packed : Text → Option MaybeZero) (name : Text) :
    RefTarget → RefTarget → RefTarget → RefTarget → Prop where
  | created {n} : InPacked packed name n → Corrected packed name (.direct .zero) n n n
  | deleted {o} : InPacked packed name o →
      ¬ (o = .direct .zero ∧ InPacked packed name (.direct .zero)) →
      Corrected packed name o (.direct .zero) o o
  | other {o n} : ¬ (o = .direct .zero ∧ InPacked packed name n) →
      ¬ (n = .direct .zero ∧ InPacked packed name o) → Corrected packed name o n o n

theorem targetMatches_iff (packed : AMap Text MaybeZero) (t : RefTarget) (name : Text) :
    targetMatches packed t name = true ↔ InPacked packed.get? name t := by
  cases t with
  | direct oid =>
    simp only [targetMatches, beq_iff_eq]
    exact ⟨.direct, fun h => by cases h; assumption⟩
  | symbolic n =>
    simp only [targetMatches, beq_iff_eq]
    constructor
    · rintro rfl; exact .symbolic
    · intro h; cases h; rfl

theorem fixPacked_corrected (packed : AMap Text MaybeZero) (name : Text) (o n : RefTarget) :
    ∃ o' n', fixPacked packed ⟨name, o, n⟩ = ⟨name, o', n'⟩ ∧
      Corrected packed.get? name o n o' n' := by
  unfold fixPacked
  simp only
  have e1 := targetMatches_iff packed n name
  have e2 := targetMatches_iff packed o name
  split
  · rename_i h
    obtain ⟨rfl, h⟩ := h
    exact ⟨n, n, rfl, .created (e1.1 h)⟩
  · rename_i h1
    rw [e1] at h1
    split
    · rename_i h
      obtain ⟨rfl, h⟩ := h
      exact ⟨o, o, rfl, .deleted (e2.1 h) h1⟩
    · rename_i h2
      rw [e2] at h2
      exact ⟨o, n, rfl, .other h1 h2⟩

/-- `packed name o n` has only one correction. -/
theorem corrected_unique {packed : Text → Option MaybeZero} {name : Text}
    {o n o1 n1 o2 n2 : RefTarget} (h1 : Corrected packed name o n o1 n1)
    (h2 : Corrected packed name o n o2 n2) : o1 = o2 ∧ n1 = n2 := by
  cases h1 <;> cases h2 <;> simp_all

/-- What has to be recorded for the input lines: `recorded` lists name, old and new value. -/
inductive Reports (packed resolve : Text → Option MaybeZero) :
    List (Option Text) → List (Text × MaybeZero × MaybeZero) → Prop where
  | nil : Reports packed resolve [] []
  /-- A malformed line, or a line about an internal reference. -/
  | skip {line lines r} : (∀ l name o n, line = some l → UpdateLine l name o n → Internal name) →
      Reports packed resolve lines r → Reports packed resolve (line :: lines) r
  | record {l name o n o' n' old new lines r} : UpdateLine l name o n → ¬ Internal name →
      Corrected packed name o n o' n' → o'.asOid resolve = some old → n'.asOid resolve = some new →
      Reports packed resolve lines r →
      Reports packed resolve (some l :: lines) ((name, old, new) :: r)

/-- All references which the input lines mention as symbolic targets can be resolved. -/
def Resolvable (resolve : Text → Option MaybeZero) (lines : List (Option Text)) : Prop :=
  ∀ l ∈ lines, ∀ t name o n, l = some t → UpdateLine t name o n → ¬ Internal name →
    (o.asOid resolve).isSome ∧ (n.asOid resolve).isSome

theorem corrected_resolves {packed : Text → Option MaybeZero} {name : Text} {o n o' n' : RefTarget}
    (h : Corrected packed name o n o' n') (resolve : Text → Option MaybeZero)
    (ho : (o.asOid resolve).isSome) (hn : (n.asOid resolve).isSome) :
    (∃ old, o'.asOid resolve = some old) ∧ ∃ new, n'.asOid resolve = some new := by
  simp only [← Option.isSome_iff_exists]
  cases h <;> simp_all

theorem kept_reports (packed : AMap Text MaybeZero) (resolve : Text → Option MaybeZero)
    (now : Timestamp) (tx : TxId) (lines : List (Option Text)) (hr : Resolvable resolve lines) :
    ∃ r, Reports packed.get? resolve lines r ∧
      (keptLines packed lines).mapM (eventOfLine now tx resolve) =
        some (r.map fun x => .refUpdate now tx x.1 x.2.1 x.2.2 none) := by
  induction lines with
  | nil => exact ⟨[], .nil, rfl⟩
  | cons line lines ih =>
    obtain ⟨r, hr1, hr2⟩ := ih fun l hl => hr l (by simp [hl])
    have hskip : line.bind parseRefLine = none →
        ∃ r, Reports packed.get? resolve (line :: lines) r ∧
          (keptLines packed (line :: lines)).mapM (eventOfLine now tx resolve) =
          some (r.map fun x => .refUpdate now tx x.1 x.2.1 x.2.2 none) := by
      intro hp
      refine ⟨r, .skip ?_ hr1, ?_⟩
      · rintro l name o n rfl hu
        rw [Option.bind_some, (parseRefLine_iff _ _ _ _).2 hu] at hp
        simp at hp
      · unfold keptLines at hr2 ⊢
        have : (line :: lines).filterMap (fun l => l.bind parseRefLine) =
            lines.filterMap (fun l => l.bind parseRefLine) := List.filterMap_cons_none hp
        rw [this]; exact hr2
    cases line with
    | none => exact hskip rfl
    | some l =>
      cases hp : parseRefLine l with
      | none => exact hskip hp
      | some p =>
        obtain ⟨name, o, n⟩ := p
        have hu := (parseRefLine_iff _ _ _ _).1 hp
        have hf : (some l :: lines).filterMap (fun l => l.bind parseRefLine) =
            ⟨name, o, n⟩ :: lines.filterMap (fun l => l.bind parseRefLine) :=
          List.filterMap_cons_some hp
        by_cases hi : shouldIgnoreRefUpdates name = true
        · refine ⟨r, .skip ?_ hr1, ?_⟩
          · intro l' name' o' n' he hu'
            cases he
            have := (parseRefLine_iff _ _ _ _).2 hu'
            rw [hp] at this
            cases this
            exact (ignored_iff _).1 hi
          · unfold keptLines at hr2 ⊢
            rw [hf, List.filter_cons_of_neg (by simp [hi])]; exact hr2
        · have hni : ¬ Internal name := fun h => hi ((ignored_iff _).2 h)
          obtain ⟨o', n', hfix, hc⟩ := fixPacked_corrected packed name o n
          obtain ⟨h1, h2⟩ := hr (some l) (by simp) l name o n rfl hu hni
          obtain ⟨⟨old, ho⟩, ⟨new, hn⟩⟩ := corrected_resolves hc resolve h1 h2
          refine ⟨(name, old, new) :: r, .record hu hni hc ho hn hr1, ?_⟩
          unfold keptLines at hr2 ⊢
          rw [hf, List.filter_cons_of_pos (by simp [hi]), List.map_cons, hfix, List.mapM_cons, hr2]
          simp [eventOfLine, ho, hn]

/-- C28: if the transaction is not committed, nothing is recorded. -/
theorem uncommitted_not_recorded (db : Db) (env : Option Text) (state : Text) (now : Timestamp)
    (packedFile : Option (Option Text)) (resolve : Text → Option MaybeZero)
    (lines : List (Option Text)) (h : state ≠ t!"committed") :
    hookReferenceTransaction db env state now packedFile resolve lines = (true, db) := by
  unfold hookReferenceTransaction; rw [if_pos h]

example : t!"prepared" ≠ t!"committed" := by decide

/-- What C28 asks of the hook. -/
def RecordsCommitted (resolve : Text → Option MaybeZero) (lines : List (Option Text)) : Prop :=
  ∀ (db : Db) (es : List Event) (env : Option Text) (now : Timestamp) (file : Option Text),
    db.pending = none → db.getEvents = some es →
    ∃ r, Reports (readPackedRefs file).get? resolve lines r ∧
      ∃ db', hookReferenceTransaction db env t!"committed" now (some file) resolve lines = (true, db') ∧
      db'.getEvents = some (es ++ storable (r.map fun x =>
        .refUpdate now (db.makeTransactionId env t!"reference-transaction").1 x.1 x.2.1 x.2.2 none))

/-- C28 (partial: for inputs whose symbolic targets resolve; `unresolvable_target_loses_others`
shows that it is false without): each line is recorded as specified by `Reports`: exactly one
event per well-formed line about a non-internal reference, in order, corrected for packed
references, whatever the other lines are. -/
theorem committed_recorded_partial (resolve : Text → Option MaybeZero) (lines : List (Option Text))
    (hr : Resolvable resolve lines) : RecordsCommitted resolve lines := by
  intro db es env now file hp he
  obtain ⟨h1, h2, _⟩ := makeTransactionId_getEvents db env t!"reference-transaction"
  obtain ⟨r, hr1, hr2⟩ := kept_reports (readPackedRefs file) resolve now
    (db.makeTransactionId env t!"reference-transaction").1 lines hr
  refine ⟨r, hr1, ?_⟩
  unfold hookReferenceTransaction
  rw [if_neg (by simp)]
  simp only
  rw [hr2]
  have ha := add_events_appends (db.makeTransactionId env t!"reference-transaction").2 es
    (r.map fun x => .refUpdate now (db.makeTransactionId env t!"reference-transaction").1 x.1 x.2.1 x.2.2 none)
    (by rw [h2, hp]) (by rw [h1, he])
  split
  · rename_i hemp
    rw [List.isEmpty_iff.1 hemp] at hr2
    have : r = [] := by
      cases r with
      | nil => rfl
      | cons x r => simp at hr2
    subst this
    exact ⟨_, rfl, by rw [h1, he]; simp [storable]⟩
  · exact ⟨_, rfl, ha.1⟩

/-- The specification determines what is recorded. -/
theorem reports_unique {packed resolve : Text → Option MaybeZero} {lines : List (Option Text)}
    {r1 r2 : List (Text × MaybeZero × MaybeZero)} (h1 : Reports packed resolve lines r1)
    (h2 : Reports packed resolve lines r2) : r1 = r2 := by
  induction h1 generalizing r2 with
  | nil => cases h2; rfl
  | skip hs _ ih =>
    cases h2 with
    | skip _ h => exact ih h
    | record hu hi => exact absurd (hs _ _ _ _ rfl hu) hi
  | record hu hi hc ho hn _ ih =>
    cases h2 with
    | skip hs => exact absurd (hs _ _ _ _ rfl hu) hi
    | record hu' hi' hc' ho' hn' h =>
      have e := (parseRefLine_iff _ _ _ _).2 hu
      rw [(parseRefLine_iff _ _ _ _).2 hu'] at e
      cases e
      obtain ⟨rfl, rfl⟩ := corrected_unique hc hc'
      rw [ho] at ho'; rw [hn] at hn'
      cases ho'; cases hn'
      rw [ih h]

/-- The line for setting the (unborn) branch `HEAD` refers to, and a normal line. -/
def symLine : Text := t!"ref:refs/heads/a ref:refs/heads/b HEAD"
def normalLine : Text := MaybeZero.zero.toText ++ ' ' :: (oidA.toText ++ ' ' :: t!"refs/heads/x")

/-- C28, finding: if one line mentions a symbolic target which cannot be resolved (such as a branch
without commits), the hook fails, and the other updates of the transaction are lost. -/
theorem unresolvable_target_loses_others :
    ∃ db', hookReferenceTransaction {} none t!"committed" 5 (some none) (fun _ => none)
        [some symLine, some normalLine] = (false, db') ∧ db'.getEvents = some [] ∧
    (hookReferenceTransaction {} none t!"committed" 5 (some none) (fun _ => none)
        [some normalLine]).2.getEvents
      = some [.refUpdate 5 (.id 1) t!"refs/heads/x" .zero (.nonZero oidA) none] := by
  refine ⟨_, rfl, rfl, ?_⟩
  decide

example : Resolvable (fun _ => none) [none, some normalLine] := by
  intro l hl t name o n ht hu _
  rcases List.mem_cons.1 hl with rfl | hl
  · simp at ht
  · rw [List.mem_singleton] at hl
    subst hl
    cases ht
    have := (parseRefLine_iff _ _ _ _).2 hu
    have h : parseRefLine normalLine =
      some ⟨t!"refs/heads/x", .direct .zero, .direct (.nonZero oidA)⟩ := by decide
    rw [h] at this
    cases this
    simp [RefTarget.asOid]

/-- C28: packing a reference - git reports its creation and then its deletion, while it is in the
packed-refs file with that value - is recorded as no change. -/
theorem packing_is_no_change (packed resolve : Text → Option MaybeZero) (name : Text)
    (o n : MaybeZero) (oid : Oid) (hp : packed name = some (.nonZero oid))
    (h : (o = .zero ∧ n = .nonZero oid) ∨ (o = .nonZero oid ∧ n = .zero)) (hs : ' ' ∉ name)
    (hi : ¬ Internal name) :
    Reports packed resolve [some (o.toText ++ ' ' :: (n.toText ++ ' ' :: name))]
      [(name, .nonZero oid, .nonZero oid)] := by
  have hu : UpdateLine (o.toText ++ ' ' :: (n.toText ++ ' ' :: name)) name (.direct o) (.direct n) :=
    ⟨_, _, rfl, space_not_mem_maybeZero o, space_not_mem_maybeZero n, hs,
      .direct (MaybeZero.parse_toText o), .direct (MaybeZero.parse_toText n)⟩
  rcases h with ⟨rfl, rfl⟩ | ⟨rfl, rfl⟩
  · exact .record hu hi (.created (.direct hp)) rfl rfl .nil
  · exact .record hu hi (.deleted (.direct hp) (by simp)) rfl rfl .nil

/-- C28: an update of a reference which is not in the packed-refs file (or there with a value other
than the one which is reported as created or deleted) is recorded with the given values. -/
theorem unpacked_update_as_given (packed resolve : Text → Option MaybeZero) (name : Text)
    (o n : MaybeZero) (h1 : o = .zero → packed name ≠ some n) (h2 : n = .zero → packed name ≠ some o)
    (hs : ' ' ∉ name) (hi : ¬ Internal name) :
    Reports packed resolve [some (o.toText ++ ' ' :: (n.toText ++ ' ' :: name))] [(name, o, n)] := by
  have hu : UpdateLine (o.toText ++ ' ' :: (n.toText ++ ' ' :: name)) name (.direct o) (.direct n) :=
    ⟨_, _, rfl, space_not_mem_maybeZero o, space_not_mem_maybeZero n, hs,
      .direct (MaybeZero.parse_toText o), .direct (MaybeZero.parse_toText n)⟩
  refine .record hu hi (.other ?_ ?_) rfl rfl .nil
  · rintro ⟨h, hp⟩
    cases h
    cases hp with
    | direct hp => exact h1 rfl hp
  · rintro ⟨h, hp⟩
    cases h
    cases hp with
    | direct hp => exact h2 rfl hp

example : ¬ Internal t!"refs/heads/x" ∧ ' ' ∉ t!"refs/heads/x" := by
  refine ⟨?_, by decide⟩
  rw [← ignored_iff]; decide

/-! ### The packed-refs file -/

/-- One reference in the packed-refs file, with the id a tag is peeled to, if any. -/
structure PackedEntry where
  oid : MaybeZero
  name : Text
  peeled : Option Oid

/-- The lines git writes for an entry. -/
def PackedEntry.lines (e : PackedEntry) : List Text :=
  (e.oid.toText ++ ' ' :: e.name) :: (match e.peeled with
    | none => []
    | some p => ['^' :: p.toText])

/-- The packed-refs file as git writes it: a header line starting with `#`, then the entries. -/
def packedRefsFile (header : Text) (entries : List PackedEntry) : Text :=
  (('#' :: header) :: entries.flatMap PackedEntry.lines).flatMap fun l => l ++ ['\n']

/-- Last value given to a name. -/
def lastPacked (entries : List PackedEntry) (name : Text) : Option MaybeZero :=
  (entries.reverse.find? fun e => e.name = name).map PackedEntry.oid

theorem hexDigit_isAscii {d : Nat} (h : d < 16) : isAsciiHexDigit (hexDigit d) = true ∧
    hexDigit d ≠ '#' ∧ hexDigit d ≠ '^' := by
  revert d; decide

theorem span_append_space {a b : Text} (h : ' ' ∉ a) :
    ((a ++ ' ' :: b).takeWhile (· ≠ ' '), (a ++ ' ' :: b).dropWhile (· ≠ ' ')) = (a, ' ' :: b) := by
  have : ∀ x ∈ a, decide (x ≠ ' ') = true := by
    intro x hx
    simp only [decide_eq_true_eq]
    rintro rfl; exact h hx
  rw [List.takeWhile_append_of_pos this, List.dropWhile_append_of_pos this]
  simp

theorem parsePackedRefsLine_entry (oid : MaybeZero) (name : Text) (hn : name ≠ []) :
    parsePackedRefsLine (oid.toText ++ ' ' :: name) = some (name, oid) := by
  have hsp := span_append_space (b := name) (space_not_mem_maybeZero oid)
  have hp := MaybeZero.parse_toText oid
  cases ht : oid.toText with
  | nil => have := MaybeZero.length_toText oid; rw [ht] at this; simp at this
  | cons c cs =>
    obtain ⟨d, hd, e⟩ := MaybeZero.mem_toText (o := oid) (c := c) (by rw [ht]; simp)
    have hc := hexDigit_isAscii hd
    rw [← e] at hc
    rw [ht] at hsp hp
    unfold parsePackedRefsLine
    simp only [List.cons_append] at hsp ⊢
    rw [hsp]
    cases name with
    | nil => simp at hn
    | cons x xs => simp [hc, hp]

theorem ofList_get?_packed (l : List (Text × MaybeZero)) (k : Text) :
    (AMap.ofList l).get? k = (l.reverse.find? fun e => e.1 = k).map Prod.snd := by
  induction l using snocInduction with
  | h0 => rfl
  | h1 l e ih =>
    unfold AMap.ofList at *
    rw [List.foldl_append, List.foldl_cons, List.foldl_nil, AMap.get?_insert, ih,
      List.reverse_append, List.reverse_singleton, List.singleton_append, List.find?_cons]
    by_cases h : e.1 = k <;> simp [h]

/-- C28: the packed-refs file is understood: each name has the value git wrote for it; header and
peeled lines are ignored. -/
theorem packed_refs_read (header : Text) (entries : List PackedEntry)
    (hh : '\n' ∉ header ∧ header.getLast? ≠ some '\r')
    (hn : ∀ e ∈ entries, e.name ≠ [] ∧ '\n' ∉ e.name ∧ e.name.getLast? ≠ some '\r') (name : Text) :
    (readPackedRefs (some (packedRefsFile header entries))).get? name = lastPacked entries name := by
  have hoid : ∀ (o : MaybeZero) c, c ∈ o.toText → c ≠ '\n' ∧ c ≠ '\r' := by
    intro o c hc
    obtain ⟨d, hd, rfl⟩ := MaybeZero.mem_toText hc
    exact ⟨(hexDigit_ne hd).2.1, (hexDigit_ne hd).2.2.2.1⟩
  have hlines : textLines (packedRefsFile header entries) =
      ('#' :: header) :: entries.flatMap PackedEntry.lines := by
    unfold packedRefsFile
    apply textLines_lines
    intro l hl
    rcases List.mem_cons.1 hl with rfl | hl
    · refine ⟨by simp [hh.1], ?_⟩
      rw [List.getLast?_cons]
      cases hg : header.getLast? with
      | none => simp
      | some c => have := hh.2; rw [hg] at this; simpa using this
    · obtain ⟨e, he, hl⟩ := List.mem_flatMap.1 hl
      obtain ⟨n1, n2, n3⟩ := hn e he
      unfold PackedEntry.lines at hl
      rcases List.mem_cons.1 hl with rfl | hl
      · refine ⟨?_, ?_⟩
        · simp only [List.mem_append, List.mem_cons, not_or]
          exact ⟨fun h => (hoid _ _ h).1 rfl, by decide, n2⟩
        · rw [List.getLast?_append, List.getLast?_cons, List.getLast?_eq_some_getLast n1]
          rw [List.getLast?_eq_some_getLast n1] at n3
          simpa using n3
      · cases hp : e.peeled with
        | none => rw [hp] at hl; simp at hl
        | some p =>
          rw [hp] at hl
          simp only [List.mem_singleton] at hl
          subst hl
          refine ⟨?_, ?_⟩
          · simp only [List.mem_cons, not_or]
            exact ⟨by decide, fun h => (hoid (.nonZero p) _ h).1 rfl⟩
          · intro h
            have := List.mem_of_getLast? h
            rcases List.mem_cons.1 this with h | h
            · cases h
            · exact (hoid (.nonZero p) _ h).2 rfl
  have hfm : (entries.flatMap PackedEntry.lines).filterMap parsePackedRefsLine =
      entries.map fun e => (e.name, e.oid) := by
    clear hlines
    induction entries with
    | nil => rfl
    | cons e es ih =>
      rw [List.flatMap_cons, List.filterMap_append, ih fun e he => hn e (by simp [he])]
      have h1 : e.lines.filterMap parsePackedRefsLine = [(e.name, e.oid)] := by
        unfold PackedEntry.lines
        rw [List.filterMap_cons_some (parsePackedRefsLine_entry _ _ (hn e (by simp)).1)]
        cases e.peeled with
        | none => rfl
        | some p => rfl
      rw [h1]; rfl
  unfold readPackedRefs
  simp only [hlines]
  rw [List.filterMap_cons_none (by rfl), hfm, ofList_get?_packed]
  unfold lastPacked
  rw [← List.map_reverse, List.find?_map]
  simp only [Option.map_map]
  rfl

example : (readPackedRefs (some (packedRefsFile t!" pack-refs with: peeled fully-peeled sorted "
    [⟨.nonZero oidA, t!"refs/heads/x", none⟩, ⟨.nonZero oidB, t!"refs/tags/v1", some oidC⟩]))).get?
      t!"refs/tags/v1" = some (.nonZero oidB) := by
  rw [packed_refs_read _ _ (by decide) (by decide)]; decide

end Verif.Props
