import Verif.Props.RecordDiff
import Verif.Props.SnapshotExample

/-!
Concrete cases for the theorems about `record --interactive` (C78): a text file of which two lines and the mode
change, a binary file which changes, a file which is deleted, and a new file.
-/

namespace Verif.Props

open Verif Verif.Spec

/-! ### checking the hypotheses -/

theorem plain_of_leaves {t : Tree} (h : ∀ e ∈ t, ∃ m o, e.2 = .leaf m o ∧ m ∈ fileModes) : Plain t := by
  refine plain_of_check _ fun p x hx => ?_
  cases p with
  | nil =>
    simp only [nodeAt, inside, Option.some.injEq] at hx
    subst hx; rfl
  | cons n p =>
    rw [nodeAt_cons] at hx
    cases e : AMap.get? t n with
    | none => rw [e] at hx; cases hx
    | some y =>
      obtain ⟨m, o, hy, hm⟩ := h _ (AMap.mem_of_get? e)
      simp only at hy
      subst hy
      rw [e] at hx
      cases p with
      | nil =>
        simp only [Option.bind_some, inside, Option.some.injEq] at hx
        subst hx; exact hm
      | cons m p => simp [inside] at hx

theorem flat_fileAt {t : Tree} (h : ∀ e ∈ t, ∃ m o, e.2 = .leaf m o) {p : TreePath}
    (hp : fileAt t p ≠ none) : p ∈ t.map fun e => [e.1] := by
  cases p with
  | nil => exact absurd (fileAt_nil t) hp
  | cons n p =>
    rcases flat_dir h n p with h1 | ⟨rfl, m, o, h1⟩
    · exact absurd (by unfold fileAt; rw [h1]; rfl) hp
    · rw [nodeAt_cons] at h1
      cases e : AMap.get? t n with
      | none => rw [e] at h1; cases h1
      | some y => exact List.mem_map.2 ⟨_, AMap.mem_of_get? e, rfl⟩

/-- The paths of the differing files, from a check of the files which are in one of the trees. -/
theorem paths_of_check {old new : Tree} {l : List TreePath} (ho : ∀ e ∈ old, ∃ m o, e.2 = .leaf m o)
    (hn : ∀ e ∈ new, ∃ m o, e.2 = .leaf m o) (h1 : ∀ p ∈ l, fileAt old p ≠ fileAt new p)
    (h2 : ∀ p ∈ (old.map fun e => [e.1]) ++ new.map fun e => [e.1], fileAt old p ≠ fileAt new p → p ∈ l)
    (p : TreePath) : p ∈ l ↔ fileAt old p ≠ fileAt new p := by
  refine ⟨h1 p, fun h => h2 p ?_ h⟩
  by_cases ha : fileAt old p = none
  · exact List.mem_append_right _ (flat_fileAt hn fun hb => h (ha.trans hb.symm))
  · exact List.mem_append_left _ (flat_fileAt ho ha)

theorem noKindChange_flat {old new : Tree} (ho : ∀ e ∈ old, ∃ m o, e.2 = .leaf m o)
    (hn : ∀ e ∈ new, ∃ m o, e.2 = .leaf m o) : NoKindChange old new := by
  have key : ∀ t : Tree, (∀ e ∈ t, ∃ m o, e.2 = .leaf m o) → ∀ p, p ≠ [] → ∀ m es,
      nodeAt t p ≠ some (.dir m es) := by
    intro t h p hp m es hd
    exact solid_of_flat' h hp hd
  intro p hp m es
  have hp0 : p ≠ [] := by
    rintro rfl
    exact hp (by rw [fileAt_nil, fileAt_nil])
  exact ⟨key old ho p hp0 m es, key new hn p hp0 m es⟩
where
  solid_of_flat' {t : Tree} (h : ∀ e ∈ t, ∃ m o, e.2 = .leaf m o) {p : TreePath} (hp : p ≠ []) {m : Nat}
      {es : Tree} (hd : nodeAt t p = some (.dir m es)) : False := by
    cases p with
    | nil => exact hp rfl
    | cons n p =>
      rcases flat_dir h n p with h1 | ⟨-, _, _, h1⟩ <;> rw [hd] at h1 <;> cases h1

theorem noNestingOf_flat {old new : Tree} (ho : ∀ e ∈ old, ∃ m o, e.2 = .leaf m o)
    (hn : ∀ e ∈ new, ∃ m o, e.2 = .leaf m o) : NoNestingOf old new (indexOfTree old) := by
  have key : ∀ t : Tree, (∀ e ∈ t, ∃ m o, e.2 = .leaf m o) → ∀ p, fileAt t p ≠ none → p.length = 1 := by
    intro t h p hp
    obtain ⟨e, -, rfl⟩ := List.mem_map.1 (flat_fileAt h hp)
    rfl
  have one : ∀ p, (Tracked old (indexOfTree old) p ∨ fileAt new p ≠ none) → p.length = 1 := by
    rintro p ((h | ⟨s, h⟩) | h)
    · exact key old ho p h
    · have := entriesAt_indexOfTree old p s
      unfold entriesAt at this
      rw [this] at h
      split at h
      · exact key old ho p fun h' => h (by rw [h']; rfl)
      · exact absurd rfl h
    · exact key new hn p h
  rintro p q hp hq ⟨n, r, rfl⟩
  have h1 := one p hp
  have h2 := one _ hq
  simp only [List.length_append, List.length_cons] at h2
  omega

/-! ### a user interface -/

/-- The contents of a file with the marked changes. -/
def exContents (f : RecordFile) : SelectedContents :=
  match f.sections with
  | [.binary c _ _] => if c then .binary else .unchanged
  | [.fileMode c _ 0] => if c then .absent else .unchanged
  | ss =>
    let text := (chosenLines ss).flatten
    if text = [] then .unchanged else .present text

/-- A user who marks everything (or nothing). -/
def exRecorder (b : Bool) : Recorder where
  run fs := some (fs.map (markFile b))
  contents := exContents
  mode := chosenMode

/-- A user who marks some files only. -/
def exPicky (wanted : RecordFile → Bool) : Recorder where
  run fs := some (fs.map fun f => markFile (wanted f) f)
  contents := exContents
  mode := chosenMode

theorem exContents_text {p : TreePath} {m : Option Nat} {ms ss : List FileSection}
    (hms : ms = [] ∨ ∃ c b a, ms = [.fileMode c b a] ∧ a ≠ 0) (ht : ∀ s ∈ ss, FileSection.IsText s) :
    exContents ⟨p, m, ms ++ ss⟩ = if (chosenLines ss).flatten = [] then .unchanged
      else .present (chosenLines ss).flatten := by
  have hss : ∀ c x y, ss ≠ [.binary c x y] := by
    rintro c x y rfl
    exact ht _ (List.mem_singleton_self _)
  have hss' : ∀ c x y, ss ≠ [.fileMode c x y] := by
    rintro c x y rfl
    exact ht _ (List.mem_singleton_self _)
  rcases hms with rfl | ⟨c, b, a, rfl, ha⟩
  · unfold exContents
    split
    · rename_i h; exact absurd h (hss _ _ _)
    · rename_i h; exact absurd h (hss' _ _ _)
    · rfl
  · unfold exContents
    split
    · rename_i h; simp at h
    · rename_i h
      simp only [List.cons_append, List.nil_append, List.cons.injEq, FileSection.fileMode.injEq] at h
      exact absurd h.1.2.2 ha
    · simp only [chosenLines, List.cons_append, List.nil_append, List.flatMap_cons, chosenIn]
      rfl

theorem faithful_exPicky (wanted : RecordFile → Bool) : Faithful (exPicky wanted) where
  run := by
    intro fs gs h
    simp only [exPicky, Option.some.injEq] at h
    subst h
    induction fs with
    | nil => exact .nil
    | cons f fs ih => exact .cons (sameButMarks_markFile _ f) ih
  mode _ := rfl
  deleted p m c b := rfl
  binary p m c x y := rfl
  text p m ms ss hms ht hne := by
    show exContents _ = _
    rw [exContents_text hms ht, if_neg hne]
  nothing p m a ss ht he := by
    show exContents _ = _
    by_cases ha : a = 0
    · subst ha
      cases ss with
      | nil => rfl
      | cons s ss =>
        show (if (chosenLines (.fileMode false 0 0 :: s :: ss)).flatten = [] then
          SelectedContents.unchanged else _) = _
        rw [if_pos]
        rw [show chosenLines (.fileMode false 0 0 :: s :: ss) = chosenLines (s :: ss) from rfl, he]
    · rw [show FileSection.fileMode false 0 a :: ss = [FileSection.fileMode false 0 a] ++ ss from rfl,
        exContents_text (.inr ⟨_, _, _, rfl, ha⟩) ht, if_pos he]

theorem faithful_exRecorder (b : Bool) : Faithful (exRecorder b) := faithful_exPicky fun _ => b

/-! ### the files -/

/-- The comparison of the text files `a`: a line is replaced, and one is appended. -/
def exPieces : List Piece :=
  [.same [t!"x\n"], .change [t!"y\n"] [t!"Y\n"], .same [t!"z\n"], .change [] [t!"w\n"]]

def exBlobs : AMap Oid BlobData :=
  [(oidN 1, ⟨6, false, some t!"x\ny\nz\n"⟩), (oidN 2, ⟨3, true, none⟩), (oidN 3, ⟨2, false, some t!"c\n"⟩),
   (oidN 4, ⟨8, false, some t!"x\nY\nz\nw\n"⟩), (oidN 5, ⟨4, true, none⟩),
   (oidN 6, ⟨4, false, some t!"n\nm\n"⟩), (oidN 7, ⟨5, false, none⟩)]

def exDiffEnv : DiffEnv where
  blob := AMap.get? exBlobs
  addFails _ := false
  describe _ _ := t!"binary"

def exHashText (t : Text) : Oid :=
  ((exBlobs.find? fun e => e.2.text = some t).map (·.1)).getD (oidN 100)

def exRecordOld : Tree :=
  [(t!"a", .leaf 0o100644 (oidN 1)), (t!"b", .leaf 0o100644 (oidN 2)), (t!"c", .leaf 0o100644 (oidN 3)),
   (t!"s", .leaf 0o100644 (oidN 3))]

def exRecordNew : Tree :=
  [(t!"a", .leaf 0o100755 (oidN 4)), (t!"b", .leaf 0o100644 (oidN 5)), (t!"d", .leaf 0o100644 (oidN 6)),
   (t!"s", .leaf 0o100644 (oidN 3))]

def exDelta (o n : MaybeZero) (om nm : Nat) (c : DeltaContent) : Delta :=
  { oldOid := o, newOid := n, oldMode := om, newMode := nm, content := c }

/-- The comparison of `a`. -/
def exDeltaA : Delta :=
  exDelta (.nonZero (oidN 1)) (.nonZero (oidN 4)) 0o100644 0o100755 (.hunks [⟨2, 1, 2, 1⟩, ⟨3, 0, 4, 1⟩])

def exRecordDiff : List FileDelta :=
  [⟨[t!"a"], [t!"a"], exDeltaA⟩,
   ⟨[t!"b"], [t!"b"], exDelta (.nonZero (oidN 2)) (.nonZero (oidN 5)) 0o100644 0o100644 (.binary 3 4)⟩,
   ⟨[t!"c"], [t!"c"], exDelta (.nonZero (oidN 3)) .zero 0o100644 0 (.hunks [⟨1, 1, 0, 0⟩])⟩,
   ⟨[t!"d"], [t!"d"], exDelta .zero (.nonZero (oidN 6)) 0 0o100644 (.hunks [⟨0, 0, 1, 2⟩])⟩]

theorem exRecordOld_flat : ∀ e ∈ exRecordOld, ∃ m o, e.2 = .leaf m o ∧ m ∈ fileModes := by
  simp [exRecordOld, fileModes]

theorem exRecordNew_flat : ∀ e ∈ exRecordNew, ∃ m o, e.2 = .leaf m o ∧ m ∈ fileModes := by
  simp [exRecordNew, fileModes]

theorem leaves_only {t : Tree} (h : ∀ e ∈ t, ∃ m o, e.2 = .leaf m o ∧ m ∈ fileModes) :
    ∀ e ∈ t, ∃ m o, e.2 = .leaf m o := fun e he => let ⟨m, o, h1, _⟩ := h e he; ⟨m, o, h1⟩

theorem isLines_of_check {text : Text} {lines : List Text}
    (h : lines.flatten = text ∧ (∀ l ∈ lines, l ≠ []) ∧ (∀ l ∈ lines, '\n' ∉ l.dropLast) ∧
      ∀ l ∈ lines.dropLast, l.getLast? = some '\n') : IsLines text lines := ⟨h.1, h.2.1, h.2.2.1, h.2.2.2⟩

theorem exCompares : ComparesTrees exDiffEnv exRecordOld exRecordNew exRecordDiff where
  paths := paths_of_check (leaves_only exRecordOld_flat) (leaves_only exRecordNew_flat)
    (by decide +kernel) (by decide +kernel)
  once := by decide +kernel
  same := by decide +kernel
  oldFile := by decide +kernel
  newFile := by decide +kernel
  content := by
    have ha : GoodContent exDiffEnv exDeltaA :=
      .inr (.inr ⟨exPieces, by decide +kernel, by simp [exPieces, Separated, startsChanged],
        .inr ⟨_, _, _, rfl, rfl, rfl, rfl, isLines_of_check (by decide +kernel)⟩,
        .inr ⟨_, _, _, rfl, rfl, rfl, rfl, isLines_of_check (by decide +kernel)⟩⟩)
    have hb : GoodContent exDiffEnv (exDelta (.nonZero (oidN 2)) (.nonZero (oidN 5)) 0o100644 0o100644
        (.binary 3 4)) := .inr (.inl ⟨_, _, rfl⟩)
    have hc : GoodContent exDiffEnv (exDelta (.nonZero (oidN 3)) .zero 0o100644 0
        (.hunks [⟨1, 1, 0, 0⟩])) := .inl rfl
    have hd : GoodContent exDiffEnv (exDelta .zero (.nonZero (oidN 6)) 0 0o100644
        (.hunks [⟨0, 0, 1, 2⟩])) :=
      .inr (.inr ⟨[.change [] [t!"n\n", t!"m\n"]], by decide +kernel, by simp [Separated, startsChanged],
        .inl ⟨rfl, rfl⟩, .inr ⟨_, _, _, rfl, rfl, rfl, rfl, isLines_of_check (by decide +kernel)⟩⟩)
    intro d hd'
    simp only [exRecordDiff, List.mem_cons, List.not_mem_nil, or_false] at hd'
    rcases hd' with rfl | rfl | rfl | rfl
    · exact ha
    · exact hb
    · exact hc
    · exact hd

theorem exHashesBlobs : HashesBlobs exDiffEnv exHashText := by
  intro o b t hb ht
  have h : ∀ e ∈ exBlobs, ∀ t ∈ e.2.text, exHashText t = e.1 := by decide +kernel
  exact h _ (AMap.mem_of_get? hb) t ht

theorem exRecordSetup {rec : Recorder} (hr : Faithful rec) :
    RecordSetup exDiffEnv rec exHashText exRecordOld exRecordNew exRecordDiff (indexOfTree exRecordOld) where
  adds _ := rfl
  faithful := hr
  compares := exCompares
  hashes := exHashesBlobs
  oldPlain := plain_of_leaves exRecordOld_flat
  newPlain := plain_of_leaves exRecordNew_flat
  kinds := noKindChange_flat (leaves_only exRecordOld_flat) (leaves_only exRecordNew_flat)
  nesting := noNestingOf_flat (leaves_only exRecordOld_flat) (leaves_only exRecordNew_flat)
  index := by
    intro p
    have := entriesAt_indexOfTree exRecordOld p .stage0
    unfold entriesAt at this
    rw [this, if_pos rfl]

/-! ### the theorems -/

/-- What is offered for `a`: its mode, and two changes; marking the second one only appends a line. -/
example : processDelta exDiffEnv [t!"a"] exDeltaA = .ok ⟨[t!"a"], some 0o100644,
      [.fileMode false 0o100644 0o100755, .unchanged [t!"x\n"],
       .changed [⟨false, .removed, t!"y\n"⟩, ⟨false, .added, t!"Y\n"⟩], .unchanged [t!"z\n"],
       .changed [⟨false, .added, t!"w\n"⟩]]⟩ ∧
    mixOf (fun i => i == 1) 0 exPieces = [t!"x\n", t!"y\n", t!"z\n", t!"w\n"] := by decide +kernel

/-- `file_offered` for `a`. -/
example : ∃ f, processDelta exDiffEnv [t!"a"] exDeltaA = .ok f ∧ f.path = [t!"a"] ∧
    FileOffer exDiffEnv exDeltaA f :=
  file_offered rfl (exCompares.content ⟨[t!"a"], [t!"a"], exDeltaA⟩ (by decide +kernel))

/-- Four files differ. -/
example : ∃ files, processDiff exDiffEnv id exRecordDiff = .ok files ∧
    ∀ p, (∃ f ∈ files, f.path = p) ↔ fileAt exRecordOld p ≠ fileAt exRecordNew p := by
  obtain ⟨files, h1, -, h2, -⟩ := files_offered (fun _ => rfl) exCompares
  exact ⟨files, h1 id fun _ => .rfl, h2⟩

/-- Nothing is marked. -/
example : ∃ index', recordInteractive exDiffEnv (exRecorder false) exHashText (fun _ => oidN 50) id exRecordOld
      exRecordNew exRecordDiff (indexOfTree exRecordOld) = .staged index' ∧
    ∀ p, AMap.get? index' (p, .stage0) = AMap.get? (indexOfTree exRecordOld) (p, .stage0) := by
  refine record_nothing _ (fun _ => .rfl) (exRecordSetup (faithful_exRecorder false)) ?_ fun _ => rfl
  intro d _ o x _ hx
  have h : ∀ e ∈ exBlobs, e.2.text ≠ some [] := by decide +kernel
  exact h _ (AMap.mem_of_get? hx)

/-- Everything is marked. -/
example : ∃ index', recordInteractive exDiffEnv (exRecorder true) exHashText (fun _ => oidN 50) id exRecordOld
      exRecordNew exRecordDiff (indexOfTree exRecordOld) = .staged index' ∧
    ∀ p, AMap.get? index' (p, .stage0) = entryOf (fileAt exRecordNew p) := by
  refine record_everything_partial _ (fun _ => .rfl) (exRecordSetup (faithful_exRecorder true)) ?_ ?_
    fun _ => rfl
  · intro d hd o n hc hz
    simp only [exRecordDiff, List.mem_cons, List.not_mem_nil, or_false] at hd
    rcases hd with rfl | rfl | rfl | rfl <;> simp_all [exDelta, exDeltaA]
  · intro d _ o x _ hx
    have h : ∀ e ∈ exBlobs, e.2.text ≠ some [] := by decide +kernel
    exact h _ (AMap.mem_of_get? hx)

/-- Everything of the files `a` and `c` is marked. -/
def exWanted (f : RecordFile) : Bool := f.path = [t!"a"] || f.path = [t!"c"]

/-- The files after that. -/
def exWant (f : RecordFile) : Option File :=
  if exWanted f then fileAt exRecordNew f.path else fileAt exRecordOld f.path

example : ∃ files index', processDiff exDiffEnv id exRecordDiff = .ok files ∧
    recordInteractive exDiffEnv (exPicky exWanted) exHashText (fun _ => oidN 50) id exRecordOld
      exRecordNew exRecordDiff (indexOfTree exRecordOld) = .staged index' ∧
    AMap.get? index' ([t!"a"], .stage0) = entryOf (fileAt exRecordNew [t!"a"]) ∧
    AMap.get? index' ([t!"b"], .stage0) = entryOf (fileAt exRecordOld [t!"b"]) := by
  have hs := exRecordSetup (faithful_exPicky exWanted)
  obtain ⟨files, h1, -, h3, h4⟩ := files_offered (fun _ => rfl) exCompares
  obtain ⟨index', g1, g2, -⟩ := record_stages (fun _ => oidN 50) (fun _ => .rfl) hs
    (h1 id fun _ => .rfl) (gs := files.map fun f => markFile (exWanted f) f) rfl (want := exWant) (by
      intro g hg d hd hp
      obtain ⟨f, hf, rfl⟩ := List.mem_map.1 hg
      obtain ⟨d', hd', hp', ho⟩ := h4 f hf
      have hdd : d = d' := by
        have hn := exCompares.once
        exact List.inj_on_of_nodup_map hn hd hd' (hp.trans hp'.symm)
      subst hdd
      have hw : exWant (markFile (exWanted f) f) =
          fileAt (if exWanted f then exRecordNew else exRecordOld) f.path := by
        unfold exWant
        rw [show exWanted (markFile (exWanted f) f) = exWanted f from rfl]
        cases exWanted f <;> rfl
      rw [hw]
      refine stages_marked hs hd ho hp' _ ?_ ?_
      · intro _ o n hc hz
        simp only [exRecordDiff, List.mem_cons, List.not_mem_nil, or_false] at hd
        rcases hd with rfl | rfl | rfl | rfl <;> simp_all [exDelta, exDeltaA]
      · intro o x _ hx
        have h : ∀ e ∈ exBlobs, e.2.text ≠ some [] := by decide +kernel
        exact h _ (AMap.mem_of_get? hx))
  refine ⟨files, index', h1 id fun _ => .rfl, g1, ?_, ?_⟩
  · obtain ⟨f, hf, hp⟩ := (h3 [t!"a"]).2 (by decide +kernel)
    have := g2 _ (List.mem_map_of_mem hf)
    rw [show (markFile (exWanted f) f).path = [t!"a"] from hp] at this
    rw [this]
    have hw : ∀ g : RecordFile, g.path = [t!"a"] → exWant g = fileAt exRecordNew [t!"a"] := by
      intro g hg
      unfold exWant exWanted
      rw [hg]
      rfl
    rw [hw (markFile _ f) hp]
  · obtain ⟨f, hf, hp⟩ := (h3 [t!"b"]).2 (by decide +kernel)
    have := g2 _ (List.mem_map_of_mem hf)
    rw [show (markFile (exWanted f) f).path = [t!"b"] from hp] at this
    rw [this]
    have hw : ∀ g : RecordFile, g.path = [t!"b"] → exWant g = fileAt exRecordOld [t!"b"] := by
      intro g hg
      unfold exWant exWanted
      rw [hg]
      rfl
    rw [hw (markFile _ f) hp]

/-! ### what goes wrong -/

/-- A new binary file: everything is marked, but the index is without it. -/
theorem new_binary_not_staged :
    ∃ old new diff, fileAt old [t!"b"] = none ∧ fileAt new [t!"b"] = some (0o100644, oidN 5) ∧
      diff = [FileDelta.mk [t!"b"] [t!"b"]
        (exDelta .zero (.nonZero (oidN 5)) 0 0o100644 (.binary 0 4))] ∧
      ∃ index', recordInteractive exDiffEnv (exRecorder true) exHashText (fun _ => oidN 50) id old new diff
        (indexOfTree old) = .staged index' ∧ AMap.get? index' ([t!"b"], .stage0) = none :=
  ⟨[], [(t!"b", .leaf 0o100644 (oidN 5))], _, by decide +kernel, by decide +kernel, rfl,
    _, rfl, by decide +kernel⟩

/-- A binary file becomes executable while it changes: everything is marked, but the mode stays. -/
theorem binary_mode_not_staged :
    ∃ old new diff, fileAt old [t!"b"] = some (0o100644, oidN 2) ∧
      fileAt new [t!"b"] = some (0o100755, oidN 5) ∧
      diff = [FileDelta.mk [t!"b"] [t!"b"]
        (exDelta (.nonZero (oidN 2)) (.nonZero (oidN 5)) 0o100644 0o100755 (.binary 3 4))] ∧
      ∃ index', recordInteractive exDiffEnv (exRecorder true) exHashText (fun _ => oidN 50) id old new diff
        (indexOfTree old) = .staged index' ∧
        AMap.get? index' ([t!"b"], .stage0) = some (0o100644, .nonZero (oidN 5)) :=
  ⟨[(t!"b", .leaf 0o100644 (oidN 2))], [(t!"b", .leaf 0o100755 (oidN 5))], _, by decide +kernel,
    by decide +kernel, rfl, _, rfl, by decide +kernel⟩

/-- A new file all lines of which are marked, but not its mode: it is not staged. -/
theorem new_file_without_mode_not_staged :
    recordCommand (exRecorder true) exHashText (fun _ => oidN 50) [] [(t!"d", .leaf 0o100644 (oidN 6))]
      ⟨[t!"d"], some 0, [.fileMode false 0 0o100644, .unchanged [],
        .changed [⟨true, .added, t!"n\n"⟩, ⟨true, .added, t!"m\n"⟩]]⟩ = .ok (.delete [t!"d"]) := by
  decide +kernel

/-- `binary_mode_lost` for such a file. -/
example : ∃ f, processDelta exDiffEnv [t!"b"]
      (exDelta (.nonZero (oidN 2)) (.nonZero (oidN 5)) 0o100644 0o100755 (.binary 3 4)) = .ok f ∧
    ∀ g, SameButMarks f g → ∀ m oid, recordCommand (exRecorder true) exHashText (fun _ => oidN 50)
        exRecordOld exRecordNew g = .ok (.update [t!"b"] .stage0 m oid) → m = 0o100644 := by
  obtain ⟨f, h1, h2⟩ := binary_mode_lost (env := exDiffEnv) (rec := exRecorder true) (hash := exHashText)
    (treeId := fun _ => oidN 50) (old := exRecordOld) (new := exRecordNew) (path := [t!"b"])
    (d := exDelta (.nonZero (oidN 2)) (.nonZero (oidN 5)) 0o100644 0o100755 (.binary 3 4)) rfl
    (by decide) (faithful_exRecorder true)
  refine ⟨f, h1, fun g hg m oid hc => ?_⟩
  rcases h2 g hg m oid hc with ⟨h, -⟩ | h
  · rw [h]; decide
  · exact absurd (by decide) h

/-- The second line of a file which was not UTF-8 changes. -/
example : processDelta exDiffEnv [t!"a"] (exDelta (.nonZero (oidN 7)) (.nonZero (oidN 4)) 0o100644 0o100644
    (.hunks (hunksOf 0 0 exPieces))) = .error .panic :=
  other_encoding_panics (ps := exPieces) rfl (by decide) rfl (x := ⟨5, false, none⟩) rfl (.inr rfl)
    (.inr ⟨_, _, _, rfl, rfl, rfl, rfl, isLines_of_check (by decide +kernel)⟩)
    (by simp [exPieces, Separated, startsChanged]) rfl (h := ⟨2, 1, 2, 1⟩) (by decide +kernel) (by decide)

/-- The other way round: the two changes are offered as two binary files, before the old lines. -/
example : processDelta exDiffEnv [t!"a"] (exDelta (.nonZero (oidN 1)) (.nonZero (oidN 7)) 0o100644 0o100644
    (.hunks (hunksOf 0 0 exPieces))) = .ok ⟨[t!"a"], some 0o100644,
      [.binary false none (some t!"binary"), .binary false none (some t!"binary"),
       .unchanged [t!"x\n", t!"y\n", t!"z\n"]]⟩ :=
  other_encoding_offered (ps := exPieces) rfl (by decide) rfl (x := ⟨5, false, none⟩) rfl (.inr rfl)
    (.inr ⟨_, _, _, rfl, rfl, rfl, rfl, isLines_of_check (by decide +kernel)⟩) (by decide) rfl

/-- Cancelled. -/
example (index' : GitIndex) : recordInteractive exDiffEnv ⟨fun _ => none, exContents, chosenMode⟩ exHashText
    (fun _ => oidN 50) id exRecordOld exRecordNew exRecordDiff (indexOfTree exRecordOld) ≠ .staged index' :=
  fun h => by obtain ⟨_, _, _, h⟩ := record_confirmed h; cases h

end Verif.Props
