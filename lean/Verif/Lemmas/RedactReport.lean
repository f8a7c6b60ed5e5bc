import Verif.Lemmas.Redact

/-!
Lemmas for C79: the report does not depend on what is secret, and uses one table of names.
-/

namespace Verif.Spec

open Verif

theorem refKind_eq (name : Text) : refKind name = (categorize name).pfx := by
  unfold refKind categorize
  simp only [List.isPrefixOf_iff_prefix]
  split
  · rfl
  · split <;> rfl

theorem refKind_mem (name : Text) : refKind name ∈ [t!"refs/heads/", t!"refs/remotes/", []] := by
  unfold refKind
  split
  · simp
  · split <;> simp

theorem shows_known {main name : Text} :
    ([main].contains name || !name.contains '/') = true ↔ ¬ Secret main name := by
  unfold Secret
  rw [Bool.or_eq_true, not_and_or]
  apply or_congr
  · simp
  · simp

theorem refName_known' {p : List Text} {name : Text} (names : AMap Text Text)
    (h : (p.contains name || !name.contains '/') = true) :
    Redactor.refName (.enabled p names) name = (name, .enabled p names) := by
  unfold Redactor.refName
  dsimp only
  rw [if_pos h]

theorem refName_seen' {p : List Text} {name v : Text} {names : AMap Text Text}
    (h : ¬ (p.contains name || !name.contains '/') = true) (hg : AMap.get? names name = some v) :
    Redactor.refName (.enabled p names) name = (v, .enabled p names) := by
  unfold Redactor.refName
  dsimp only
  rw [if_neg h, hg]

theorem refName_new' {p : List Text} {name : Text} {names : AMap Text Text}
    (h : ¬ (p.contains name || !name.contains '/') = true) (hg : AMap.get? names name = none) :
    Redactor.refName (.enabled p names) name = (Redactor.redactedName name names.length,
      .enabled p (AMap.insert names name (Redactor.redactedName name names.length))) := by
  unfold Redactor.refName
  dsimp only
  rw [if_neg h, hg]

theorem refName_known {main name : Text} (names : AMap Text Text) (h : ¬ Secret main name) :
    Redactor.refName (.enabled [main] names) name = (name, .enabled [main] names) := by
  unfold Redactor.refName
  dsimp only
  rw [if_pos (shows_known.2 h)]

theorem refName_seen {main name v : Text} {names : AMap Text Text} (h : Secret main name)
    (hg : AMap.get? names name = some v) :
    Redactor.refName (.enabled [main] names) name = (v, .enabled [main] names) := by
  unfold Redactor.refName
  dsimp only
  rw [if_neg (by rw [shows_known]; exact fun hn => hn h), hg]

theorem refName_new {main name : Text} {names : AMap Text Text} (h : Secret main name)
    (hg : AMap.get? names name = none) :
    Redactor.refName (.enabled [main] names) name = (Redactor.redactedName name names.length,
      .enabled [main] (AMap.insert names name (Redactor.redactedName name names.length))) := by
  unfold Redactor.refName
  dsimp only
  rw [if_neg (by rw [shows_known]; exact fun hn => hn h), hg]

/-! ### other names -/

/-- The redactor of a report, while it is used. -/
def OkRedactor (main : Text) (r : Redactor) : Prop :=
  ∃ names, r = .enabled [main] names ∧ ∀ k v, AMap.get? names k = some v → LooksRedacted v

def renameRedactor (ρ : Text → Text) : Redactor → Redactor
  | .disabled => .disabled
  | .enabled p names => .enabled p (names.map fun e => (ρ e.1, e.2))

theorem okRedactor_new (main : Text) : OkRedactor main (.new [main]) :=
  ⟨[], rfl, fun k v h => by simp at h⟩

theorem looksRedacted_redactedName (name : Text) (n : Nat) : LooksRedacted (Redactor.redactedName name n) :=
  ⟨(categorize name).pfx, by rw [← refKind_eq]; exact refKind_mem name, n, rfl⟩

theorem refName_ok {main : Text} {r : Redactor} (h : OkRedactor main r) (name : Text) :
    OkRedactor main (r.refName name).2 ∧
    ((r.refName name).1 = name ∧ ¬ Secret main name ∨ LooksRedacted (r.refName name).1) := by
  obtain ⟨names, rfl, hn⟩ := h
  by_cases hs : Secret main name
  · cases hg : AMap.get? names name with
    | some v => rw [refName_seen hs hg]; exact ⟨⟨names, rfl, hn⟩, .inr (hn _ _ hg)⟩
    | none =>
      rw [refName_new hs hg]
      refine ⟨⟨_, rfl, ?_⟩, .inr (looksRedacted_redactedName _ _)⟩
      intro k v hk
      rw [AMap.get?_insert] at hk
      split at hk
      · obtain rfl := Option.some.inj hk
        exact looksRedacted_redactedName _ _
      · exact hn _ _ hk
  · rw [refName_known names hs]
    exact ⟨⟨names, rfl, hn⟩, .inl ⟨rfl, hs⟩⟩

theorem refName_rename {main : Text} {ρ : Text → Text} (hρ : Renaming main ρ) {r : Redactor}
    (h : OkRedactor main r) (name : Text) :
    (renameRedactor ρ r).refName (ρ name) = ((r.refName name).1, renameRedactor ρ (r.refName name).2) := by
  obtain ⟨names, rfl, hn⟩ := h
  unfold renameRedactor
  by_cases hs : Secret main name
  · cases hg : AMap.get? names name with
    | some v =>
      rw [refName_seen hs hg]
      dsimp only
      rw [refName_seen (hρ.secret _ hs) (by rw [get?_mapKeys hρ.injective]; exact hg)]
    | none =>
      rw [refName_new hs hg]
      dsimp only
      rw [refName_new (hρ.secret _ hs) (by rw [get?_mapKeys hρ.injective]; exact hg), insert_mapKeys hρ.injective]
      have : Redactor.redactedName (ρ name) = Redactor.redactedName name := by
        funext n
        unfold Redactor.redactedName
        rw [← refKind_eq, ← refKind_eq, hρ.kind]
      rw [this]
      simp
  · rw [hρ.known _ hs, refName_known names hs]
    exact refName_known _ hs

theorem refNames_ok {main : Text} {r : Redactor} (h : OkRedactor main r) (ns : List Text) :
    OkRedactor main (r.refNames ns).2 ∧
    ∀ s ∈ (r.refNames ns).1, ¬ Secret main s ∨ LooksRedacted s := by
  induction ns generalizing r with
  | nil => exact ⟨h, by simp [Redactor.refNames]⟩
  | cons n ns ih =>
    obtain ⟨h1, h2⟩ := refName_ok h n
    obtain ⟨h3, h4⟩ := ih h1
    refine ⟨h3, ?_⟩
    intro s hs
    simp only [Redactor.refNames, List.mem_cons] at hs
    rcases hs with rfl | hs
    · rcases h2 with ⟨ha, hb⟩ | h2
      · left; rw [ha]; exact hb
      · exact .inr h2
    · exact h4 s hs

theorem refNames_rename {main : Text} {ρ : Text → Text} (hρ : Renaming main ρ) {r : Redactor}
    (h : OkRedactor main r) (ns : List Text) :
    (renameRedactor ρ r).refNames (ns.map ρ) = ((r.refNames ns).1, renameRedactor ρ (r.refNames ns).2) := by
  induction ns generalizing r with
  | nil => rfl
  | cons n ns ih =>
    simp only [List.map_cons, Redactor.refNames]
    rw [refName_rename hρ h]
    dsimp only
    rw [ih (refName_ok h n).1]

/-- Repositories for which the same is shown. -/
structure Alike (ρ : Text → Text) (env env' : ReportEnv) : Prop where
  txMessage : env'.txMessage = env.txMessage
  dag : env'.dag = env.dag
  smartlog : env'.smartlog = env.smartlog
  commits : env'.commits = env.commits
  headOid : env'.headOid = env.headOid
  debug : env'.debug = env.debug
  commit : ∀ oid, Option.Rel SameCommitText (env.describe.commit oid) (env'.describe.commit oid)
  showTime : env'.describe.showTime = env.describe.showTime
  showBranches : env'.describe.showBranches = env.describe.showBranches
  now : env'.describe.now = env.describe.now
  headName : ∀ s, ¬ Secret env.mainName s ∨ LooksRedacted s →
    (env'.describe.headName = some s ↔ env.describe.headName = some s)
  branchNames : env'.describe.branchNames = env.describe.branchNames.map fun e => (e.1, e.2.map ρ)

theorem head_rename {main : Text} {ρ : Text → Text} (hρ : Renaming main ρ) {h h' : Option Text}
    (he : h' = h.map ρ) (hp : ∀ x, h = some x → ¬ LooksRedacted x) (hp' : ∀ x, h' = some x → ¬ LooksRedacted x)
    {s : Text} (hs : ¬ Secret main s ∨ LooksRedacted s) : h' = some s ↔ h = some s := by
  rcases hs with hs | hs
  · subst he
    have hk := hρ.known _ hs
    cases h with
    | none => simp
    | some x =>
      simp only [Option.map_some, Option.some.injEq]
      conv_lhs => rw [← hk]
      exact hρ.injective.eq_iff
  · constructor
    · intro hh; exact absurd hs (hp' _ hh)
    · intro hh; exact absurd hs (hp _ hh)

theorem describeBranch_head {h h' : Option Text} {s : Text} (hs : h' = some s ↔ h = some s) (arrow : Text) :
    describeBranch arrow h' s = describeBranch arrow h s := by
  unfold describeBranch
  simp only [hs]

theorem describeBranches_rename {ρ : Text → Text} {env env' : ReportEnv} (hρ : Renaming env.mainName ρ)
    (he : Alike ρ env env')
    {r : Redactor} (h : OkRedactor env.mainName r) (arrow : Text) (o : Oid) :
    describeBranches env'.describe arrow (renameRedactor ρ r) o =
      ((describeBranches env.describe arrow r o).1, renameRedactor ρ (describeBranches env.describe arrow r o).2) ∧
    OkRedactor env.mainName (describeBranches env.describe arrow r o).2 := by
  unfold describeBranches
  rw [he.showBranches]
  cases env.describe.showBranches with
  | false => exact ⟨rfl, h⟩
  | true =>
    have hn : (env'.describe.branchNames.get? o).getD [] = ((env.describe.branchNames.get? o).getD []).map ρ := by
      rw [he.branchNames, get?_mapVals (List.map ρ)]
      cases AMap.get? env.describe.branchNames o <;> rfl
    simp only [Bool.not_true, Bool.false_eq_true, if_false]
    rw [hn, refNames_rename hρ h]
    obtain ⟨h1, h2⟩ := refNames_ok h ((env.describe.branchNames.get? o).getD [])
    generalize r.refNames ((env.describe.branchNames.get? o).getD []) = x at h1 h2
    dsimp only
    have hm : x.1.dedup.map (describeBranch arrow env'.describe.headName) =
        x.1.dedup.map (describeBranch arrow env.describe.headName) := by
      apply List.map_congr_left
      intro s hs
      exact describeBranch_head (he.headName s (h2 s (List.mem_dedup.1 hs))) arrow
    rw [hm]
    split
    · exact ⟨rfl, h1⟩
    · exact ⟨rfl, h1⟩

theorem isWhite_iff (c : Char) : Redactor.isAsciiWhitespace c = true ↔ White c := by
  unfold Redactor.isAsciiWhitespace White
  simp only [Bool.or_eq_true, decide_eq_true_eq, List.mem_cons, List.not_mem_nil, or_false, or_assoc]
  have : c.toNat = 12 ↔ c = Char.ofNat 12 := by
    constructor
    · intro h
      rw [← h, Char.ofNat_toNat]
    · rintro rfl; rfl
  rw [this]

theorem summary_shape {p : List Text} {n : AMap Text Text} {a b : Text} (h : SameShape a b) :
    Redactor.summary (.enabled p n) a = Redactor.summary (.enabled p n) b := by
  unfold Redactor.summary
  dsimp only
  induction h with
  | nil => rfl
  | cons h hs ih =>
    simp only [List.map_cons]
    rw [ih]
    rcases h with rfl | ⟨h1, h2⟩
    · rfl
    · rw [if_neg (by rw [isWhite_iff]; exact h1), if_neg (by rw [isWhite_iff]; exact h2)]

theorem commit_cases {ρ : Text → Text} {env env' : ReportEnv} (he : Alike ρ env env') (o : Oid) :
    (env.describe.commit o = none ∧ env'.describe.commit o = none) ∨
    ∃ a b, env.describe.commit o = some a ∧ env'.describe.commit o = some b ∧ SameCommitText a b := by
  have := he.commit o
  generalize env.describe.commit o = x at this
  generalize env'.describe.commit o = y at this
  cases this with
  | some h => exact .inr ⟨_, _, rfl, rfl, h⟩
  | none => exact .inl ⟨rfl, rfl⟩

theorem describeNode_rename {ρ : Text → Text} {env env' : ReportEnv} (hρ : Renaming env.mainName ρ)
    (he : Alike ρ env env')
    {r : Redactor} (h : OkRedactor env.mainName r) (arrow : Text) (rep : Replayer) (c : Cursor) (o : Oid) :
    describeNode env'.describe arrow (renameReplayer ρ rep) c (renameRedactor ρ r) o =
      (describeNode env.describe arrow rep c r o).map (fun x => (x.1, renameRedactor ρ x.2)) ∧
    ∀ x, describeNode env.describe arrow rep c r o = some x → OkRedactor env.mainName x.2 := by
  obtain ⟨hb, hok⟩ := describeBranches_rename hρ he h arrow o
  have hshort : shortOid env'.describe o = shortOid env.describe o := by
    unfold shortOid
    rcases commit_cases he o with ⟨h1, h2⟩ | ⟨a, b, h1, h2, h3⟩
    · rw [h1, h2]
    · rw [h1, h2]; exact h3.shortOid.symm
  have htime : describeTime env'.describe o = describeTime env.describe o := by
    unfold describeTime
    rw [he.showTime, he.now]
    rcases commit_cases he o with ⟨h1, h2⟩ | ⟨a, b, h1, h2, h3⟩
    · rw [h1, h2]
    · rw [h1, h2]; simp only [h3.seconds]
  unfold describeNode
  rw [htime, hb, hshort, describeObsolescence_rename]
  cases describeTime env.describe o with
  | none => exact ⟨rfl, by simp⟩
  | some t =>
    dsimp only
    generalize describeBranches env.describe arrow r o = y at hok
    obtain ⟨names, hy, _⟩ := id hok
    refine ⟨?_, ?_⟩
    · rw [Option.map_some]
      have hm : describeMessage env'.describe (renameRedactor ρ y.2) o = describeMessage env.describe y.2 o := by
        unfold describeMessage
        rw [hy]
        simp only [renameRedactor]
        rcases commit_cases he o with ⟨h1, h2⟩ | ⟨a, b, h1, h2, h3⟩
        · rw [h1, h2]; rfl
        · rw [h1, h2]; exact (summary_shape (p := [env.mainName]) (n := []) h3.summary).symm
      have hr : describeRevision env'.describe (renameRedactor ρ y.2) o = none := by rw [hy]; rfl
      have hr' : describeRevision env.describe y.2 o = none := by rw [hy]; rfl
      rw [hm, hr, hr']
    · intro x hx
      rw [← Option.some.inj hx]
      exact hok

theorem itemText_rename {ρ : Text → Text} {main : Text} (g : Glyphs)
    {d d' : Redactor → Oid → Option (Text × Redactor)} {r : Redactor} (h : OkRedactor main r)
    (hd : ∀ r o, OkRedactor main r → d' (renameRedactor ρ r) o = (d r o).map (fun x => (x.1, renameRedactor ρ x.2)) ∧
      ∀ x, d r o = some x → OkRedactor main x.2) (item : LineItem) :
    itemText g d' (renameRedactor ρ r) item = (itemText g d r item).map (fun x => (x.1, renameRedactor ρ x.2)) ∧
    ∀ x, itemText g d r item = some x → OkRedactor main x.2 := by
  have key : ∀ (o : Oid) (t : Text), (d' (renameRedactor ρ r) o).map (fun x => (t ++ x.1, x.2)) =
      ((d r o).map fun x => (t ++ x.1, x.2)).map (fun x => (x.1, renameRedactor ρ x.2)) ∧
      ∀ x, (d r o).map (fun x => (t ++ x.1, x.2)) = some x → OkRedactor main x.2 := by
    intro o t
    obtain ⟨h1, h2⟩ := hd r o h
    rw [h1]
    cases hx : d r o with
    | none => exact ⟨rfl, by simp⟩
    | some x =>
      refine ⟨rfl, ?_⟩
      intro y hy
      simp only [Option.map_some, Option.some.injEq] at hy
      rw [← hy]
      exact h2 x hx
  have triv : ∀ t : Text, some (t, renameRedactor ρ r) = (some (t, r)).map (fun x => (x.1, renameRedactor ρ x.2)) ∧
      ∀ x, some (t, r) = some x → OkRedactor main x.2 := by
    intro t
    refine ⟨rfl, ?_⟩
    intro x hx
    rw [← Option.some.inj hx]
    exact h
  cases item with
  | mergeParent o => exact key o _
  | commit o a b c => exact key o _
  | mergeChild o => exact key o _
  | _ => exact triv _

theorem linesText_rename {ρ : Text → Text} {main : Text} (g : Glyphs)
    {d d' : Redactor → Oid → Option (Text × Redactor)} {r : Redactor} (h : OkRedactor main r)
    (hd : ∀ r o, OkRedactor main r → d' (renameRedactor ρ r) o = (d r o).map (fun x => (x.1, renameRedactor ρ x.2)) ∧
      ∀ x, d r o = some x → OkRedactor main x.2) (lines : List SmartlogLine) :
    linesText g d' (renameRedactor ρ r) lines = (linesText g d r lines).map (fun x => (x.1, renameRedactor ρ x.2)) ∧
    ∀ x, linesText g d r lines = some x → OkRedactor main x.2 := by
  induction lines generalizing r with
  | nil =>
    refine ⟨rfl, ?_⟩
    intro x hx
    rw [← Option.some.inj hx]
    exact h
  | cons l ls ih =>
    obtain ⟨h1, h2⟩ := itemText_rename g h hd l.2
    simp only [linesText]
    rw [h1]
    cases hx : itemText g d r l.2 with
    | none => exact ⟨rfl, by simp⟩
    | some x =>
      obtain ⟨h3, h4⟩ := ih (h2 x hx)
      simp only [Option.map_some]
      rw [h3]
      cases hy : linesText g d x.2 ls with
      | none => exact ⟨rfl, by simp⟩
      | some y =>
        refine ⟨rfl, ?_⟩
        intro z hz
        rw [← Option.some.inj hz]
        exact h4 y hy

theorem redactEvent_rename {ρ : Text → Text} {main : Text} (hρ : Renaming main ρ) {r : Redactor}
    (h : OkRedactor main r) (e : Event) :
    redactEvent (renameRedactor ρ r) (renameEvent ρ e) = ((redactEvent r e).1, renameRedactor ρ (redactEvent r e).2) ∧
    OkRedactor main (redactEvent r e).2 := by
  cases e with
  | refUpdate ts tx name old new msg =>
    simp only [renameEvent, redactEvent]
    rw [refName_rename hρ h]
    exact ⟨rfl, (refName_ok h name).1⟩
  | snapshot ts tx head oid name =>
    cases name with
    | none => exact ⟨rfl, h⟩
    | some name =>
      simp only [renameEvent, redactEvent, Option.map_some]
      rw [refName_rename hρ h]
      exact ⟨rfl, (refName_ok h name).1⟩
  | _ => exact ⟨rfl, h⟩

theorem eventLines_rename {ρ : Text → Text} {main : Text} (hρ : Renaming main ρ) (debug : Event → Text) {r : Redactor}
    (h : OkRedactor main r) (es : List Event) :
    eventLines debug (renameRedactor ρ r) (es.map (renameEvent ρ)) =
      ((eventLines debug r es).1, renameRedactor ρ (eventLines debug r es).2) ∧
    OkRedactor main (eventLines debug r es).2 := by
  induction es generalizing r with
  | nil => exact ⟨rfl, h⟩
  | cons e es ih =>
    obtain ⟨h1, h2⟩ := redactEvent_rename hρ h e
    obtain ⟨h3, h4⟩ := ih h2
    simp only [List.map_cons, eventLines]
    rw [h1]
    dsimp only
    rw [h3]
    exact ⟨rfl, h4⟩

/-- The result with the redactor for the other names. -/
def renameResult {α : Type} (ρ : Text → Text) (x : Except ReportError (α × Redactor)) :
    Except ReportError (α × Redactor) :=
  x.map fun y => (y.1, renameRedactor ρ y.2)

def OkResult {α : Type} (main : Text) (x : Except ReportError (α × Redactor)) : Prop :=
  ∀ y, x = .ok y → OkRedactor main y.2

theorem okResult_error {α : Type} (main : Text) (e : ReportError) :
    OkResult main (.error e : Except ReportError (α × Redactor)) := fun _ h => nomatch h

theorem okResult_ok {α : Type} {main : Text} {y : α × Redactor} (h : OkRedactor main y.2) :
    OkResult main (.ok y : Except ReportError (α × Redactor)) := by
  intro z hz
  rw [← Except.ok.inj hz]
  exact h

theorem cursorEventLines_rename {ρ : Text → Text} {env env' : ReportEnv} (hρ : Renaming env.mainName ρ)
    (he : Alike ρ env env') {r : Redactor} (h : OkRedactor env.mainName r) (rep : Replayer) (c : Cursor) :
    cursorEventLines env' (renameReplayer ρ rep) c (renameRedactor ρ r) =
      renameResult ρ (cursorEventLines env rep c r) ∧ OkResult env.mainName (cursorEventLines env rep c r) := by
  unfold cursorEventLines
  rw [txEvents_rename, he.txMessage, he.debug]
  cases rep.txEventsBeforeCursor c with
  | error p => exact ⟨rfl, okResult_error _ _⟩
  | ok o =>
    cases o with
    | none => exact ⟨rfl, okResult_ok h⟩
    | some x =>
      obtain ⟨i, es⟩ := x
      cases es with
      | nil => exact ⟨rfl, okResult_error _ _⟩
      | cons e es =>
        obtain ⟨h1, h2⟩ := eventLines_rename hρ env.debug h (e :: es)
        simp only [Except.map, Option.map_some, List.map_cons]
        rw [← List.map_cons, h1, renameEvent_txId]
        exact ⟨rfl, okResult_ok h2⟩

theorem cursorGraphLines_rename {ρ : Text → Text} {env env' : ReportEnv} (hρ : Renaming env.mainName ρ)
    (he : Alike ρ env env')
    {r : Redactor} (h : OkRedactor env.mainName r) (rep : Replayer) (c : Cursor) :
    cursorGraphLines env' (renameReplayer ρ rep) c (renameRedactor ρ r) =
      renameResult ρ (cursorGraphLines env rep c r) ∧ OkResult env.mainName (cursorGraphLines env rep c r) := by
  unfold cursorGraphLines
  rw [he.smartlog, he.dag, he.commits, he.headOid]
  cases makeSmartlogGraph env.smartlog env.dag env.commits false with
  | error p => exact ⟨rfl, okResult_error _ _⟩
  | ok graph =>
    dsimp only
    cases renderGraph env.smartlog env.dag graph env.headOid with
    | error p => exact ⟨rfl, okResult_error _ _⟩
    | ok lines =>
      dsimp only
      obtain ⟨h1, h2⟩ := linesText_rename .text h
        (fun r o hr => describeNode_rename hρ he hr Glyphs.text.branchArrow rep c o) lines
      rw [h1]
      cases hx : linesText .text (describeNode env.describe Glyphs.text.branchArrow rep c) r lines with
      | none => exact ⟨rfl, okResult_error _ _⟩
      | some x => exact ⟨rfl, okResult_ok (h2 x hx)⟩

theorem describeEventCursor_rename {ρ : Text → Text} {env env' : ReportEnv} (hρ : Renaming env.mainName ρ)
    (he : Alike ρ env env')
    {r : Redactor} (h : OkRedactor env.mainName r) (rep : Replayer) (c : Cursor) :
    describeEventCursor env' (renameReplayer ρ rep) c (renameRedactor ρ r) =
      renameResult ρ (describeEventCursor env rep c r) ∧ OkResult env.mainName (describeEventCursor env rep c r) := by
  unfold describeEventCursor
  obtain ⟨h1, h2⟩ := cursorEventLines_rename hρ he h rep c
  rw [h1]
  cases hx : cursorEventLines env rep c r with
  | error p => exact ⟨rfl, okResult_error _ _⟩
  | ok x =>
    obtain ⟨h3, h4⟩ := cursorGraphLines_rename hρ he (h2 x hx) rep c
    simp only [renameResult, Except.map] at h3 ⊢
    rw [h3]
    cases hy : cursorGraphLines env rep c x.2 with
    | error p => exact ⟨rfl, okResult_error _ _⟩
    | ok y => exact ⟨rfl, okResult_ok (h4 y hy)⟩

theorem reportLoop_rename {ρ : Text → Text} {env env' : ReportEnv} (hρ : Renaming env.mainName ρ)
    (he : Alike ρ env env')
    {r : Redactor} (h : OkRedactor env.mainName r) (rep : Replayer) (is : List Nat) :
    reportLoop env' (renameReplayer ρ rep) (renameRedactor ρ r) is =
      renameResult ρ (reportLoop env rep r is) := by
  induction is generalizing r with
  | nil => rfl
  | cons i is ih =>
    simp only [reportLoop, advanceByTx_rename, makeDefaultCursor_rename]
    cases rep.advanceCursorByTransaction rep.makeDefaultCursor (-(i : Int)) with
    | error p => rfl
    | ok c =>
      dsimp only
      obtain ⟨h1, h2⟩ := describeEventCursor_rename hρ he h rep c
      rw [h1]
      cases hx : describeEventCursor env rep c r with
      | error p => rfl
      | ok x =>
        simp only [renameResult, Except.map]
        rw [ih (h2 x hx)]
        cases reportLoop env rep x.2 is <;> rfl

/-! ### one table -/

/-- The redactors which one gets by asking for names. -/
inductive Asked : Redactor → Redactor → Prop
  | refl (r) : Asked r r
  | step {r s} (name : Text) : Asked (r.refName name).2 s → Asked r s

theorem Asked.trans {a b c : Redactor} (h : Asked a b) (h' : Asked b c) : Asked a c := by
  induction h with
  | refl => exact h'
  | step n _ ih => exact .step n (ih h')

/-- A redactor which knows at least the names which the other one knows. -/
def Knows : Redactor → Redactor → Prop
  | .disabled, .disabled => True
  | .enabled p names, .enabled p' names' => p = p' ∧ ∀ k v, AMap.get? names k = some v → AMap.get? names' k = some v
  | _, _ => False

theorem Knows.refl (r : Redactor) : Knows r r := by
  cases r with
  | disabled => trivial
  | enabled p n => exact ⟨rfl, fun _ _ h => h⟩

theorem Knows.trans {a b c : Redactor} (h : Knows a b) (h' : Knows b c) : Knows a c := by
  cases a <;> cases b <;> cases c <;> simp only [Knows] at h h' ⊢
  exact ⟨h.1.trans h'.1, fun k v hk => h'.2 k v (h.2 k v hk)⟩

theorem knows_refName (r : Redactor) (name : Text) : Knows r (r.refName name).2 := by
  cases r with
  | disabled => trivial
  | enabled p names =>
    by_cases hc : (p.contains name || !name.contains '/') = true
    · rw [refName_known' _ hc]; exact Knows.refl _
    · cases hg : AMap.get? names name with
      | some v => rw [refName_seen' hc hg]; exact Knows.refl _
      | none =>
        rw [refName_new' hc hg]
        refine ⟨rfl, ?_⟩
        intro k v hk
        rw [AMap.get?_insert, if_neg]
        · exact hk
        · rintro rfl; rw [hg] at hk; exact nomatch hk

theorem Asked.knows {a b : Redactor} (h : Asked a b) : Knows a b := by
  induction h with
  | refl => exact Knows.refl _
  | step n _ ih => exact (knows_refName _ n).trans ih

/-- `f` asks for names, and does the same if they are known before. -/
def Stable {α : Type} (f : Redactor → Option (α × Redactor)) : Prop :=
  ∀ r y s, f r = some (y, s) → Asked r s ∧ ∀ t, Knows s t → f t = some (y, t)

theorem stable_refName (name : Text) : Stable fun r => some (r.refName name) := by
  intro r y s h
  have h : r.refName name = (y, s) := Option.some.inj h
  refine ⟨.step name (by rw [h]; exact .refl _), ?_⟩
  intro t ht
  show some (t.refName name) = some (y, t)
  cases r with
  | disabled =>
    obtain ⟨rfl, rfl⟩ := Prod.mk.inj h
    cases t with
    | disabled => rfl
    | enabled p n => exact ht.elim
  | enabled p names =>
    by_cases hc : (p.contains name || !name.contains '/') = true
    · rw [refName_known' _ hc] at h
      obtain ⟨rfl, rfl⟩ := Prod.mk.inj h
      cases t with
      | disabled => exact ht.elim
      | enabled p' names' =>
        obtain ⟨rfl, ht⟩ := ht
        rw [refName_known' _ hc]
    · cases hg : AMap.get? names name with
      | some v =>
        rw [refName_seen' hc hg] at h
        obtain ⟨rfl, rfl⟩ := Prod.mk.inj h
        cases t with
        | disabled => exact ht.elim
        | enabled p' names' =>
          obtain ⟨rfl, ht⟩ := ht
          rw [refName_seen' hc (ht _ _ hg)]
      | none =>
        rw [refName_new' hc hg] at h
        obtain ⟨rfl, rfl⟩ := Prod.mk.inj h
        cases t with
        | disabled => exact ht.elim
        | enabled p' names' =>
          obtain ⟨rfl, ht⟩ := ht
          rw [refName_seen' hc (ht name _ (by rw [AMap.get?_insert, if_pos rfl]))]

theorem stable_pure {α : Type} (y : α) : Stable fun r => some (y, r) := by
  intro r z s h
  obtain ⟨rfl, rfl⟩ := Prod.mk.inj (Option.some.inj h)
  exact ⟨.refl _, fun t _ => rfl⟩

theorem stable_none {α : Type} : Stable fun _ => (none : Option (α × Redactor)) := by
  intro r z s h
  exact nomatch h

theorem Stable.bind {α β : Type} {f : Redactor → Option (α × Redactor)} {g : α → Redactor → Option (β × Redactor)}
    (hf : Stable f) (hg : ∀ a, Stable (g a)) :
    Stable fun r => (f r).bind fun x => g x.1 x.2 := by
  intro r y s h
  beta_reduce at h
  cases hx : f r with
  | none => rw [hx] at h; exact nomatch h
  | some x =>
    rw [hx] at h
    obtain ⟨a, u⟩ := x
    obtain ⟨h1, h2⟩ := hf r a u hx
    obtain ⟨h3, h4⟩ := hg a u y s h
    refine ⟨h1.trans h3, ?_⟩
    intro t ht
    show (f t).bind _ = _
    rw [h2 t (h3.knows.trans ht)]
    exact h4 t ht

theorem Stable.map {α β : Type} {f : Redactor → Option (α × Redactor)} (hf : Stable f) (g : α → β) :
    Stable fun r => (f r).map fun x => (g x.1, x.2) := by
  have := hf.bind (g := fun a r => some (g a, r)) (fun a => stable_pure (g a))
  intro r y s h
  have hc : ∀ r, ((f r).map fun x => (g x.1, x.2)) = (f r).bind fun x => some (g x.1, x.2) := by
    intro r; cases f r <;> rfl
  beta_reduce at h
  rw [hc] at h
  obtain ⟨h1, h2⟩ := this r y s h
  refine ⟨h1, fun t ht => ?_⟩
  beta_reduce
  rw [hc]
  exact h2 t ht

theorem Stable.congr {α : Type} {f g : Redactor → Option (α × Redactor)} (hf : Stable f) (h : ∀ r, g r = f r) :
    Stable g := by
  have : g = f := funext h
  rw [this]
  exact hf

theorem stable_refNames (ns : List Text) : Stable fun r => some (r.refNames ns) := by
  induction ns with
  | nil => exact stable_pure []
  | cons n ns ih =>
    refine ((stable_refName n).bind (g := fun a r => (some (r.refNames ns)).map fun x => (a :: x.1, x.2))
      (fun a => ih.map (a :: ·))).congr ?_
    intro r
    rfl

theorem stable_describeBranches (env : DescribeEnv) (arrow : Text) (o : Oid) :
    Stable fun r => some (describeBranches env arrow r o) := by
  unfold describeBranches
  cases env.showBranches with
  | false => exact stable_pure none
  | true =>
    refine ((stable_refNames ((env.branchNames.get? o).getD [])).map fun l =>
      if l.dedup.isEmpty then none
      else some (t!"(" ++ joinTexts t!", " ((l.dedup.map (describeBranch arrow env.headName)).insertionSort (· ≤ ·)) ++
        t!")")).congr ?_
    intro r
    simp only [Bool.not_true, Bool.false_eq_true, if_false, Option.map_some, Option.some.injEq]
    split <;> rfl

/-- Enabled for the main branch. -/
def IsEnabled (r : Redactor) : Prop := ∃ p names, r = .enabled p names

theorem Asked.enabled {a b : Redactor} (h : Asked a b) (ha : IsEnabled a) : IsEnabled b := by
  have := h.knows
  obtain ⟨p, n, rfl⟩ := ha
  cases b with
  | disabled => exact this.elim
  | enabled p' n' => exact ⟨p', n', rfl⟩

theorem Knows.enabled {a b : Redactor} (h : Knows a b) (ha : IsEnabled a) : IsEnabled b := by
  obtain ⟨p, n, rfl⟩ := ha
  cases b with
  | disabled => exact h.elim
  | enabled p' n' => exact ⟨p', n', rfl⟩

theorem message_enabled {r s : Redactor} (hr : IsEnabled r) (hs : IsEnabled s) (env : DescribeEnv) (o : Oid) :
    describeMessage env r o = describeMessage env s o := by
  obtain ⟨p, n, rfl⟩ := hr
  obtain ⟨p', n', rfl⟩ := hs
  rfl

theorem revision_enabled {r : Redactor} (hr : IsEnabled r) (env : DescribeEnv) (o : Oid) :
    describeRevision env r o = none := by
  obtain ⟨p, n, rfl⟩ := hr
  rfl

theorem knows_disabled {r s : Redactor} (h : Knows r s) : r = .disabled ↔ s = .disabled := by
  cases r <;> cases s <;> simp_all [Knows]

theorem stable_describeNode (env : DescribeEnv) (arrow : Text) (rep : Replayer) (c : Cursor) (o : Oid) :
    Stable fun r => describeNode env arrow rep c r o := by
  intro r y s h
  unfold describeNode at h ⊢
  cases ht : describeTime env o with
  | none => rw [ht] at h; exact nomatch h
  | some time =>
    rw [ht] at h
    dsimp only at h ⊢
    obtain ⟨hy, hs⟩ := Prod.mk.inj (Option.some.inj h)
    obtain ⟨h1, h2⟩ := stable_describeBranches env arrow o r (describeBranches env arrow r o).1
      (describeBranches env arrow r o).2 rfl
    rw [hs] at h1 h2
    refine ⟨h1, ?_⟩
    intro t hkt
    have h3 := Option.some.inj (h2 t hkt)
    rw [h3]
    dsimp only
    rw [← hy, hs]
    have hm : describeMessage env t o = describeMessage env s o := by
      cases s with
      | disabled => rw [(knows_disabled hkt).1 rfl]
      | enabled p n => exact message_enabled (hkt.enabled ⟨p, n, rfl⟩) ⟨p, n, rfl⟩ env o
    have hr : describeRevision env t o = describeRevision env s o := by
      cases s with
      | disabled => rw [(knows_disabled hkt).1 rfl]
      | enabled p n => rw [revision_enabled (hkt.enabled ⟨p, n, rfl⟩), revision_enabled ⟨p, n, rfl⟩]
    rw [hm, hr]

theorem stable_itemText (g : Glyphs) {d : Redactor → Oid → Option (Text × Redactor)}
    (hd : ∀ o, Stable fun r => d r o) (item : LineItem) : Stable fun r => itemText g d r item := by
  cases item with
  | mergeParent o => exact (hd o).map fun t => g.commitMerge ++ t!" (merge) " ++ t
  | commit o a b c => exact (hd o).map fun t => g.commit a b c ++ t!" " ++ t
  | mergeChild o => exact (hd o).map fun t => g.commitMerge ++ t!" (merge) " ++ t
  | _ => exact stable_pure _

theorem stable_linesText (g : Glyphs) {d : Redactor → Oid → Option (Text × Redactor)}
    (hd : ∀ o, Stable fun r => d r o) (lines : List SmartlogLine) : Stable fun r => linesText g d r lines := by
  induction lines with
  | nil => exact stable_pure []
  | cons l ls ih =>
    refine ((stable_itemText g hd l.2).bind
      (g := fun a r => (linesText g d r ls).map fun y => (((l.1.flatMap fun rail => g.rail rail ++ t!" ") ++ a) :: y.1, y.2))
      (fun a => ih.map fun y => ((l.1.flatMap fun rail => g.rail rail ++ t!" ") ++ a) :: y)).congr ?_
    intro r
    simp only [linesText]
    cases itemText g d r l.2 with
    | none => rfl
    | some x =>
      simp only [Option.bind_some]
      cases linesText g d x.2 ls <;> rfl

theorem stable_redactEvent (e : Event) : Stable fun r => some (redactEvent r e) := by
  cases e with
  | refUpdate ts tx name old new msg => exact (stable_refName name).map fun n => Event.refUpdate ts tx n old new msg
  | snapshot ts tx head oid name =>
    cases name with
    | none => exact stable_pure _
    | some name => exact (stable_refName name).map fun n => Event.snapshot ts tx head oid (some n)
  | _ => exact stable_pure _

theorem stable_eventLines (debug : Event → Text) (es : List Event) : Stable fun r => some (eventLines debug r es) := by
  induction es with
  | nil => exact stable_pure []
  | cons e es ih =>
    exact ((stable_redactEvent e).bind
      (g := fun a r => (some (eventLines debug r es)).map fun y => ((t!"1. `" ++ debug a ++ t!"`") :: y.1, y.2))
      (fun a => ih.map fun y => (t!"1. `" ++ debug a ++ t!"`") :: y)).congr fun r => rfl

theorem toOption_eq_some {α : Type} {x : Except ReportError α} {y : α} : x.toOption = some y ↔ x = .ok y := by
  cases x <;> simp [Except.toOption]

theorem stable_cursorEventLines (env : ReportEnv) (rep : Replayer) (c : Cursor) :
    Stable fun r => (cursorEventLines env rep c r).toOption := by
  unfold cursorEventLines
  cases rep.txEventsBeforeCursor c with
  | error p => exact stable_none
  | ok o =>
    cases o with
    | none => exact stable_pure _
    | some x =>
      obtain ⟨i, es⟩ := x
      cases es with
      | nil => exact stable_none
      | cons e es =>
        exact (stable_eventLines env.debug (e :: es)).map fun y =>
          (t!"##### Event ID: " ++ intToText i ++ t!", transaction ID: " ++ e.txId.toText ++
            t!" (message: " ++ (env.txMessage e.txId).getD t!"<failed to query>" ++ t!")") :: [] :: y

theorem stable_cursorGraphLines (env : ReportEnv) (rep : Replayer) (c : Cursor) :
    Stable fun r => (cursorGraphLines env rep c r).toOption := by
  unfold cursorGraphLines
  cases makeSmartlogGraph env.smartlog env.dag env.commits false with
  | error p => exact stable_none
  | ok graph =>
    dsimp only
    cases renderGraph env.smartlog env.dag graph env.headOid with
    | error p => exact stable_none
    | ok lines =>
      dsimp only
      refine (stable_linesText .text (stable_describeNode env.describe Glyphs.text.branchArrow rep c) lines).congr ?_
      intro r
      cases linesText .text (describeNode env.describe Glyphs.text.branchArrow rep c) r lines <;> rfl

theorem stable_describeEventCursor (env : ReportEnv) (rep : Replayer) (c : Cursor) :
    Stable fun r => (describeEventCursor env rep c r).toOption := by
  refine ((stable_cursorEventLines env rep c).bind
    (g := fun a r => ((cursorGraphLines env rep c r).toOption).map fun y => (a ++ t!"```" :: y.1 ++ [t!"```"], y.2))
    (fun a => (stable_cursorGraphLines env rep c).map fun y => a ++ t!"```" :: y ++ [t!"```"])).congr ?_
  intro r
  unfold describeEventCursor
  cases cursorEventLines env rep c r with
  | error e => rfl
  | ok x =>
    simp only [Except.toOption, Option.bind_some]
    cases cursorGraphLines env rep c x.2 <;> rfl

theorem stable_reportLoop (env : ReportEnv) (rep : Replayer) (is : List Nat) :
    Stable fun r => (reportLoop env rep r is).toOption := by
  induction is with
  | nil => exact stable_pure _
  | cons i is ih =>
    unfold reportLoop
    cases rep.advanceCursorByTransaction rep.makeDefaultCursor (-(i : Int)) with
    | error p => exact stable_none
    | ok c =>
      dsimp only
      refine ((stable_describeEventCursor env rep c).bind
        (g := fun a r => ((reportLoop env rep r is).toOption).map fun y => (a ++ y.1, y.2))
        (fun a => ih.map fun y => a ++ y)).congr ?_
      intro r
      cases describeEventCursor env rep c r with
      | error e => rfl
      | ok x =>
        simp only [Except.toOption, Option.bind_some]
        cases reportLoop env rep x.2 is <;> rfl

theorem stable_reportWith (env : ReportEnv) : Stable fun r => (reportWith env r).toOption := by
  refine ((stable_reportLoop env (Replayer.fromEvents env.mainName env.events) [0, 1, 2, 3, 4]).map fun l =>
    t!"\n<details>\n<summary>Show 5 events</summary>\n\n" ++ joinTexts t!"\n" l ++ t!"\n\n</details>").congr ?_
  intro r
  unfold reportWith
  cases reportLoop env (Replayer.fromEvents env.mainName env.events) r [0, 1, 2, 3, 4] <;> rfl

/-! ### the table -/

/-- The redactor of a report: the names have the numbers in the order in which they were asked for. -/
def TableOk (main : Text) (r : Redactor) : Prop :=
  ∃ names, r = .enabled [main] names ∧ AMap.WF names ∧
    (∀ k v, AMap.get? names k = some v → Secret main k ∧ ∃ i, i < names.length ∧
      v = refKind k ++ t!"redacted-ref-" ++ natToText i) ∧
    (∀ k k' i j, AMap.get? names k = some (refKind k ++ t!"redacted-ref-" ++ natToText i) →
      AMap.get? names k' = some (refKind k' ++ t!"redacted-ref-" ++ natToText j) → i = j → k = k')

theorem erase_of_absent {β : Type} {m : AMap Text β} {k : Text} (h : AMap.get? m k = none) : AMap.erase m k = m := by
  unfold AMap.erase
  rw [List.filter_eq_self]
  intro e he
  simp only [ne_eq, decide_not, Bool.not_eq_eq_eq_not, Bool.not_true, decide_eq_false_iff_not]
  rintro rfl
  have : e.1 ∈ AMap.keys m := List.mem_map_of_mem he
  rw [AMap.mem_keys_iff, h] at this
  exact nomatch this

theorem redacted_inj {p : Text} {i j : Nat}
    (h : p ++ t!"redacted-ref-" ++ natToText i = p ++ t!"redacted-ref-" ++ natToText j) : i = j :=
  natToText_inj (List.append_cancel_left h)

theorem tableOk_refName {main : Text} {r : Redactor} (h : TableOk main r) (name : Text) :
    TableOk main (r.refName name).2 := by
  obtain ⟨names, rfl, hw, hf, hd⟩ := h
  by_cases hs : Secret main name
  · cases hg : AMap.get? names name with
    | some v => rw [refName_seen hs hg]; exact ⟨names, rfl, hw, hf, hd⟩
    | none =>
      rw [refName_new hs hg]
      have hlen : (AMap.insert names name (Redactor.redactedName name names.length)).length = names.length + 1 := by
        simp [AMap.insert, erase_of_absent hg]
      have hname : Redactor.redactedName name names.length =
          refKind name ++ t!"redacted-ref-" ++ natToText names.length := by
        rw [refKind_eq]; rfl
      refine ⟨_, rfl, AMap.wf_insert hw _ _, ?_, ?_⟩
      · intro k v hk
        rw [AMap.get?_insert] at hk
        rw [hlen]
        split at hk
        · rename_i he
          subst he
          obtain rfl := Option.some.inj hk
          exact ⟨hs, names.length, by omega, hname⟩
        · obtain ⟨h1, i, h2, h3⟩ := hf k v hk
          exact ⟨h1, i, by omega, h3⟩
      · intro k k' i j hk hk' hij
        subst hij
        rw [AMap.get?_insert] at hk hk'
        rw [hname] at hk hk'
        split at hk
        · rename_i he
          subst he
          split at hk'
          · assumption
          · exfalso
            have hi := redacted_inj (Option.some.inj hk)
            obtain ⟨_, i', hlt, hv⟩ := hf _ _ hk'
            have := redacted_inj hv
            omega
        · split at hk'
          · rename_i he
            subst he
            exfalso
            have hi := redacted_inj (Option.some.inj hk')
            obtain ⟨_, i', hlt, hv⟩ := hf _ _ hk
            have := redacted_inj hv
            omega
          · exact hd k k' i i hk hk' rfl
  · rw [refName_known names hs]
    exact ⟨names, rfl, hw, hf, hd⟩

theorem tableOk_new (main : Text) : TableOk main (.new [main]) :=
  ⟨[], rfl, AMap.wf_nil, fun k v h => by simp at h, fun k k' i j h => by simp at h⟩

theorem Asked.tableOk {main : Text} {a b : Redactor} (h : Asked a b) (ha : TableOk main a) : TableOk main b := by
  induction h with
  | refl => exact ha
  | step n _ ih => exact ih (tableOk_refName ha n)

theorem kinds_apart {p q : Text} (hp : p ∈ [t!"refs/heads/", t!"refs/remotes/", []])
    (hq : q ∈ [t!"refs/heads/", t!"refs/remotes/", []]) {i j : Nat}
    (h : p ++ t!"redacted-ref-" ++ natToText i = q ++ t!"redacted-ref-" ++ natToText j) : p = q ∧ i = j := by
  simp only [List.mem_cons, List.not_mem_nil, or_false] at hp hq
  rcases hp with rfl | rfl | rfl <;> rcases hq with rfl | rfl | rfl
  all_goals first
    | exact ⟨rfl, redacted_inj h⟩
    | (exfalso; simp at h; done)

theorem TableOk.nameTable {main : Text} {table : AMap Text Text} (h : TableOk main (.enabled [main] table)) :
    NameTable main table := by
  obtain ⟨names, he, hw, hf, hd⟩ := h
  obtain ⟨_, rfl⟩ := Redactor.enabled.inj he
  refine ⟨?_, ?_⟩
  · intro name shown hs
    obtain ⟨h1, i, _, h2⟩ := hf _ _ hs
    exact ⟨h1, i, h2⟩
  · intro a b shown ha hb
    obtain ⟨_, i, _, h1⟩ := hf _ _ ha
    obtain ⟨_, j, _, h2⟩ := hf _ _ hb
    have hij := (kinds_apart (refKind_mem a) (refKind_mem b) (h1.symm.trans h2)).2
    rw [h1] at ha
    rw [h2] at hb
    exact hd a b i j ha hb hij

end Verif.Spec
