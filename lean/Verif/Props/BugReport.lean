import Verif.Lemmas.RedactReport

/-!
C79: bug reports do not show the names of branches nor the messages of commits, and remain readable.
-/

namespace Verif.Props

open Verif Verif.Spec

/-- C79: the names of references other than the main branch, and the messages of commits, are not in a bug report:
repositories which differ in nothing else have the same report. (Only the number of characters of the words of the
first lines of the messages are shown, and whether a reference is a branch or a remote branch. The branch which is
checked out must not itself be named like a redacted one.) -/
theorem report_hides {ρ : Text → Text} {env env' : ReportEnv} (hρ : Renaming env.mainName ρ)
    (he : SameButSecrets ρ env env')
    (hp : ∀ h, env.describe.headName = some h → ¬ LooksRedacted h)
    (hp' : ∀ h, env'.describe.headName = some h → ¬ LooksRedacted h) :
    collectEvents env' = collectEvents env := by
  have ha : Alike ρ env env' :=
    { txMessage := he.txMessage, dag := he.dag, smartlog := he.smartlog, commits := he.commits,
      headOid := he.headOid, debug := he.debug, commit := he.commit, showTime := he.showTime,
      showBranches := he.showBranches, now := he.now,
      headName := fun s hs => head_rename hρ he.headName hp hp' hs, branchNames := he.branchNames }
  unfold collectEvents reportWith
  rw [he.events, he.mainName, fromEvents_rename hρ]
  have := reportLoop_rename hρ ha (okRedactor_new env.mainName) (Replayer.fromEvents env.mainName env.events)
    [0, 1, 2, 3, 4]
  have hnew : renameRedactor ρ (.new [env.mainName]) = .new [env.mainName] := rfl
  rw [hnew] at this
  rw [this]
  cases reportLoop env (Replayer.fromEvents env.mainName env.events) (.new [env.mainName]) [0, 1, 2, 3, 4] <;> rfl

theorem renaming_id (main : Text) : Renaming main id where
  injective := Function.injective_id
  known := fun _ _ => rfl
  secret := fun _ h => h
  kind := fun _ => rfl
  internal := fun _ => Iff.rfl

theorem renameEvent_id : renameEvent id = id := by
  funext e
  cases e with
  | snapshot ts tx head oid name => cases name <;> rfl
  | _ => rfl

/-- C79, a defect: the branch which is checked out is compared by its name with the names which are shown instead
of the names of the branches. So, unless it is the main branch, the report does not tell which branch it is. -/
theorem report_hides_head (env : ReportEnv) {h : Text} (hh : env.describe.headName = some h)
    (hs : Secret env.mainName h) (hl : ¬ LooksRedacted h) :
    collectEvents env = collectEvents { env with describe := { env.describe with headName := none } } := by
  have ha : Alike id { env with describe := { env.describe with headName := none } } env :=
    { txMessage := rfl, dag := rfl, smartlog := rfl, commits := rfl, headOid := rfl, debug := rfl,
      commit := fun oid => by
        show Option.Rel SameCommitText (env.describe.commit oid) (env.describe.commit oid)
        cases env.describe.commit oid with
        | none => exact .none
        | some c =>
          refine .some ⟨rfl, rfl, ?_⟩
          unfold SameShape
          generalize c.summary = x
          induction x with
          | nil => exact .nil
          | cons a x ih => exact .cons (.inl rfl) ih
      showTime := rfl, showBranches := rfl, now := rfl
      headName := fun s hs' => by
        constructor
        · intro h1
          rw [hh] at h1
          obtain rfl := Option.some.inj h1
          rcases hs' with h2 | h2
          · exact absurd hs h2
          · exact absurd h2 hl
        · intro h1; exact nomatch h1
      branchNames := by simp }
  unfold collectEvents reportWith
  have := reportLoop_rename (env := { env with describe := { env.describe with headName := none } }) (env' := env)
    (renaming_id env.mainName) ha (okRedactor_new env.mainName)
    (Replayer.fromEvents env.mainName env.events) [0, 1, 2, 3, 4]
  rw [← fromEvents_rename (renaming_id env.mainName), renameEvent_id, List.map_id] at this
  have hnew : renameRedactor id (.new [env.mainName]) = .new [env.mainName] := rfl
  rw [hnew] at this
  rw [this]
  dsimp only
  cases reportLoop { env with describe := { env.describe with headName := none } }
    (Replayer.fromEvents env.mainName env.events) (.new [env.mainName]) [0, 1, 2, 3, 4] <;> rfl

/-- C79: a report uses one table of names: it is the report which one gets when all of the names are known before,
and each secret reference has its own number and is shown as one of its kind. -/
theorem report_names (env : ReportEnv) {text : Text} (h : collectEvents env = .ok text) :
    ∃ table, NameTable env.mainName table ∧
      reportWith env (.enabled [env.mainName] table) = .ok (text, .enabled [env.mainName] table) := by
  unfold collectEvents at h
  cases hr : reportWith env (.new [env.mainName]) with
  | error e => rw [hr] at h; exact nomatch h
  | ok x =>
    rw [hr] at h
    obtain rfl : x.1 = text := Except.ok.inj h
    obtain ⟨h1, h2⟩ := stable_reportWith env _ x.1 x.2 (toOption_eq_some.2 hr)
    have ht := h1.tableOk (tableOk_new env.mainName)
    obtain ⟨names, hx, _⟩ := id ht
    rw [hx] at ht h2
    exact ⟨names, ht.nameTable, toOption_eq_some.1 (h2 _ (Knows.refl _))⟩

/-- C79: with such a table, the shown names tell the references apart, unless a reference whose name is shown as it
is has a name like a redacted one. -/
theorem shown_names_apart {main : Text} {table : AMap Text Text} (ht : NameTable main table) {a b : Text}
    (ha : Secret main a → (AMap.get? table a).isSome) (hb : Secret main b → (AMap.get? table b).isSome)
    (hla : ¬ Secret main a → ¬ LooksRedacted a) (hlb : ¬ Secret main b → ¬ LooksRedacted b) :
    (Redactor.refName (.enabled [main] table) a).1 = (Redactor.refName (.enabled [main] table) b).1 ↔ a = b := by
  constructor
  · intro h
    have looks : ∀ n v, AMap.get? table n = some v → LooksRedacted v := by
      intro n v hv
      obtain ⟨_, i, hi⟩ := ht.form n v hv
      exact ⟨refKind n, refKind_mem n, i, hi⟩
    by_cases hsa : Secret main a
    · obtain ⟨v, hv⟩ := Option.isSome_iff_exists.1 (ha hsa)
      rw [refName_seen hsa hv] at h
      by_cases hsb : Secret main b
      · obtain ⟨w, hw⟩ := Option.isSome_iff_exists.1 (hb hsb)
        rw [refName_seen hsb hw] at h
        obtain rfl : v = w := h
        exact ht.distinct a b v hv hw
      · rw [refName_known _ hsb] at h
        obtain rfl : v = b := h
        exact absurd (looks _ _ hv) (hlb hsb)
    · rw [refName_known _ hsa] at h
      by_cases hsb : Secret main b
      · obtain ⟨w, hw⟩ := Option.isSome_iff_exists.1 (hb hsb)
        rw [refName_seen hsb hw] at h
        obtain rfl : a = w := h
        exact absurd (looks _ _ hw) (hla hsa)
      · rw [refName_known _ hsb] at h
        exact h
  · rintro rfl; rfl

/-- C79, the exception: if the main branch is called `redacted-ref-0`, then another branch is shown with the same
name. -/
theorem shown_names_clash :
    Secret t!"refs/heads/redacted-ref-0" t!"refs/heads/topic" ∧
    ((Redactor.new [t!"refs/heads/redacted-ref-0"]).refNames
      [t!"refs/heads/redacted-ref-0", t!"refs/heads/topic"]).1 =
      [t!"refs/heads/redacted-ref-0", t!"refs/heads/redacted-ref-0"] := by
  refine ⟨⟨by decide, by decide⟩, by decide +kernel⟩

/-- C79: of the first line of a message, the spaces are shown and an `x` for every other character. -/
theorem redacted_summary (p : List Text) (names : AMap Text Text) (s : Text) :
    SameShape s (Redactor.summary (.enabled p names) s) ∧
    ∀ c ∈ Redactor.summary (.enabled p names) s, White c ∨ c = 'x' := by
  unfold Redactor.summary SameShape
  dsimp only
  induction s with
  | nil => exact ⟨.nil, by simp⟩
  | cons c s ih =>
    have hx : ¬ White 'x' := by unfold White; decide
    refine ⟨.cons ?_ ih.1, ?_⟩
    · beta_reduce
      by_cases hc : Redactor.isAsciiWhitespace c = true
      · rw [if_pos hc]; exact .inl rfl
      · rw [if_neg hc]; exact .inr ⟨by rw [isWhite_iff] at hc; exact hc, hx⟩
    · intro d hd
      simp only [List.map_cons, List.mem_cons] at hd
      rcases hd with rfl | hd
      · by_cases hc : Redactor.isAsciiWhitespace c = true
        · rw [if_pos hc]; exact .inl ((isWhite_iff c).1 hc)
        · rw [if_neg hc]; exact .inr rfl
      · exact ih.2 d hd

/-- C79, a defect: the graphs of the five sections are about the repository as it is now; only the explanations
of obsolete commits depend on the section. -/
theorem graph_of_now (env : ReportEnv) (rep : Replayer) (r : Redactor) {c c' : Cursor}
    (h : ∀ oid, describeObsolescence rep c oid = describeObsolescence rep c' oid) :
    cursorGraphLines env rep c r = cursorGraphLines env rep c' r := by
  have : describeNode env.describe Glyphs.text.branchArrow rep c =
      describeNode env.describe Glyphs.text.branchArrow rep c' := by
    funext r o
    unfold describeNode
    rw [h]
  unfold cursorGraphLines
  rw [this]

end Verif.Props
