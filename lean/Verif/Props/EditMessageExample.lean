import Verif.Props.EditMessage

/-! The hypotheses of C98 are met by concrete sessions. -/

namespace Verif.Props

open Verif Verif.Spec

/-- An editor with arguments and quotes, which replaces the first word of the text and adds a line break. -/
def exEditor (code : Int) (edit : Text → Option Text) : EditorEnv where
  gitVar := some t!"'my editor' --wait \"a b\"\n"
  gitEditor := none
  coreEditor := none
  visual := none
  editor := none
  run := fun cmd args text =>
    if cmd = t!"my editor" ∧ args = [t!"--wait", t!"a b"] then some ⟨code, edit text⟩ else none

theorem exEditor_is (code : Int) (edit : Text → Option Text) :
    EditorIs (exEditor code edit) t!"'my editor' --wait \"a b\"" t!"my editor" [t!"--wait", t!"a b"] := by
  refine ⟨rfl, by decide, ?_, by decide⟩
  have h1 : ShellWord t!"'my editor'" t!"my editor" :=
    .one (.single (t := t!"my editor") (by decide))
  have ord : ∀ c ∈ t!"--wait", OrdinaryChar c := by unfold OrdinaryChar; decide
  have h2 : ShellWord t!"--wait" t!"--wait" :=
    .more (.char (ord '-' (by decide))) <| .more (.char (ord '-' (by decide))) <|
    .more (.char (ord 'w' (by decide))) <| .more (.char (ord 'a' (by decide))) <|
    .more (.char (ord 'i' (by decide))) <| .one (.char (ord 't' (by decide)))
  have h3 : ShellWord t!"\"a b\"" t!"a b" := .one (.double (t := t!"a b") (by decide))
  exact .more (s := t!"'my editor'") (gap := t!" ") h1 (by decide) (by decide)
    (.more (s := t!"--wait") (gap := t!" ") h2 (by decide) (by decide) (.one h3))

def exNoTemplate : TemplateEnv := ⟨none, some t!"/repo", fun _ => none⟩

def exOid98 : Oid := exFirst.oid

def exEditCommit : RewordCommit := ⟨exOid98, t!"a1", some t!"Old title\n\nadd a test\n"⟩

def exShown : Text := t!"Old title\n\nadd a test\n\n# Rewording: Please enter the commit message to apply to this 1 commit.\n# Lines starting with '#' will be ignored, and an empty message aborts\n# rewording."

theorem exShown_eq : editorText '#' [] false [exEditCommit] = .ok exShown := by decide +kernel

/-- The file is saved unchanged, with a line break added. -/
example (code : Int) :
    rewordSession (exEditor code fun t => some (t ++ t!"\n")) none exNoTemplate (.messages []) [exEditCommit] =
      .ok .identical :=
  session_unchanged (exEditor_is _ _) (.inl ⟨rfl, rfl⟩) (.inr ⟨[], rfl, by simp, rfl, rfl⟩) exShown_eq
    ⟨t!"\n", by simp [LineBreaks], rfl⟩

def exNewFile : Text := t!"New title\n\nadd a test\n\n# Rewording: Please enter the commit message to apply to this 1 commit.\n# Lines starting with '#' will be ignored, and an empty message aborts\n# rewording."

/-- The message is replaced. -/
example (code : Int) :
    ∃ result, rewordSession (exEditor code fun _ => some (exNewFile ++ t!"\n")) none exNoTemplate (.messages []) [exEditCommit] =
      .ok (.succeeded result) ∧ AMap.get? result exOid98 = some t!"New title\n\nadd a test\n" := by
  obtain ⟨footer, h1, h2⟩ := session_new_message (template := exNoTemplate) (ms := []) (code := code)
    (exEditor_is code fun _ => some (exNewFile ++ t!"\n")) (.inl ⟨rfl, rfl⟩) (by decide) (by decide)
    (by constructor <;> decide) (by simp) exShown_eq
  have hf : footer = rewordFooter '#' 1 := by
    have : exShown = trim (exEditCommit.message.getD []) ++ t!"\n\n" ++ rewordFooter '#' 1 := by decide +kernel
    rw [h1] at this
    exact List.append_cancel_left this
  subst hf
  have hnew : exNewFile = t!"New title\n\nadd a test" ++ t!"\n\n" ++ rewordFooter '#' 1 := by decide +kernel
  obtain ⟨result, h3, h4⟩ := h2 t!"New title\n\nadd a test" t!"New title\n\nadd a test\n"
    ⟨t!"\n", by simp [LineBreaks], by rw [← hnew]; rfl⟩ (by decide +kernel) (by decide +kernel)
    (by decide +kernel) (by decide +kernel) ⟨'N', by decide, by decide⟩
  exact ⟨result, h3, by rw [h4]; rfl⟩

/-- The same file with `core.commentChar=auto`: the line `add a test` is lost. -/
theorem auto_loses_line :
    rewordSession (exEditor 0 fun _ => some t!"New title\n\nadd a test\n") (some t!"auto") exNoTemplate
      (.messages []) [exEditCommit] = .ok (.succeeded [(exOid98, t!"New title\n")]) := by decide +kernel

example : ∀ o m, AMap.get? [(exOid98, t!"New title\n")] o = some m → ∀ l ∈ splitChar '\n' m, l.head? ≠ some 'a' :=
  setting_strips_lines (rest := t!"uto") (by decide) (.inr ⟨[], rfl, by simp, rfl, rfl⟩) auto_loses_line

/-- An editor which ends with an error after saving: the message is changed nevertheless. -/
theorem abandoned_edit_applied :
    rewordSession (exEditor 1 fun _ => some t!"Half a tit") none exNoTemplate (.messages []) [exEditCommit] =
      .ok (.succeeded [(exOid98, t!"Half a tit\n")]) := by decide +kernel

/-- An editor which is not there. -/
example : rewordSession { exEditor 0 some with run := fun _ _ _ => none } none exNoTemplate (.messages []) [exEditCommit] =
    .error () :=
  session_editor_failed (program := t!"'my editor' --wait \"a b\"") (exEditor_is 0 some) (.inl ⟨rfl, rfl⟩)
    (.inr ⟨[], rfl, by simp, rfl, rfl⟩) exShown_eq (by simp)

example : editMessage { exEditor 0 some with gitVar := some t!"~/bin/ed\n", run := fun _ _ _ => none } t!"x" =
    .error .error :=
  editor_not_expanded (program := t!"~/bin/ed") rfl (by decide) (.inr rfl) (by decide) rfl

example : editMessage { exEditor 0 some with gitVar := some t!"\n" } t!"x" = .error .panic :=
  blank_editor_panics rfl (by decide) _

/-- `VISUAL` is asked before `EDITOR`. -/
example : editMessage { exEditor 0 some with gitVar := none, visual := some t!"ed", editor := some t!"vim" } t!"x" =
    editMessage { exEditor 0 some with gitVar := some t!"ed\n" } t!"x" :=
  edit_order (env := { exEditor 0 some with gitVar := none, visual := some t!"ed", editor := some t!"vim" })
    (env' := { exEditor 0 some with gitVar := some t!"ed\n" }) (program := t!"ed") rfl (by decide) (by decide)
    rfl rfl (by decide) _

/-- Templates below the working copy are found, those below the home directory are not. -/
def exTemplate (setting : Text) : TemplateEnv where
  setting := some setting
  workingCopy := some t!"/repo"
  read := fun p =>
    if p = t!"/repo/msg.txt" then some t!"Bug:" else if p = t!"/home/me/msg.txt" then some t!"Task:" else none

example : getCommitTemplate (exTemplate t!"msg.txt") = some t!"Bug:" :=
  template_read_partial (home := t!"/home/me") (root := t!"/repo") (setting := t!"msg.txt") rfl rfl (by decide)
    (.relative (by decide) (by decide)) (by decide)

example : TemplatePath t!"/home/me" t!"/repo" t!"~/msg.txt" t!"/home/me/msg.txt" ∧
    (exTemplate t!"~/msg.txt").read t!"/home/me/msg.txt" = some t!"Task:" ∧
    getCommitTemplate (exTemplate t!"~/msg.txt") = none :=
  ⟨.home (p := t!"msg.txt"), rfl, home_template_lost (root := t!"/repo") (p := t!"msg.txt") rfl rfl (by decide)⟩

/-- The template of a new commit is completed. -/
example : recordEditMessage (exEditor 0 fun t => some (t ++ t!" 17\n")) (exTemplate t!"msg.txt") [] = .ok t!"Bug: 17" :=
  record_edit_saved (exEditor_is _ _) (start := t!"Bug:") (code := 0) (.inr (.inl ⟨rfl, by decide⟩))
    ⟨t!"\n", by simp [LineBreaks], rfl⟩ (by decide)

end Verif.Props
