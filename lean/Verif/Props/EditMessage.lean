import Verif.Lemmas.EditMessage
import Verif.Props.Reword

/-!
# C98: what is saved in the editor is what `git reword` uses
-/

namespace Verif.Props

open Verif Verif.Spec

/-! ### one session -/

/-- The editor of git is run as the shell would run it, with the text; what it leaves is the result, but for line breaks
at its end. The exit code does not matter. -/
theorem edit_saved {env : EditorEnv} {program cmd message saved : Text} {args : List Text} {code : Int}
    (he : EditorIs env program cmd args) (hs : Saves env cmd args message saved code)
    (hl : ∀ c, saved.getLast? = some c → c ≠ '\n' ∧ c ≠ '\r') : editMessage env message = .ok saved := by
  obtain ⟨h1, h2, h3, h4⟩ := he
  obtain ⟨breaks, h5, h6⟩ := hs
  unfold editMessage getEditor
  simp only [h1]
  rw [trimEnd_break h4, if_neg h2]
  unfold editorEdit
  simp only [ShellCommand.words h3, h6, trimNewlines_eq h5 hl]

/-- An editor which cannot be started, or does not leave a text, is an error. -/
theorem edit_failed {env : EditorEnv} {program cmd message : Text} {args : List Text}
    (he : EditorIs env program cmd args)
    (hs : ∀ code saved, env.run cmd args message ≠ some ⟨code, some saved⟩) : editMessage env message = .error .error := by
  obtain ⟨h1, h2, h3, h4⟩ := he
  unfold editMessage getEditor
  simp only [h1]
  rw [trimEnd_break h4, if_neg h2]
  unfold editorEdit
  simp only [ShellCommand.words h3]
  cases hr : env.run cmd args message with
  | none => rfl
  | some r =>
    obtain ⟨code, saved⟩ := r
    cases saved with
    | none => rfl
    | some saved => exact absurd hr (hs code saved)

/-- The editor `:` leaves the text as it is. -/
theorem edit_noop {env : EditorEnv} (he : env.gitVar = some t!":\n") (message : Text) :
    editMessage env message = .ok message := by
  unfold editMessage getEditor
  simp only [he]
  rw [if_pos (by decide)]

/-- Without `git var`, the variable, the setting and the two other variables are asked in git's order: the first which
is there is the editor of the session. -/
theorem edit_order {env env' : EditorEnv} {program : Text} (hg : env.gitVar = none)
    (hfirst : [env.gitEditor, env.coreEditor, env.visual, env.editor, some t!"vi"].find? (·.isSome) = some (some program))
    (hp : program ≠ t!":") (he' : env'.gitVar = some (program ++ t!"\n")) (hrun : env'.run = env.run)
    (hl : ∀ c, program.getLast? = some c → isSpace c = false) (message : Text) :
    editMessage env message = editMessage env' message := by
  have hr : editMessage env' message = editorEdit env program message := by
    unfold editMessage getEditor
    simp only [he']
    rw [trimEnd_break hl, if_neg hp]
    unfold editorEdit
    rw [hrun]
  rw [hr]
  unfold editMessage getEditor getDefaultEditor
  simp only [hg]
  cases h1 : env.gitEditor with
  | some e =>
    simp only [h1, List.find?_cons_of_pos, Option.isSome_some, Option.some.injEq] at hfirst
    subst hfirst
    simp only [if_neg hp]
  | none =>
    cases h2 : env.coreEditor with
    | some e =>
      simp [h1, h2] at hfirst
      subst hfirst
      simp only [if_neg hp]
    | none =>
      cases h3 : env.visual with
      | some e => simp [h1, h2, h3] at hfirst; subst hfirst; rfl
      | none =>
        cases h4 : env.editor with
        | some e => simp [h1, h2, h3, h4] at hfirst; subst hfirst; rfl
        | none => simp [h1, h2, h3, h4] at hfirst; subst hfirst; rfl

/-! ### the whole of `git reword` -/

theorem session_prepare {env : EditorEnv} {setting : Option Text} {template : TemplateEnv} {messages : InitialMessages}
    {commits : List RewordCommit} {comment : Char} (hc : getCommentChar setting = .ok comment) :
    rewordSession env setting template messages commits =
      prepareMessages comment ((getCommitTemplate template).getD []) messages commits fun text =>
        match editMessage env text with
        | .ok edited => .ok edited
        | .error _ => .error () := by
  unfold rewordSession
  simp only [hc]
  rfl

theorem _root_.Verif.Spec.CommentIs.char {setting : Option Text} {comment : Char} (h : CommentIs setting comment) :
    getCommentChar setting = .ok comment := by
  rcases h with ⟨rfl, rfl⟩ | rfl <;> rfl

/-- If the text is left as it was shown, but for line breaks at its end (which many editors add), nothing is changed. -/
theorem session_unchanged {env : EditorEnv} {program cmd shown start : Text} {args : List Text} {code : Int}
    {setting : Option Text} {comment : Char} {template : TemplateEnv} {messages : InitialMessages} {discard : Bool}
    {commits : List RewordCommit} (he : EditorIs env program cmd args) (hc : CommentIs setting comment)
    (hask : AsksEditor ((getCommitTemplate template).getD []) messages start discard)
    (hshown : editorText comment start discard commits = .ok shown) (hs : Saves env cmd args shown shown code) :
    rewordSession env setting template messages commits = .ok .identical := by
  rw [session_prepare hc.char]
  refine unedited_text hask hshown ?_
  rw [edit_saved he hs ?_]
  intro c h
  rw [editorText_last hshown] at h
  simp only [Option.some.injEq] at h
  subst h
  decide

/-- One commit: its message is shown above an explanation. If the editor leaves another message above the explanation,
the commit gets it, cleaned up; and no other commit gets anything. -/
theorem session_new_message {env : EditorEnv} {program cmd shown : Text} {args : List Text} {code : Int}
    {setting : Option Text} {comment : Char} {template : TemplateEnv} {ms : List Text} {c : RewordCommit}
    (he : EditorIs env program cmd args) (hcs : CommentIs setting comment)
    (hc : comment.toNat < 128) (hnl : comment ≠ '\n') (hn : ShortName c.short)
    (hms : ∀ m ∈ ms, ∀ c ∈ m, isSpace c = true) (hshown : editorText comment [] false [c] = .ok shown) :
    ∃ footer : Text,
      shown = trim (c.message.getD []) ++ t!"\n\n" ++ footer ∧
      ∀ new m : Text, Saves env cmd args shown (new ++ t!"\n\n" ++ footer) code →
        ¬ t!"++ reword" <:+: new → '\x00' ∉ new ++ t!"\n\n" ++ footer → new ≠ trim (c.message.getD []) →
        messagePrettify new (some comment) = .ok m → (∃ ch ∈ m, isSpace ch = false) →
          ∃ result, rewordSession env setting template (.messages ms) [c] = .ok (.succeeded result) ∧
            ∀ o, AMap.get? result o = if o = c.oid then some m else none := by
  obtain ⟨footer, h1, h2⟩ := new_message_arrives (template := (getCommitTemplate template).getD []) hc hnl hn hms hshown
  have hlast : ∀ new : Text, (new ++ t!"\n\n" ++ footer).getLast? = some '.' := by
    intro new
    have h := editorText_last hshown
    rw [h1] at h
    rw [List.getLast?_append] at h ⊢
    cases hf : footer.getLast? with
    | some x => rw [hf] at h; simpa using h
    | none => rw [hf] at h; simp [List.getLast?_append] at h
  refine ⟨footer, h1, ?_⟩
  intro new m hs hm hz hne hp hsp
  rw [session_prepare hcs.char]
  refine h2 new _ m rfl hm hz ?_ hp hsp _ ?_
  · rw [h1]
    intro h
    exact hne (List.append_cancel_right (List.append_cancel_right h))
  · rw [edit_saved he hs ?_]
    intro x hx
    rw [hlast] at hx
    simp only [Option.some.injEq] at hx
    subst hx
    decide

/-- Several commits: the same, with the messages after lines which name the commits. -/
theorem session_new_messages {env : EditorEnv} {program cmd shown : Text} {args : List Text} {code : Int}
    {setting : Option Text} {comment : Char} {template : TemplateEnv} {ms : List Text} {commits : List RewordCommit}
    (he : EditorIs env program cmd args) (hcs : CommentIs setting comment)
    (hc : comment.toNat < 128) (hplus : comment ≠ '+') (hnl : comment ≠ '\n')
    (hd : DistinctNames commits) (hn : ∀ c ∈ commits, ShortName c.short) (hlen : 2 ≤ commits.length)
    (hms : ∀ m ∈ ms, ∀ c ∈ m, isSpace c = true) (hshown : editorText comment [] false commits = .ok shown) :
    ∃ footer : Text,
      shown = (commits.flatMap fun c =>
        t!"++ reword " ++ c.short ++ t!"\n" ++ trim (c.message.getD []) ++ t!"\n\n") ++ footer ∧
      ∀ (new : RewordCommit → Text) (edited : Text),
        edited = (commits.flatMap fun c => t!"++ reword " ++ c.short ++ t!"\n" ++ new c ++ t!"\n\n") ++ footer →
        Saves env cmd args shown edited code →
        (∀ c ∈ commits, ¬ t!"++ reword" <:+: new c) → '\x00' ∉ edited → edited ≠ shown →
          ∃ result, rewordSession env setting template (.messages ms) commits = .ok (.succeeded result) ∧
            (∀ o, (AMap.get? result o).isSome = true ↔ o ∈ commits.map (·.oid)) ∧
            ∀ c ∈ commits, ∃ m, messagePrettify (new c) (some comment) = .ok m ∧
              AMap.get? result c.oid = some m := by
  obtain ⟨footer, h1, h2⟩ :=
    new_messages_arrive (template := (getCommitTemplate template).getD []) hc hplus hnl hd hn hlen hms hshown
  have hsne : ∀ body : Text, body.getLast? = some '\n' → (body ++ footer).getLast? = some '.' := by
    intro body hb
    have h := editorText_last hshown
    have hb2 : ∀ cs : List RewordCommit, cs ≠ [] → (cs.flatMap fun c =>
        t!"++ reword " ++ c.short ++ t!"\n" ++ trim (c.message.getD []) ++ t!"\n\n").getLast? = some '\n' := by
      intro cs hcs
      refine flatMap_last (fun c => ?_) hcs
      rw [List.getLast?_append]
      rfl
    rw [h1, List.getLast?_append] at h
    rw [List.getLast?_append]
    cases hf : footer.getLast? with
    | some x => rw [hf] at h; simpa using h
    | none =>
      rw [hf, hb2 commits (by rintro rfl; simp at hlen)] at h
      simp at h
  refine ⟨footer, h1, ?_⟩
  intro new edited hed hs hm hz hne
  rw [session_prepare hcs.char]
  refine h2 new edited hed hm hz hne _ ?_
  rw [edit_saved he hs ?_]
  intro x hx
  rw [hed, hsne _ ?_] at hx
  · simp only [Option.some.injEq] at hx
    subst hx
    decide
  · refine flatMap_last (fun c => ?_) (by rintro rfl; simp at hlen)
    rw [List.getLast?_append]
    rfl

/-- If the editor fails to be started, or leaves no text, nothing is reworded. -/
theorem session_editor_failed {env : EditorEnv} {program cmd shown start : Text} {args : List Text}
    {setting : Option Text} {comment : Char} {template : TemplateEnv} {messages : InitialMessages} {discard : Bool}
    {commits : List RewordCommit} (he : EditorIs env program cmd args) (hc : CommentIs setting comment)
    (hask : AsksEditor ((getCommitTemplate template).getD []) messages start discard)
    (hshown : editorText comment start discard commits = .ok shown)
    (hs : ∀ code saved, env.run cmd args shown ≠ some ⟨code, some saved⟩) :
    rewordSession env setting template messages commits = .error () := by
  rw [session_prepare hc.char]
  unfold prepareMessages
  rcases hask with ⟨rfl, rfl, rfl⟩ | ⟨ms, rfl, hms, rfl, rfl⟩
  · simp only [Bool.not_true, Bool.false_eq_true, if_false, hshown, edit_failed he hs]
  · have : trim (joinTexts ['\n', '\n'] ms) = [] := by
      rw [trim_eq_nil]
      intro c hc
      rcases mem_intercalate hc with h | ⟨t, h1, h2⟩
      · simp only [List.mem_cons, List.not_mem_nil, or_false, or_self] at h
        subst h
        decide
      · exact hms t h1 c h2
    simp only [this, List.isEmpty_nil, Bool.not_true, Bool.false_eq_true, if_false, hshown, edit_failed he hs]

/-! ### the template -/

/-- The template is read from the file which the setting names, for settings which do not begin with `~`. -/
theorem template_read_partial {env : TemplateEnv} {home root setting path : Text} (hs : env.setting = some setting)
    (hw : env.workingCopy = some root) (hroot : root.getLast? ≠ some '/') (hp : TemplatePath home root setting path)
    (hnh : setting.head? ≠ some '~') : getCommitTemplate env = env.read path := by
  unfold getCommitTemplate
  simp only [hs]
  cases hp with
  | home => simp at hnh
  | absolute => simp
  | relative h1 h2 =>
    rw [if_neg h1]
    simp only [hw, joinPath, if_neg hroot]
    simp

/-- `git record --interactive`: the editor shows the message; if there is none yet, the template, and nothing if there is
none of these. What it leaves is the message. -/
theorem record_edit_saved {env : EditorEnv} {template : TemplateEnv} {program cmd message start saved : Text}
    {args : List Text} {code : Int} (he : EditorIs env program cmd args)
    (hstart : (message ≠ [] ∧ start = message) ∨ (message = [] ∧ getCommitTemplate template = some start) ∨
      (message = [] ∧ getCommitTemplate template = none ∧ start = []))
    (hs : Saves env cmd args start saved code) (hl : ∀ c, saved.getLast? = some c → c ≠ '\n' ∧ c ≠ '\r') :
    recordEditMessage env template message = .ok saved := by
  unfold recordEditMessage
  rcases hstart with ⟨h1, rfl⟩ | ⟨rfl, h2⟩ | ⟨rfl, h2, rfl⟩
  · rw [if_neg h1]
    exact edit_saved he hs hl
  · rw [if_pos rfl, h2]
    exact edit_saved he hs hl
  · rw [if_pos rfl, h2]
    exact edit_saved he hs hl

/-! ### where a session differs from git's -/

/-- The exit code of the editor is not looked at: an editor which reports that the edit is to be abandoned (as vim does
for `:cq`) does not stop `git reword`. -/
theorem exit_code_ignored {env env' : EditorEnv} (h1 : env'.gitVar = env.gitVar) (h2 : env'.gitEditor = env.gitEditor)
    (h3 : env'.coreEditor = env.coreEditor) (h4 : env'.visual = env.visual) (h5 : env'.editor = env.editor)
    (hrun : ∀ cmd args text, (env'.run cmd args text).map (·.saved) = (env.run cmd args text).map (·.saved))
    (setting : Option Text) (template : TemplateEnv) (messages : InitialMessages) (commits : List RewordCommit) :
    rewordSession env' setting template messages commits = rewordSession env setting template messages commits := by
  have he : ∀ program text, editorEdit env' program text = editorEdit env program text := by
    intro program text
    have hf : ∀ cmd args, (match env'.run cmd args text with
        | none => (.error .error : Except EditFailure Text)
        | some r => match r.saved with
          | none => .error .error
          | some saved => .ok (trimNewlines saved)) =
        (match env.run cmd args text with
        | none => .error .error
        | some r => match r.saved with
          | none => .error .error
          | some saved => .ok (trimNewlines saved)) := by
      intro cmd args
      have := hrun cmd args text
      cases ha : env'.run cmd args text with
      | none =>
        rw [ha] at this
        cases hb : env.run cmd args text with
        | none => rfl
        | some r => rw [hb] at this; simp at this
      | some r =>
        rw [ha] at this
        cases hb : env.run cmd args text with
        | none => rw [hb] at this; simp at this
        | some r' =>
          rw [hb] at this
          simp only [Option.map_some, Option.some.injEq] at this
          simp only [this]
    unfold editorEdit
    simp only
    cases hw : shellWords program with
    | none => exact hf _ _
    | some ws =>
      cases ws with
      | nil => rfl
      | cons w ws => exact hf _ _
  have hm : ∀ text, editMessage env' text = editMessage env text := by
    intro text
    unfold editMessage getEditor getDefaultEditor
    simp only [h1, h2, h3, h4, h5, he]
  unfold rewordSession
  simp only [hm]

/-- The first character of the setting is taken for the comment character, whatever the setting is: with `auto`, which
git allows, no line of a new message begins with `a`. -/
theorem setting_strips_lines {env : EditorEnv} {rest start : Text} {comment : Char} {template : TemplateEnv}
    {messages : InitialMessages} {discard : Bool} {commits : List RewordCommit} {result : AMap Oid Text}
    (hc : comment.toNat < 128) (hask : AsksEditor ((getCommitTemplate template).getD []) messages start discard)
    (h : rewordSession env (some (comment :: rest)) template messages commits = .ok (.succeeded result)) :
    ∀ o m, AMap.get? result o = some m → ∀ l ∈ splitChar '\n' m, l.head? ≠ some comment := by
  intro o m hm
  suffices ∃ t, messagePrettify t (some comment) = .ok m by
    obtain ⟨t, ht⟩ := this
    exact pretty_no_comment hc ht
  rw [session_prepare (comment := comment) rfl] at h
  have hkey : ∀ {msg : Text} {p : ParsedMessages}, parseBulkEditMessage msg commits comment = .ok p →
      AMap.get? p.messages o = some m → ∃ t, messagePrettify t (some comment) = .ok m := by
    intro msg p hp hpm
    exact parseSections_pretty hp (by intro o m h; simp [AMap.get?] at h) o m hpm
  have hload : ∀ ms : List Text, messages = .messages ms → (trim (joinTexts ['\n', '\n'] ms)).isEmpty = true := by
    intro ms hms
    rcases hask with ⟨rfl, _⟩ | ⟨ms', rfl, hms', _⟩
    · simp at hms
    · simp only [InitialMessages.messages.injEq] at hms
      subst hms
      rw [List.isEmpty_iff, trim_eq_nil]
      intro c hc
      rcases mem_intercalate hc with h | ⟨t, h1, h2⟩
      · simp only [List.mem_cons, List.not_mem_nil, or_false, or_self] at h
        subst h
        decide
      · exact hms' t h1 c h2
  unfold prepareMessages at h
  cases messages with
  | discard =>
    simp only [Bool.not_true, Bool.false_eq_true, if_false] at h
    split at h
    · simp at h
    · split at h
      · simp at h
      · split at h
        · simp at h
        · split at h
          · simp at h
          · split at h
            · simp at h
            · split at h
              · simp at h
              · rename_i hp
                split at h
                · simp only [Except.ok.injEq, PreparedMessages.succeeded.injEq] at h
                  subst h
                  exact hkey hp hm
                · simp at h
  | messages ms =>
    simp only [hload ms rfl, Bool.not_true, Bool.false_eq_true, if_false] at h
    split at h
    · simp at h
    · split at h
      · simp at h
      · split at h
        · simp at h
        · split at h
          · simp at h
          · split at h
            · simp at h
            · split at h
              · simp at h
              · rename_i hp
                split at h
                · simp only [Except.ok.injEq, PreparedMessages.succeeded.injEq] at h
                  subst h
                  exact hkey hp hm
                · simp at h

/-- An empty comment character is a panic, even if the messages are given and no editor is needed. -/
theorem empty_comment_char (env : EditorEnv) (template : TemplateEnv) (messages : InitialMessages)
    (commits : List RewordCommit) :
    getCommentChar (some []) = .error .panic ∧
      rewordSession env (some []) template messages commits = .error () := ⟨rfl, rfl⟩

/-- A blank editor is a panic. -/
theorem blank_editor_panics {env : EditorEnv} {program : Text} (he : env.gitVar = some program)
    (hb : ∀ c ∈ program, isSpace c = true) (message : Text) : editMessage env message = .error .panic := by
  have h1 : trimEnd program = [] := by
    unfold trimEnd
    rw [List.dropWhile_eq_nil_iff.2 (by simpa using hb)]
    rfl
  unfold editMessage getEditor
  simp only [he, h1]
  rfl

/-- The shell's expansions are not done: an editor given as `$HOME/bin/ed` or `~/bin/ed` is a program of just that
name. -/
theorem editor_not_expanded {env : EditorEnv} {program : Text} (he : env.gitVar = some (program ++ t!"\n"))
    (hw : ∀ c ∈ program, c ∉ t!" \t\n'\"\\") (hs : program.head? = some '$' ∨ program.head? = some '~')
    (hl : ∀ c, program.getLast? = some c → isSpace c = false) {message : Text}
    (hrun : env.run program [] message = none) : editMessage env message = .error .error := by
  have hne : program ≠ [] := by rintro rfl; simp at hs
  have hcolon : program ≠ t!":" := by rintro rfl; revert hs; decide
  unfold editMessage getEditor
  simp only [he]
  rw [trimEnd_break hl, if_neg hcolon]
  unfold editorEdit
  rw [shellWords_plain hw hne (by rcases hs with h | h <;> rw [h] <;> decide)]
  simp only [hrun]

/-- A template below the home directory is looked for below the working copy instead, in a directory called `~`. -/
theorem home_template_lost {env : TemplateEnv} {root p : Text} (hs : env.setting = some (t!"~/" ++ p))
    (hw : env.workingCopy = some root) (hroot : root.getLast? ≠ some '/') :
    getCommitTemplate env = env.read (root ++ t!"/~/" ++ p) := by
  unfold getCommitTemplate
  simp only [hs, hw]
  rw [if_neg (by simp)]
  simp [joinPath, hroot]

end Verif.Props
