import Verif.Model.Reword

/-!
The editor session of `git reword`: the choice of the editor, the temporary file, the comment character and the
template. Model of git-branchless-reword/src/dialoguer_edit.rs, of `edit_message` in git-branchless-reword/src/lib.rs
and of three functions of git-branchless-lib/src/core/config.rs.
-/

namespace Verif

/-! ### the library `shell_words` -/

/-- The states of `shell_words::split`. -/
inductive WordState
  | delimiter | backslash | unquoted | unquotedBackslash | single | double | doubleBackslash | comment
  deriving DecidableEq, Repr

/-- `shell_words::split`, an external library: a text is cut into words as a shell does it, with quotes, backslashes
and comments, but without any expansion; `none` for a quote which is not closed. `word` is the word being read,
reversed. -/
def shellWordsAux : WordState → Text → Text → Option (List Text)
  | .delimiter, _, [] => some []
  | .delimiter, word, c :: cs =>
    if c = '\'' then shellWordsAux .single word cs
    else if c = '"' then shellWordsAux .double word cs
    else if c = '\\' then shellWordsAux .backslash word cs
    else if c = ' ' ∨ c = '\t' ∨ c = '\n' then shellWordsAux .delimiter word cs
    else if c = '#' then shellWordsAux .comment word cs
    else shellWordsAux .unquoted (c :: word) cs
  | .backslash, word, [] => some [('\\' :: word).reverse]
  | .backslash, word, c :: cs =>
    if c = '\n' then shellWordsAux .delimiter word cs else shellWordsAux .unquoted (c :: word) cs
  | .unquoted, word, [] => some [word.reverse]
  | .unquoted, word, c :: cs =>
    if c = '\'' then shellWordsAux .single word cs
    else if c = '"' then shellWordsAux .double word cs
    else if c = '\\' then shellWordsAux .unquotedBackslash word cs
    else if c = ' ' ∨ c = '\t' ∨ c = '\n' then (shellWordsAux .delimiter [] cs).map (word.reverse :: ·)
    else shellWordsAux .unquoted (c :: word) cs
  | .unquotedBackslash, word, [] => some [('\\' :: word).reverse]
  | .unquotedBackslash, word, c :: cs =>
    if c = '\n' then shellWordsAux .unquoted word cs else shellWordsAux .unquoted (c :: word) cs
  | .single, _, [] => none
  | .single, word, c :: cs =>
    if c = '\'' then shellWordsAux .unquoted word cs else shellWordsAux .single (c :: word) cs
  | .double, _, [] => none
  | .double, word, c :: cs =>
    if c = '"' then shellWordsAux .unquoted word cs
    else if c = '\\' then shellWordsAux .doubleBackslash word cs
    else shellWordsAux .double (c :: word) cs
  | .doubleBackslash, _, [] => none
  | .doubleBackslash, word, c :: cs =>
    if c = '\n' then shellWordsAux .double word cs
    else if c = '$' ∨ c = '`' ∨ c = '"' ∨ c = '\\' then shellWordsAux .double (c :: word) cs
    else shellWordsAux .double (c :: '\\' :: word) cs
  | .comment, _, [] => some []
  | .comment, word, c :: cs =>
    if c = '\n' then shellWordsAux .delimiter word cs else shellWordsAux .comment word cs

/-- `shell_words::split`. -/
def shellWords (t : Text) : Option (List Text) := shellWordsAux .delimiter [] t

/-! ### the editor -/

/-- How an editor ended: its exit code, and the bytes of the file as text (`none`: they are not UTF-8, or the file is
gone). -/
structure EditorRun where
  exitCode : Int
  saved : Option Text
  deriving DecidableEq, Repr

/-- Where the editor comes from, and what running it does. -/
structure EditorEnv where
  /-- The output of `git var GIT_EDITOR`, if it succeeds. Output which is not UTF-8 is not modelled. -/
  gitVar : Option Text
  /-- The variable `GIT_EDITOR`. -/
  gitEditor : Option Text
  /-- The setting `core.editor`. -/
  coreEditor : Option Text
  /-- The variable `VISUAL`. -/
  visual : Option Text
  /-- The variable `EDITOR`. -/
  editor : Option Text
  /-- Starting a program with arguments (the path of the file is added as the last one) on a file with a text;
  `none`: it cannot be started. -/
  run : Text → List Text → Text → Option EditorRun

/-- config.rs:171-197 `get_editor`. -/
def getEditor (env : EditorEnv) : Option Text :=
  match env.gitVar with
  | some out => some (trimEnd out)
  | none =>
    match env.gitEditor with
    | some e => some e
    | none => env.coreEditor

/-- dialoguer_edit.rs:59-71 `get_default_editor`, not on Windows. -/
def getDefaultEditor (env : EditorEnv) : Text :=
  match env.visual with
  | some e => e
  | none =>
    match env.editor with
    | some e => e
    | none => t!"vi"

/-- How a session fails. -/
inductive EditFailure
  | panic
  | error
  deriving DecidableEq, Repr

/-- dialoguer_edit.rs:153-156: line breaks at the end are removed. -/
def trimNewlines (t : Text) : Text := (t.reverse.dropWhile fun c => decide (c = '\n' ∨ c = '\r')).reverse

/-- dialoguer_edit.rs:120-159 `Editor::edit`, with `require_save` false. `parts.remove(0)` panics if there is no word.
The creation of the temporary file is taken to succeed; a program which is not UTF-8 is not modelled. -/
def editorEdit (env : EditorEnv) (program text : Text) : Except EditFailure Text :=
  let finish (cmd : Text) (args : List Text) : Except EditFailure Text :=
    match env.run cmd args text with
    | none => .error .error
    | some r =>
      match r.saved with
      | none => .error .error
      | some saved => .ok (trimNewlines saved)
  match shellWords program with
  | some [] => .error .panic
  | some (cmd :: args) => finish cmd args
  | none => finish program []

/-- git-branchless-reword/src/lib.rs:63-82 `edit_message`. -/
def editMessage (env : EditorEnv) (message : Text) : Except EditFailure Text :=
  match getEditor env with
  | some program => if program = t!":" then .ok message else editorEdit env program message
  | none => editorEdit env (getDefaultEditor env) message

/-! ### comment character and template -/

/-- config.rs:113-121 `get_comment_char`: the first character of `core.commentChar`; a panic if it is empty. -/
def getCommentChar (setting : Option Text) : Except EditFailure Char :=
  match setting with
  | some (c :: _) => .ok c
  | some [] => .error .panic
  | none => .ok '#'

/-- The settings and the files which matter for the template. -/
structure TemplateEnv where
  /-- `commit.template`. -/
  setting : Option Text
  /-- The working copy. -/
  workingCopy : Option Text
  /-- Reading a file as UTF-8. -/
  read : Text → Option Text

/-- Rust's `Path::join` for a path which is not absolute. -/
def joinPath (root path : Text) : Text := if root.getLast? = some '/' then root ++ path else root ++ '/' :: path

/-- config.rs:125-152 `get_commit_template`. -/
def getCommitTemplate (env : TemplateEnv) : Option Text :=
  match env.setting with
  | none => none
  | some path =>
    if path.head? = some '/' then env.read path
    else
      match env.workingCopy with
      | some root => env.read (joinPath root path)
      | none => none

/-- git-branchless-reword/src/lib.rs:379-558 `prepare_messages`, with the editor, the comment character and the template
as they are found. The comment character is looked up first, even if no editor is needed. A panic and an error both
end the command here, before it does anything. -/
def rewordSession (env : EditorEnv) (commentSetting : Option Text) (template : TemplateEnv)
    (messages : InitialMessages) (commits : List RewordCommit) : Except Unit PreparedMessages :=
  match getCommentChar commentSetting with
  | .error _ => .error ()
  | .ok comment =>
    prepareMessages comment ((getCommitTemplate template).getD []) messages commits fun text =>
      match editMessage env text with
      | .ok edited => .ok edited
      | .error _ => .error ()

/-- git-branchless-record/src/lib.rs:295-307 `edit_commit_message`: `git record --interactive` edits a message; the template
is used if it is empty. -/
def recordEditMessage (env : EditorEnv) (template : TemplateEnv) (message : Text) : Except EditFailure Text :=
  editMessage env (if message = [] then (getCommitTemplate template).getD [] else message)

end Verif
