import Verif.Model.Github
import Verif.Model.Lines

/-!
What `submit` asks of the program `gh`, and which forge it uses: git-branchless-submit/src/github.rs:84-104 and 827-1005
(`RealGithubClient`), lib.rs:519-603 (`select_forge`).

Of `gh` are modelled: how it reads its arguments (an option with a value takes the next argument, whatever it is; of the forms of
options only those which are used), `pr list`, `pr create` and `pr edit`. `pr list` lists the open pull requests, the latest first,
and at most 30 without `--limit`. The JSON which it prints is not modelled, only which fields there are.
-/

namespace Verif

/-! ### the arguments -/

/-- github.rs:906-917. -/
def listArgs : List Text :=
  [t!"pr", t!"list", t!"--author", t!"@me", t!"--json",
    t!"number,url,headRefName,headRefOid,baseRefName,closed,isDraft,title,body"]

/-- github.rs:930-959. -/
def createArgs (head title bodyFile : Text) (draft : Bool) : List Text :=
  [t!"pr", t!"create", t!"--head", head, t!"--title", title, t!"--body-file", bodyFile] ++
    if draft then [t!"--draft"] else []

/-- github.rs:989-1002. -/
def editArgs (number : Nat) (base title bodyFile : Text) : List Text :=
  [t!"pr", t!"edit", natToText number, t!"--base", base, t!"--title", title, t!"--body-file", bodyFile]

/-! ### the program `gh` -/

/-- The options of a subcommand: those with a value, and those without. -/
structure GhFlags where
  values : List Text
  switches : List Text

/-- How the arguments are read: the options with their values, and the other arguments. -/
def parseFlags (f : GhFlags) : List Text → Option (AMap Text Text × List Text)
  | [] => some ([], [])
  | a :: rest =>
    if a = t!"--" then some ([], rest)
    else if f.switches.contains a then (parseFlags f rest).map fun x => ((a, t!"true") :: x.1, x.2)
    else if f.values.contains a then
      match rest with
      | [] => none
      | v :: rest => (parseFlags f rest).map fun x => ((a, v) :: x.1, x.2)
    else if (t!"-").isPrefixOf a then none
    else (parseFlags f rest).map fun x => (x.1, a :: x.2)

/-- What `gh` prints. -/
inductive GhOutput where
  | text (t : Text)
  /-- The pull requests, with these fields. -/
  | rows (fields : List Text) (prs : List PullRequest)

/-- `gh pr list`. `others` are the open pull requests of other people. -/
def ghList (others : List PullRequest) (w : ForgeWorld) (args : List Text) : Option (ForgeWorld × GhOutput) :=
  match parseFlags ⟨[t!"--author", t!"--json"], []⟩ args with
  | some (flags, []) =>
    (flags.get? t!"--json").map fun fields =>
      let prs := if flags.get? t!"--author" = some t!"@me" then w.prs else others ++ w.prs
      (w, .rows (splitChar ',' fields) (prs.reverse.take 30))
  | _ => none

/-- `gh pr create`, which prints the URL. -/
def ghCreate (files : AMap Text Text) (w : ForgeWorld) (args : List Text) : Option (ForgeWorld × GhOutput) :=
  match parseFlags ⟨[t!"--head", t!"--title", t!"--body-file"], [t!"--draft"]⟩ args with
  | some (flags, []) =>
    match flags.get? t!"--head", flags.get? t!"--title", (flags.get? t!"--body-file").bind files.get? with
    | some head, some title, some body =>
      (w.createPr head title body (flags.get? t!"--draft").isSome).map fun w' =>
        (w', .text (w.urlOf w.next ++ t!"\n"))
    | _, _, _ => none
  | _ => none

/-- `gh pr edit`: what is not given stays. -/
def ghEdit (files : AMap Text Text) (w : ForgeWorld) (args : List Text) : Option (ForgeWorld × GhOutput) :=
  match parseFlags ⟨[t!"--base", t!"--title", t!"--body-file"], []⟩ args with
  | some (flags, [number]) =>
    match w.prs.find? fun p => natToText p.number = number with
    | none => none
    | some p =>
      match flags.get? t!"--body-file" with
      | none => none
      | some file =>
        (files.get? file).bind fun body =>
          (w.editPr p.number ((flags.get? t!"--base").getD p.base) ((flags.get? t!"--title").getD p.title) body).map
            fun w' => (w', .text [])
  | _ => none

/-- `gh`, with the files which there are; `none` is a failure. -/
def gh (others : List PullRequest) (files : AMap Text Text) (w : ForgeWorld) (args : List Text) :
    Option (ForgeWorld × GhOutput) :=
  if args.take 2 = [t!"pr", t!"list"] then ghList others w (args.drop 2)
  else if args.take 2 = [t!"pr", t!"create"] then ghCreate files w (args.drop 2)
  else if args.take 2 = [t!"pr", t!"edit"] then ghEdit files w (args.drop 2)
  else none

/-! ### the client -/

/-- github.rs:724-744: the fields which are read. -/
def prFields : List Text :=
  [t!"number", t!"url", t!"headRefName", t!"headRefOid", t!"baseRefName", t!"closed", t!"isDraft", t!"title", t!"body"]

/-- github.rs:918-923: the pull requests by the names of their branches; of several with the same name the last counts. -/
def prMap (prs : List PullRequest) : AMap Text PullRequest := prs.foldl (fun m p => m.insert p.head p) []

/-- github.rs:901-923 `query_repo_pull_request_infos`. It fails if a field is missing. -/
def clientInfos (others : List PullRequest) (files : AMap Text Text) (w : ForgeWorld) :
    Option (AMap Text PullRequest) :=
  match gh others files w listArgs with
  | some (_, .rows fields prs) => if prFields.all fields.contains then some (prMap prs) else none
  | _ => none

/-- github.rs:925-973 `create_pull_request`, with 874-881 `write_body_file`: the body is in the new file `tmp`. The result is the
URL. -/
def clientCreate (others : List PullRequest) (files : AMap Text Text) (tmp : Text) (w : ForgeWorld)
    (head title body : Text) (draft : Bool) : Option (ForgeWorld × Text) :=
  match gh others (files.insert tmp body) w (createArgs head title tmp draft) with
  | some (w, .text url) => some (w, trim url)
  | _ => none

/-- github.rs:975-1005 `update_pull_request`. -/
def clientUpdate (others : List PullRequest) (files : AMap Text Text) (tmp : Text) (w : ForgeWorld) (number : Nat)
    (base title body : Text) : Option ForgeWorld :=
  (gh others (files.insert tmp body) w (editArgs number base title tmp)).map Prod.fst

/-- GitHub, as the client sees it. -/
def ForgeWorld.asListed (w : ForgeWorld) : ForgeWorld := { w with prs := w.prs.reverse.take 30 }

/-! ### which forge and which remote -/

inductive ForgeKind where
  | branch | github | phabricator
deriving DecidableEq

/-- lib.rs:519-571, the start of `select_forge`. `arcconfig` is given if there is a working copy, and says whether `.arcconfig` is a
file there. -/
def selectForge (explicit : Option ForgeKind) (arcconfig : Option Bool) (githubRemote : Option Text) : ForgeKind :=
  let kind := match explicit with
    | some k => some k
    | none => if arcconfig.getD false then some .phabricator else none
  let reliable := false
  let kind := match kind, reliable with
    | some k, _ => some k
    | none, true => githubRemote.map fun _ => .github
    | none, false => none
  kind.getD .branch

/-- github.rs:84-104 `github_push_remote`. `config` is the configuration. -/
def githubPushRemote (config : Text → Option Text) : List Text → Option Text
  | [] => none
  | r :: rest =>
    if config (t!"remote." ++ r ++ t!".gh-resolved") = some t!"base" then some r else githubPushRemote config rest

end Verif
