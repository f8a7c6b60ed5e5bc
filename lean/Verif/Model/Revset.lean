import Verif.Model.RevsetParser
import Verif.Model.Dag
import Verif.Model.Evolve
import Verif.Model.Reference
import Verif.Model.Text

/-!
git-branchless-revset: evaluation of revsets (eval.rs, builtins.rs, pattern.rs, resolve.rs).

Not modelled: `Dag::sync_from_oids`, which adds the commits named by an expression to the stored graph (the graph
of the model is the one after that); the laziness of sets; errors when reading objects, files, the configuration
or the graph; progress reporting. Dates are the numbers of seconds as compared by `chrono`.
-/

namespace Verif

/-- The result of a test as stored on disk (git-branchless-lib/src/git/test.rs:102-109), with the command as
displayed. -/
structure TestResult where
  command : Text
  exitCode : Int
  snapshotTree : Option Nat
deriving DecidableEq

/-- What the functions look at in a commit. Texts which are not UTF-8 are `none`. -/
structure CommitInfo where
  message : Option Text
  authorName : Option Text
  authorEmail : Option Text
  authorDate : Option Int
  committerName : Option Text
  committerEmail : Option Text
  committerDate : Option Int
  /-- `get_paths_touched_by_commit`. -/
  touchedPaths : List (Option Text)
  parentCount : Nat
  /-- The tree; `none` is the zero id. -/
  tree : Option Nat
  /-- `read_all_test_results` (builtins.rs:563-576). -/
  testResults : Option (List TestResult)

/-- What evaluation asks the repository for. -/
structure RevsetEnv where
  /-- `Repo::get_head_info`. -/
  headOid : Option Oid
  /-- `Repo::revparse_single_commit`, `none` also for errors. -/
  revparse : Text → Option Oid
  /-- The configuration `branchless.revsets.alias.<name>`. -/
  aliasOf : Text → Option Text
  info : Oid → CommitInfo
  /-- The `branch_oid_to_names` of `get_references_snapshot`. -/
  branchNames : Oid → List Text
  /-- `read_latest_test_command` (builtins.rs:578-582). -/
  latestTestCommand : Option Text
  /-- `glob::Pattern::new` and `matches`. -/
  glob : Text → Option (Text → Bool)
  /-- `Regex::new` and `is_match`. -/
  regex : Text → Option (Text → Bool)
  /-- `parse_date` (pattern.rs:96-112). -/
  date : Text → Option Int
  replayer : Replayer

/-- eval.rs:29-96 `EvalError`, and the exhaustion of the stack. -/
inductive EvalError where
  | unboundName (n : Text)
  | unboundFunction (n : Text)
  | arityMismatch (f : Text) (actual : Nat)
  | unexpectedSetLength (expected actual : Nat)
  | parseAlias (a : Text)
  | parseInt
  | expectedNumberNotFunction (f : Text)
  | expectedPatternNotFunction (f : Text)
  | noLatestTestCommand
  | pattern
  | stackOverflow
deriving DecidableEq

/-! ### patterns -/

/-- pattern.rs:20-27 `Pattern`. -/
inductive Pattern where
  | exact (p : Text)
  | substring (p : Text)
  | glob (m : Text → Bool)
  | regex (m : Text → Bool)
  | before (t : Int)
  | after (t : Int)

/-- `str::contains`. -/
def containsText (p : Text) : Text → Bool
  | [] => p.isPrefixOf []
  | c :: s => p.isPrefixOf (c :: s) || containsText p s

/-- `strip_suffix('\n').unwrap_or`. -/
def stripNewline (s : Text) : Text := if s.getLast? = some '\n' then s.dropLast else s

/-- pattern.rs:51-60 `matches_text`. -/
def Pattern.matchesText (p : Pattern) (subject : Text) : Bool :=
  let subject := stripNewline subject
  match p with
  | .exact q => q = subject
  | .substring q => containsText q subject
  | .glob m => m subject
  | .regex m => m subject
  | .before _ | .after _ => false

/-- pattern.rs:62-76 `matches_date`; a time which is no `DateTime` is `none`. -/
def Pattern.matchesDate (p : Pattern) (time : Option Int) : Bool :=
  match p, time with
  | .before d, some t => t ≤ d
  | .after d, some t => t ≥ d
  | _, _ => false

/-- pattern.rs:78-125 `Pattern::new`. -/
def Pattern.new (env : RevsetEnv) (s : Text) : Option Pattern :=
  if let some q := stripPrefix? t!"exact:" s then some (.exact q)
  else if let some q := stripPrefix? t!"substring:" s then some (.substring q)
  else if let some q := stripPrefix? t!"substr:" s then some (.substring q)
  else if let some q := stripPrefix? t!"glob:" s then (env.glob q).map .glob
  else if let some q := stripPrefix? t!"regex:" s then (env.regex q).map .regex
  else if let some q := stripPrefix? t!"before:" s then (env.date q).map .before
  else if let some q := stripPrefix? t!"after:" s then (env.date q).map .after
  else some (.substring s)

/-! ### arguments -/

/-- Rust `<usize as FromStr>::from_str`. -/
def parseUsize (s : Text) : Option Nat :=
  let r := match s with
    | '+' :: ds => parseDec ds
    | ds => parseDec ds
  r.bind fun n => if n < 2 ^ 64 then some n else none

/-- What the functions need of the context: the evaluation of arguments (`eval_inner`), in a graph. -/
abbrev Evaluator := Dag → Expr → Except EvalError (List Oid)

/-- eval.rs:212-227 `eval0`. -/
def eval0 (f : Text) (args : List Expr) : Except EvalError Unit :=
  match args with
  | [] => .ok ()
  | args => .error (.arityMismatch f args.length)

/-- eval.rs:229-247 `eval0_or_1`. -/
def eval0Or1 (ev : Evaluator) (d : Dag) (f : Text) (args : List Expr) : Except EvalError (Option (List Oid)) :=
  match args with
  | [] => .ok none
  | [e] => (ev d e).map some
  | args => .error (.arityMismatch f args.length)

/-- eval.rs:249-263 `eval1`. -/
def eval1 (ev : Evaluator) (d : Dag) (f : Text) (args : List Expr) : Except EvalError (List Oid) :=
  match args with
  | [e] => ev d e
  | args => .error (.arityMismatch f args.length)

/-- eval.rs:282-301 `eval1_pattern`. -/
def eval1Pattern (env : RevsetEnv) (f : Text) (args : List Expr) : Except EvalError Pattern :=
  match args with
  | [.name p] => (Pattern.new env p).elim (.error .pattern) .ok
  | [.call g _] => .error (.expectedPatternNotFunction g)
  | args => .error (.arityMismatch f args.length)

/-- eval.rs:265-280 `eval0_or_1_pattern`. -/
def eval0Or1Pattern (env : RevsetEnv) (f : Text) (args : List Expr) : Except EvalError (Option Pattern) :=
  match args with
  | [] => .ok none
  | [e] => (eval1Pattern env f [e]).map some
  | args => .error (.arityMismatch f args.length)

/-- eval.rs:303-322 `eval2`. -/
def eval2 (ev : Evaluator) (d : Dag) (f : Text) (args : List Expr) : Except EvalError (List Oid × List Oid) :=
  match args with
  | [l, r] =>
    match ev d l with
    | .error e => .error e
    | .ok l => (ev d r).map fun r => (l, r)
  | args => .error (.arityMismatch f args.length)

/-- eval.rs:324-347 `eval_number_rhs`. -/
def evalNumberRhs (ev : Evaluator) (d : Dag) (f : Text) (args : List Expr) : Except EvalError (List Oid × Nat) :=
  match args with
  | [l, .name n] =>
    match ev d l with
    | .error e => .error e
    | .ok l => (parseUsize n).elim (.error .parseInt) fun n => .ok (l, n)
  | [_, .call g _] => .error (.expectedNumberNotFunction g)
  | args => .error (.arityMismatch f args.length)

/-! ### functions -/

/-- The functions of builtins.rs:29-71. -/
inductive Builtin where
  | all | none | union | intersection | difference | only | range | not | ancestors | nthAncestor | descendants
  | parents | parentsNth | children | siblings | roots | heads | branches | main | publics | draft | stack | message
  | pathsChanged | authorName | authorEmail | authorDate | committerName | committerEmail | committerDate | exactly
  | current | merges | testsPassed | testsFailed | testsFixable
deriving DecidableEq

/-- builtins.rs:29-71 `FUNCTIONS`. -/
def Builtin.ofName (n : Text) : Option Builtin :=
  AMap.get? [
    (t!"all", .all),
    (t!"none", .none),
    (t!"union", .union),
    (t!"intersection", .intersection),
    (t!"difference", .difference),
    (t!"only", .only),
    (t!"range", .range),
    (t!"not", .not),
    (t!"ancestors", .ancestors),
    (t!"ancestors.nth", .nthAncestor),
    (t!"descendants", .descendants),
    (t!"parents", .parents),
    (t!"parents.nth", .parentsNth),
    (t!"children", .children),
    (t!"siblings", .siblings),
    (t!"roots", .roots),
    (t!"heads", .heads),
    (t!"branches", .branches),
    (t!"main", .main),
    (t!"public", .publics),
    (t!"draft", .draft),
    (t!"stack", .stack),
    (t!"message", .message),
    (t!"paths.changed", .pathsChanged),
    (t!"author.name", .authorName),
    (t!"author.email", .authorEmail),
    (t!"author.date", .authorDate),
    (t!"committer.name", .committerName),
    (t!"committer.email", .committerEmail),
    (t!"committer.date", .committerDate),
    (t!"exactly", .exactly),
    (t!"current", .current),
    (t!"merges", .merges),
    (t!"tests.passed", .testsPassed),
    (t!"tests.failed", .testsFailed),
    (t!"tests.fixable", .testsFixable)] n

/-- `DagAlgorithm::first_ancestor_nth`: along the first parents. -/
def firstAncestorNth (g : CommitGraph Oid) : Nat → Oid → Option Oid
  | 0, o => some o
  | n + 1, o => (g.parentsOf o).head?.bind (firstAncestorNth g n)

/-- pattern.rs:133-247 `make_pattern_matcher_set` on the given commits (all visible ones if `none`). -/
def matcherSet (d : Dag) (f : Oid → Bool) (s : Option (List Oid)) : List Oid :=
  (s.getD d.visibleCommits).filter f

/-- builtins.rs:341-473: the texts of a commit which are matched against the pattern. -/
def Builtin.subjects (env : RevsetEnv) (b : Builtin) (o : Oid) : List Text :=
  match b with
  | .message => (env.info o).message.toList
  | .pathsChanged => (env.info o).touchedPaths.filterMap id
  | .authorName => (env.info o).authorName.toList
  | .authorEmail => (env.info o).authorEmail.toList
  | .committerName => (env.info o).committerName.toList
  | .committerEmail => (env.info o).committerEmail.toList
  | _ => []

/-- builtins.rs:196-222: the local branches at a commit, without prefix. -/
def localBranchNames (env : RevsetEnv) (o : Oid) : List Text :=
  (env.branchNames o).filterMap fun n =>
    if (categorize n).isLocalBranch then some (categorize n).renderSuffix else none

/-- builtins.rs:584-597 `eval_test_command_pattern`. -/
def evalTestCommandPattern (env : RevsetEnv) (f : Text) (args : List Expr) : Except EvalError Pattern :=
  match eval0Or1Pattern env f args with
  | .error e => .error e
  | .ok (some p) => .ok p
  | .ok none => env.latestTestCommand.elim (.error .noLatestTestCommand) fun c => .ok (.exact c)

/-- git-branchless-lib/src/git/test.rs:15, 32, 42. -/
def testSuccess : Int := 0
def testIndeterminate : Int := 125
def testAbort : Int := 127

/-- builtins.rs:599-690: the test of one result. -/
def Builtin.acceptsResult (b : Builtin) (p : Pattern) (tree : Option Nat) (r : TestResult) : Bool :=
  match b with
  | .testsPassed => r.exitCode = testSuccess && p.matchesText r.command
  | .testsFailed => r.exitCode ≠ testSuccess && r.exitCode ≠ testIndeterminate && r.exitCode ≠ testAbort
      && p.matchesText r.command
  | .testsFixable => r.exitCode = testSuccess && p.matchesText r.command &&
      match r.snapshotTree, tree with
      | some s, some t => s ≠ t
      | _, _ => false
  | _ => false

/-- builtins.rs:530-546: the replacement of one commit in `current`. -/
def currentOf (r : Replayer) (o : Oid) : Option Oid :=
  match findRewriteTarget r r.makeDefaultCursor o with
  | some (.nonZero n) => some n
  | some .zero => .none
  | .none => some o

/-- builtins.rs:73-690: the functions. -/
def evalBuiltin (env : RevsetEnv) (ev : Evaluator) (d : Dag) (b : Builtin) (f : Text) (args : List Expr) :
    Except EvalError (List Oid) :=
  let g := d.graph
  match b with
  | .all => (eval0 f args).map fun _ => d.filterVisibleCommits (g.ancestors d.visibleHeads)
  | .none => (eval0 f args).map fun _ => []
  | .union => (eval2 ev d f args).map fun p => p.1 ++ p.2
  | .intersection => (eval2 ev d f args).map fun p => CommitGraph.inter p.1 p.2
  | .difference => (eval2 ev d f args).map fun p => CommitGraph.diff p.1 p.2
  | .only => (eval2 ev d f args).map fun p => g.only p.1 p.2
  | .range => (eval2 ev d f args).map fun p => g.range p.1 p.2
  | .not => (eval1 ev d f args).map fun s => CommitGraph.diff (g.ancestors d.visibleHeads) s
  | .ancestors => (eval1 ev d f args).map g.ancestors
  | .nthAncestor => (evalNumberRhs ev d f args).map fun p => p.1.filterMap (firstAncestorNth g p.2)
  | .descendants => (eval1 ev d f args).map g.descendants
  | .parents => (eval1 ev d f args).map g.parents
  | .parentsNth => (evalNumberRhs ev d f args).map fun p =>
      p.1.filterMap fun o => if p.2 = 0 then .none else (g.parentsOf o)[p.2 - 1]?
  | .children => (eval1 ev d f args).map g.children
  | .siblings => (eval1 ev d f args).map fun s => CommitGraph.diff (g.children (g.parents s)) s
  | .roots => (eval1 ev d f args).map g.roots
  | .heads => (eval1 ev d f args).map g.heads
  | .branches => (eval0Or1Pattern env f args).map fun p =>
      match p with
      | .none => d.branchCommits
      | some p => matcherSet d (fun o => (localBranchNames env o).any p.matchesText) (some d.branchCommits)
  | .main => (eval0 f args).map fun _ => d.mainBranchCommit
  | .publics => (eval0 f args).map fun _ => d.publicCommits
  | .draft => (eval0 f args).map fun _ => d.draftCommits
  | .stack => (eval0Or1 ev d f args).map fun s => d.stackCommits (s.getD d.headCommit)
  | .message | .pathsChanged | .authorName | .authorEmail | .committerName | .committerEmail =>
      (eval1Pattern env f args).map fun p =>
        matcherSet d (fun o => (b.subjects env o).any p.matchesText) .none
  | .authorDate => (eval1Pattern env f args).map fun p =>
      matcherSet d (fun o => p.matchesDate (env.info o).authorDate) .none
  | .committerDate => (eval1Pattern env f args).map fun p =>
      matcherSet d (fun o => p.matchesDate (env.info o).committerDate) .none
  | .exactly =>
    match evalNumberRhs ev d f args with
    | .error e => .error e
    | .ok (s, n) =>
      if CommitGraph.count s = n then .ok s
      else .error (.unexpectedSetLength n (CommitGraph.count s))
  | .current => (eval1 ev d.clearObsoleteCommits f args).map fun s => s.filterMap (currentOf env.replayer)
  | .merges => (eval0 f args).map fun _ => matcherSet d (fun o => (env.info o).parentCount > 1) .none
  | .testsPassed | .testsFailed | .testsFixable => (evalTestCommandPattern env f args).map fun p =>
      matcherSet d (fun o => ((env.info o).testResults.getD []).any
        (b.acceptsResult p (env.info o).tree)) .none

/-! ### evaluation -/

/-- eval.rs:138-176 `eval_name`. -/
def evalName (env : RevsetEnv) (n : Text) : Except EvalError (List Oid) :=
  if n = t!"." ∨ n = t!"@" then .ok env.headOid.toList
  else (env.revparse n).elim (.error (.unboundName n)) fun o => .ok [o]

/-- eval.rs:191-195: the names which stand for the arguments of an alias. -/
def aliasArgs (args : List Expr) : AMap Text Expr :=
  args.zipIdx.map fun p => ('$' :: natToText (p.2 + 1), p.1)

/-- eval.rs:178-210 `eval_fn`. -/
def evalFn (env : RevsetEnv) (ev : Evaluator) (d : Dag) (f : Text) (args : List Expr) :
    Except EvalError (List Oid) :=
  match Builtin.ofName f with
  | some b => evalBuiltin env ev d b f args
  | none =>
    match env.aliasOf f with
    | none => .error (.unboundFunction f)
    | some template =>
      match parseRevset template with
      | none => .error (.parseAlias template)
      | some body => ev d (body.replaceNames (aliasArgs args))

/-- eval.rs:123-136 `eval_inner`. Aliases can be recursive, so the recursion need not end; the fuel is the size of
the stack. -/
def evalRevset (env : RevsetEnv) : Nat → Dag → Expr → Except EvalError (List Oid)
  | 0, _, _ => .error .stackOverflow
  | _ + 1, _, .name n => evalName env n
  | fuel + 1, d, .call f args => (evalFn env (evalRevset env fuel) d f args).map d.filterVisibleCommits

/-! ### resolve.rs -/

/-- resolve.rs:20-32 `ResolveError`. -/
inductive ResolveError where
  | parse (s : Text)
  | eval (s : Text) (e : EvalError)
deriving DecidableEq

/-- resolve.rs:92-115: one revset. -/
def resolveOne (env : RevsetEnv) (fuel : Nat) (d : Dag) (s : Text) : Except ResolveError (List Oid) :=
  match env.revparse s with
  | some o => .ok [o]
  | none =>
    match parseRevset s with
    | none => .error (.parse s)
    | some e => (evalRevset env fuel d e).mapError (.eval s)

/-- resolve.rs:72-117 `resolve_commits`. -/
def resolveCommits (env : RevsetEnv) (fuel : Nat) (d : Dag) (showHidden : Bool) (revsets : List Text) :
    Except ResolveError (List (List Oid)) :=
  revsets.mapM (resolveOne env fuel (if showHidden then d.clearObsoleteCommits else d))

/-- git-branchless-lib/src/core/config.rs:104-109 `get_smartlog_default_revset`, without configuration. -/
def smartlogDefaultRevset : Text := t!"((draft() | branches() | @) % main()) | branches() | @"

end Verif
