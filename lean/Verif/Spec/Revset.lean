import Verif.Model.Revset
import Verif.Spec.Dag
import Verif.Spec.Evolve
import Verif.Spec.Grammar
import Verif.Spec.Lexer

/-! What revsets mean: for every expression which has a value, the set of commits it stands for. -/

namespace Verif.Spec

open Verif

/-! ### visible commits -/

/-- Commits which make their ancestors visible: active ones, `HEAD`, the main branch and all branches. -/
def AnchorOf (d : Dag) (h : Oid) : Prop :=
  (h ∈ d.observedCommits ∧ h ∉ d.obsoleteCommits) ∨ h ∈ d.headCommit ∨ h ∈ d.mainBranchCommit ∨ h ∈ d.branchCommits

def VisibleIn (d : Dag) (o : Oid) : Prop := o ∈ d.graph.nodes ∧ ∃ h, AnchorOf d h ∧ Anc d.graph o h

def PublicIn (d : Dag) (o : Oid) : Prop := ∃ m ∈ d.mainBranchCommit, Anc d.graph o m

def DraftIn (d : Dag) (o : Oid) : Prop := VisibleIn d o ∧ ¬ PublicIn d o

/-- `a` is the commit reached from `o` by going `n` times to the first parent. -/
inductive FirstParent (g : CommitGraph Oid) : Nat → Oid → Oid → Prop
  | zero {o} : FirstParent g 0 o o
  | succ {n o p ps a} : (o, p :: ps) ∈ g.entries → FirstParent g n p a → FirstParent g (n + 1) o a

/-- `o` is in a stack with a commit of `S`: both are above the same lowest draft commit. -/
def InStack (d : Dag) (S : Oid → Prop) (o : Oid) : Prop :=
  DraftIn d o ∧ ∃ r, DraftIn d r ∧ (∀ p, IsParent d.graph p r → ¬ DraftIn d p) ∧ Anc d.graph r o ∧
    ∃ x, S x ∧ Anc d.graph r x

/-! ### patterns and numbers -/

/-- The pattern written by a text: a keyword and a colon, or nothing, which means `substring`. -/
inductive IsPattern (env : RevsetEnv) : Text → Pattern → Prop
  | exact {q} : IsPattern env (t!"exact:" ++ q) (.exact q)
  | substring {q} : IsPattern env (t!"substring:" ++ q) (.substring q)
  | substr {q} : IsPattern env (t!"substr:" ++ q) (.substring q)
  | glob {q m} : env.glob q = some m → IsPattern env (t!"glob:" ++ q) (.glob m)
  | regex {q m} : env.regex q = some m → IsPattern env (t!"regex:" ++ q) (.regex m)
  | before {q t} : env.date q = some t → IsPattern env (t!"before:" ++ q) (.before t)
  | after {q t} : env.date q = some t → IsPattern env (t!"after:" ++ q) (.after t)
  | plain {s} : (∀ k ∈ [t!"exact:", t!"substring:", t!"substr:", t!"glob:", t!"regex:", t!"before:", t!"after:"],
      ¬ k <+: s) → IsPattern env s (.substring s)

/-- `b` is the text `s` without the line break at its end, if there is one. -/
def WithoutNewline (s b : Text) : Prop := s = b ++ ['\n'] ∨ (s = b ∧ ¬ ∃ t, s = t ++ ['\n'])

/-- The text matches the pattern. Line breaks at the end do not count. -/
def TextMatches (p : Pattern) (s : Text) : Prop :=
  ∃ b, WithoutNewline s b ∧
    match p with
    | .exact q => b = q
    | .substring q => q <:+: b
    | .glob m => m b = true
    | .regex m => m b = true
    | .before _ | .after _ => False

/-- The time matches the pattern. -/
def TimeMatches (p : Pattern) (t : Int) : Prop :=
  match p with
  | .before d => t ≤ d
  | .after d => d ≤ t
  | _ => False

/-- The decimal number written by some digits. -/
inductive Numeral : Text → Nat → Prop
  | one {c d} : decVal? c = some d → Numeral [c] d
  | snoc {s n c d} : Numeral s n → decVal? c = some d → Numeral (s ++ [c]) (10 * n + d)

/-- The text is a number of 64 bits, perhaps with a plus sign. -/
def IsUsize (s : Text) (n : Nat) : Prop := n < 2 ^ 64 ∧ (Numeral s n ∨ ∃ ds, s = '+' :: ds ∧ Numeral ds n)

/-- The pattern which selects test commands; without one it is the command of the last run. -/
inductive TestPattern (env : RevsetEnv) : List Expr → Pattern → Prop
  | latest {c} : env.latestTestCommand = some c → TestPattern env [] (.exact c)
  | given {s p} : IsPattern env s p → TestPattern env [.name s] p

/-! ### aliases -/

/-- The functions which exist without any configuration. -/
def builtinNames : List Text := [
  t!"all", t!"none", t!"union", t!"intersection", t!"difference", t!"only", t!"range", t!"not", t!"ancestors",
  t!"ancestors.nth", t!"descendants", t!"parents", t!"parents.nth", t!"children", t!"siblings", t!"roots", t!"heads",
  t!"branches", t!"main", t!"public", t!"draft", t!"stack", t!"message", t!"paths.changed", t!"author.name",
  t!"author.email", t!"author.date", t!"committer.name", t!"committer.email", t!"committer.date", t!"exactly",
  t!"current", t!"merges", t!"tests.passed", t!"tests.failed", t!"tests.fixable"]

mutual
/-- `Subst args e e'`: `e'` is `e` with the names `$1`, `$2`, … replaced by the arguments, all at the same time. -/
inductive Subst (args : List Expr) : Expr → Expr → Prop
  | arg {i e} : args[i]? = some e → Subst args (.name ('$' :: natToText (i + 1))) e
  | other {n} : (∀ i < args.length, n ≠ '$' :: natToText (i + 1)) → Subst args (.name n) (.name n)
  | call {f es es'} : SubstList args es es' → Subst args (.call f es) (.call f es')
inductive SubstList (args : List Expr) : List Expr → List Expr → Prop
  | nil : SubstList args [] []
  | cons {e e' es es'} : Subst args e e' → SubstList args es es' → SubstList args (e :: es) (e' :: es')
end

/-! ### values -/

mutual
/-- `Value env d e S`: in the graph `d`, the expression `e` stands for the set `S`. -/
inductive Value (env : RevsetEnv) : Dag → Expr → (Oid → Prop) → Prop
  | head {d n} : n = t!"." ∨ n = t!"@" → Value env d (.name n) (fun o => env.headOid = some o)
  | commit {d n c} : n ≠ t!"." → n ≠ t!"@" → env.revparse n = some c → Value env d (.name n) (fun o => o = c)
  | call {d f es S} : Result env d f es S → Value env d (.call f es) (fun o => S o ∧ VisibleIn d o)

/-- `Result env d f es S`: the visible commits among the value of the function `f` for the arguments `es` are those
in `S`. -/
inductive Result (env : RevsetEnv) : Dag → Text → List Expr → (Oid → Prop) → Prop
  | all {d} : Result env d t!"all" [] (fun _ => True)
  | none {d} : Result env d t!"none" [] (fun _ => False)
  | union {d a b A B} : Value env d a A → Value env d b B → Result env d t!"union" [a, b] (fun o => A o ∨ B o)
  | intersection {d a b A B} : Value env d a A → Value env d b B →
      Result env d t!"intersection" [a, b] (fun o => A o ∧ B o)
  | difference {d a b A B} : Value env d a A → Value env d b B →
      Result env d t!"difference" [a, b] (fun o => A o ∧ ¬ B o)
  | only {d a b A B} : Value env d a A → Value env d b B →
      Result env d t!"only" [a, b] (fun o => (∃ x, A x ∧ Anc d.graph o x) ∧ ∀ x, B x → ¬ Anc d.graph o x)
  | range {d a b A B} : Value env d a A → Value env d b B →
      Result env d t!"range" [a, b] (fun o => (∃ x, A x ∧ Anc d.graph x o) ∧ ∃ y, B y ∧ Anc d.graph o y)
  | not {d a A} : Value env d a A → Result env d t!"not" [a] (fun o => ¬ A o)
  | ancestors {d a A} : Value env d a A → Result env d t!"ancestors" [a] (fun o => ∃ x, A x ∧ Anc d.graph o x)
  | ancestorsNth {d a A s n} : Value env d a A → IsUsize s n →
      Result env d t!"ancestors.nth" [a, .name s] (fun o => ∃ x, A x ∧ FirstParent d.graph n x o)
  | descendants {d a A} : Value env d a A → Result env d t!"descendants" [a] (fun o => ∃ x, A x ∧ Anc d.graph x o)
  | parents {d a A} : Value env d a A → Result env d t!"parents" [a] (fun o => ∃ x, A x ∧ IsParent d.graph o x)
  | parentsNth {d a A s n} : Value env d a A → IsUsize s n →
      Result env d t!"parents.nth" [a, .name s]
        (fun o => ∃ x ps, A x ∧ (x, ps) ∈ d.graph.entries ∧ 1 ≤ n ∧ ps[n - 1]? = some o)
  | children {d a A} : Value env d a A → Result env d t!"children" [a] (fun o => ∃ x, A x ∧ IsParent d.graph x o)
  | siblings {d a A} : Value env d a A →
      Result env d t!"siblings" [a] (fun o => (∃ x p, A x ∧ IsParent d.graph p x ∧ IsParent d.graph p o) ∧ ¬ A o)
  | roots {d a A} : Value env d a A →
      Result env d t!"roots" [a] (fun o => A o ∧ ∀ p, A p → ¬ IsParent d.graph p o)
  | heads {d a A} : Value env d a A →
      Result env d t!"heads" [a] (fun o => A o ∧ ∀ c, A c → ¬ IsParent d.graph o c)
  | branches {d} : Result env d t!"branches" [] (fun o => o ∈ d.branchCommits)
  | branchesLike {d s p} : IsPattern env s p → Result env d t!"branches" [.name s]
      (fun o => o ∈ d.branchCommits ∧ ∃ n, t!"refs/heads/" ++ n ∈ env.branchNames o ∧ TextMatches p n)
  | main {d} : Result env d t!"main" [] (fun o => o ∈ d.mainBranchCommit)
  | publics {d} : Result env d t!"public" [] (PublicIn d)
  | draft {d} : Result env d t!"draft" [] (DraftIn d)
  | headStack {d} : Result env d t!"stack" [] (InStack d (fun o => o ∈ d.headCommit))
  | stack {d a A} : Value env d a A → Result env d t!"stack" [a] (InStack d A)
  | message {d s p} : IsPattern env s p → Result env d t!"message" [.name s]
      (fun o => ∃ t, (env.info o).message = some t ∧ TextMatches p t)
  | pathsChanged {d s p} : IsPattern env s p → Result env d t!"paths.changed" [.name s]
      (fun o => ∃ t, some t ∈ (env.info o).touchedPaths ∧ TextMatches p t)
  | authorName {d s p} : IsPattern env s p → Result env d t!"author.name" [.name s]
      (fun o => ∃ t, (env.info o).authorName = some t ∧ TextMatches p t)
  | authorEmail {d s p} : IsPattern env s p → Result env d t!"author.email" [.name s]
      (fun o => ∃ t, (env.info o).authorEmail = some t ∧ TextMatches p t)
  | authorDate {d s p} : IsPattern env s p → Result env d t!"author.date" [.name s]
      (fun o => ∃ t, (env.info o).authorDate = some t ∧ TimeMatches p t)
  | committerName {d s p} : IsPattern env s p → Result env d t!"committer.name" [.name s]
      (fun o => ∃ t, (env.info o).committerName = some t ∧ TextMatches p t)
  | committerEmail {d s p} : IsPattern env s p → Result env d t!"committer.email" [.name s]
      (fun o => ∃ t, (env.info o).committerEmail = some t ∧ TextMatches p t)
  | committerDate {d s p} : IsPattern env s p → Result env d t!"committer.date" [.name s]
      (fun o => ∃ t, (env.info o).committerDate = some t ∧ TimeMatches p t)
  | exactly {d a A s} {l : List Oid} : Value env d a A → l.Nodup → (∀ o, o ∈ l ↔ A o) → IsUsize s l.length →
      Result env d t!"exactly" [a, .name s] A
  -- the argument is evaluated as if nothing was hidden
  | current {d a A} : Value env { d with obsoleteCommits := [] } a A → Result env d t!"current" [a]
      (fun o => ∃ x, A x ∧ (Newest env.replayer.events x (.nonZero o) ∨
        (o = x ∧ ∀ m, ¬ RewrittenTo env.replayer.events x m)))
  | merges {d} : Result env d t!"merges" [] (fun o => 2 ≤ (env.info o).parentCount)
  | testsPassed {d es p} : TestPattern env es p → Result env d t!"tests.passed" es
      (fun o => ∃ rs, (env.info o).testResults = some rs ∧ ∃ r ∈ rs, TextMatches p r.command ∧ r.exitCode = 0)
  | testsFailed {d es p} : TestPattern env es p → Result env d t!"tests.failed" es
      (fun o => ∃ rs, (env.info o).testResults = some rs ∧ ∃ r ∈ rs, TextMatches p r.command ∧
        r.exitCode ≠ 0 ∧ r.exitCode ≠ 125 ∧ r.exitCode ≠ 127)
  | testsFixable {d es p} : TestPattern env es p → Result env d t!"tests.fixable" es
      (fun o => ∃ rs, (env.info o).testResults = some rs ∧ ∃ r ∈ rs, TextMatches p r.command ∧ r.exitCode = 0 ∧
        ∃ s t, r.snapshotTree = some s ∧ (env.info o).tree = some t ∧ s ≠ t)
  | aliasCall {d f es template ts body e S} : f ∉ builtinNames → env.aliasOf f = some template →
      Lexes template ts → Derives 1 ts body → Subst es body e → Value env d e S → Result env d f es S
end

/-- What a text on the command line stands for: a commit if Git can resolve the whole text, otherwise the value of
the expression. -/
inductive Resolves (env : RevsetEnv) (d : Dag) (s : Text) : (Oid → Prop) → Prop
  | commit {c} : env.revparse s = some c → Resolves env d s (fun o => o = c)
  | value {ts e S} : env.revparse s = none → Lexes s ts → Derives 1 ts e → Value env d e S → Resolves env d s S

/-! ### which aliases can be used -/

/-- The functions which occur in an expression. -/
inductive Calls : Expr → Text → Prop
  | here {f es} : Calls (.call f es) f
  | inside {f es e g} : e ∈ es → Calls e g → Calls (.call f es) g

/-- No alias uses itself, directly or through other aliases: all aliases used by an alias have a smaller rank. -/
def NoRecursion (env : RevsetEnv) (rank : Text → Nat) : Prop :=
  ∀ f template body, f ∉ builtinNames → env.aliasOf f = some template → parseRevset template = some body →
    ∀ g, Calls body g → g ∉ builtinNames → rank g < rank f

end Verif.Spec
