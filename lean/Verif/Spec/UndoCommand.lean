import Verif.Model.UndoCommand
import Verif.Spec.Undo
import Verif.Spec.Switch

/-! What `git undo` should do: which state of the past is chosen, and what the repository is afterwards. -/

namespace Verif.Spec

open Verif

/-! ### choosing -/

/-- Where the cursor is after messages. The log is given by the transactions of its events. Steps go from one
boundary between transactions to the next; they stop at the ends; a number is a position in the log. -/
inductive CursorAfter (txs : List TxId) : List UndoMessage → Nat → Prop
  | start : CursorAfter txs [] txs.length
  | next {ms i j} : CursorAfter txs ms i → j ≤ txs.length → IsBoundary txs j →
      txsStartedBefore txs j = min (txsStartedBefore txs i + 1) (txsStartedBefore txs txs.length) →
      CursorAfter txs (ms ++ [.next]) j
  | previous {ms i j} : CursorAfter txs ms i → j ≤ txs.length → IsBoundary txs j →
      txsStartedBefore txs j = txsStartedBefore txs i - 1 → CursorAfter txs (ms ++ [.previous]) j
  | goTo {ms i text n} : CursorAfter txs ms i → parseIsize text = some n →
      CursorAfter txs (ms ++ [.goTo text]) (min n.toNat txs.length)
  | noNumber {ms i text} : CursorAfter txs ms i → parseIsize text = none →
      CursorAfter txs (ms ++ [.goTo text]) i
  | help {ms i} : CursorAfter txs ms i → CursorAfter txs (ms ++ [.help]) i

/-- Messages which end the selection. -/
def EndsSelection (m : UndoMessage) : Prop := m = .quit ∨ m = .select

/-! ### undoing -/

/-- Events which tell where `HEAD` was before them. -/
inductive TellsPastHead : Event → Prop
  | update (ts tx o new m) : TellsPastHead (.refUpdate ts tx t!"HEAD" (.nonZero o) new m)
  | snapshot (ts tx hd o nm) : TellsPastHead (.snapshot ts tx hd o nm)

/-- Where `HEAD` was before these events, according to the first of them which tells it; `s` are the references
before them. `load` reads snapshots. -/
inductive HeadWas (load : Oid → Except Unit (Option StoredSnapshot)) (s : RefState) : List Event → Head → Prop
  /-- `HEAD` was moved away from a commit. -/
  | moved {pre post ts tx o new m} : (∀ e ∈ pre, ¬ TellsPastHead e) → load o = .ok none →
      HeadWas load s (pre ++ .refUpdate ts tx t!"HEAD" (.nonZero o) new m :: post) (.detached o)
  /-- A snapshot was taken when `HEAD` was detached. -/
  | detached {pre post ts tx oid h u} : (∀ e ∈ pre, ¬ TellsPastHead e) → load oid = .ok (some ⟨some h, none, u⟩) →
      HeadWas load s (pre ++ .snapshot ts tx (.nonZero h) oid none :: post) (.detached h)
  /-- A snapshot was taken when a branch was checked out. -/
  | branch {pre post ts tx oid h b u} : (∀ e ∈ pre, ¬ TellsPastHead e) →
      load oid = .ok (some ⟨some h, some (t!"refs/heads/" ++ b), u⟩) → s (t!"refs/heads/" ++ b) = some h →
      HeadWas load s (pre ++ .snapshot ts tx (.nonZero h) oid (some (t!"refs/heads/" ++ b)) :: post)
        (.symbolic (t!"refs/heads/" ++ b))
  /-- A snapshot was taken when the branch did not have a commit yet. -/
  | unborn {pre post ts tx oid b u} : (∀ e ∈ pre, ¬ TellsPastHead e) →
      load oid = .ok (some ⟨none, some (t!"refs/heads/" ++ b), u⟩) → s (t!"refs/heads/" ++ b) = none →
      (∀ o : Oid, b ≠ o.toText) →
      HeadWas load s (pre ++ .snapshot ts tx .zero oid (some (t!"refs/heads/" ++ b)) :: post)
        (.symbolic (t!"refs/heads/" ++ b))

/-- The situation: the log, of which the events from position `c` on lead from the references `s` to the
references now. -/
structure UndoSetting (w : RepoWorld) (r : Replayer) (mainBranch : Text) (raw : List Event) (c : Nat)
    (s : RefState) : Prop where
  idle : w.db.pending = none
  log : w.db.getEvents = some raw
  replayer : r = Replayer.fromEvents mainBranch raw
  inside : c ≤ r.events.length
  wf : AMap.WF w.git.refs
  possible : PathOk s
  describes : Describes s (r.events.drop c) w.git.refs.get?

/-- Git understands names as expected: an object id is that object, and there is no branch named like one;
names of branches do not begin with a dash. -/
structure ClearNames (env : GitCheckoutEnv) (s : RefState) : Prop where
  hex : ∀ o : Oid, s (t!"refs/heads/" ++ o.toText) = none
  dash : ∀ b, s (t!"refs/heads/" ++ b) ≠ none → ¬ t!"-" <+: b
  oids : ∀ (g : GitState) (o o' : Oid), env.revision g o.toText = some o' → o' = o

/-- The references are these. -/
def RefsAre (g : GitState) (s : RefState) : Prop := ∀ name, g.refs.get? name = s name

/-- An event which only says that `HEAD` began to exist. -/
def FirstHead (e : Event) : Prop := ∃ ts tx new m, e = .refUpdate ts tx t!"HEAD" .zero new m

/-- Events about commits, in contrast to events about references and snapshots. -/
def AboutCommits : Event → Bool
  | .rewrite .. => true
  | .commit .. => true
  | .obsolete .. => true
  | .unobsolete .. => true
  | .refUpdate .. => false
  | .snapshot .. => false

/-- The event which takes back another one. -/
inductive Opposite (now : Timestamp) (tx : TxId) : Event → Event → Prop
  | created (ts t o) : Opposite now tx (.commit ts t o) (.obsolete now tx o)
  | unhidden (ts t o) : Opposite now tx (.unobsolete ts t o) (.obsolete now tx o)
  | hidden (ts t o) : Opposite now tx (.obsolete ts t o) (.unobsolete now tx o)
  | rewritten (ts t old new) : Opposite now tx (.rewrite ts t old new) (.rewrite now tx new old)

/-- Taking back events, the last one first; only events about commits are written. -/
def TakesBack (now : Timestamp) (tx : TxId) (es new : List Event) : Prop :=
  List.Forall₂ (Opposite now tx) (es.reverse.filter AboutCommits) new

/-- Everything outside works: git knows the commits, can check them out and reset to them, allows the names of the
branches which there are, and snapshots can be taken; the smartlog can be shown. If branches are switched to
automatically then the main branch exists. -/
structure UndoWorks (env : UndoEnv) (s : RefState) : Prop where
  works : ∀ o force merge, env.checkout.git.works o force merge = true
  knows : ∀ (g : GitState) (o : Oid), env.checkout.git.revision g o.toText = some o
  names : ∀ b, s (t!"refs/heads/" ++ b) ≠ none → env.checkout.git.validName b = true
  snapshots : env.createSnapshots = true → ∀ g, ∃ o, env.newSnapshot g = .ok o
  resets : ∀ g, env.resetWorks g = true
  index : env.indexWorks = true
  smartlog : env.smartlogWorks = true
  main : env.checkout.autoSwitch = true → s env.checkout.mainBranch ≠ none

/-- The events from this position on are the last transaction of the log. -/
structure LastTransaction (es : List Event) (c : Nat) : Prop where
  inside : c < es.length
  one : ∀ a ∈ es.drop c, ∀ b ∈ es.drop c, a.txId = b.txId
  whole : ∀ pre a post, es = pre ++ a :: post → pre.length + 1 = c → ∀ b ∈ es.drop c, a.txId ≠ b.txId

/-- The answer is yes. -/
def SaysYes (answer : Option Text) : Prop := ∃ line, answer = some line ∧ (trim line = t!"y" ∨ trim line = t!"Y")

end Verif.Spec
