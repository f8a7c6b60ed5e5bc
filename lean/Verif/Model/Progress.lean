import Verif.Model.Text

/-!
Progress meters and output: model of git-branchless-lib/src/core/effects.rs:111-890. The terminal and the thread which redraws
the meters are not modelled, but what they would show at any time is.
-/

namespace Verif

/-- effects.rs:259-272 `OperationIcon`. -/
inductive OpIcon where
  | inProgress
  | success
  | warning
  | failure
deriving DecidableEq, Repr

/-- effects.rs:281-290 `OperationState`, without its children and without the position of the bar. Operation types are texts,
times are numbers (of any unit). -/
structure OpData where
  opType : Text
  hasMeter : Bool
  starts : List Nat
  icon : OpIcon
  message : Text
  elapsed : Nat
deriving DecidableEq, Repr

/-- effects.rs:281-290 `OperationState`. -/
inductive OpTree where
  | node (data : OpData) (children : List OpTree)

def OpTree.data : OpTree → OpData
  | .node d _ => d

/-- effects.rs:155-164: the state of an operation which was not known. -/
def OpTree.fresh (opType : Text) : OpTree := .node ⟨opType, false, [], .inProgress, opType, 0⟩ []

/-- effects.rs:147-173 and 317-343: the first child of the type is changed by `g`, after it was added if there was none. -/
def modifyFirst (opType : Text) (g : OpTree → OpTree) : List OpTree → List OpTree
  | [] => [g (.fresh opType)]
  | t :: ts => if t.data.opType = opType then g t :: ts else t :: modifyFirst opType g ts

/-- effects.rs:314-344 `OperationState::get_or_create_child`; the callers change what it returns by `f`. -/
def OpTree.modify (f : OpData → OpData) : List Text → OpTree → OpTree
  | [], .node d cs => .node (f d) cs
  | k :: ks, .node d cs => .node d (modifyFirst k (OpTree.modify f ks) cs)

/-- effects.rs:144-174 `RootOperation::get_or_create_child`. (The empty key is a panic there, but no key is empty.) -/
def getOrCreateChild (f : OpData → OpData) : List Text → List OpTree → List OpTree
  | [], ts => ts
  | k :: ks, ts => modifyFirst k (OpTree.modify f ks) ts

/-- effects.rs:346-360 `OperationState::get_child`. -/
def OpTree.get : List Text → OpTree → Option OpTree
  | [], t => some t
  | k :: ks, .node _ cs =>
    match cs.find? (·.data.opType = k) with
    | some c => OpTree.get ks c
    | none => none

/-- effects.rs:176-190 `RootOperation::get_child`. -/
def getChild : List Text → List OpTree → Option OpTree
  | [], _ => none
  | k :: ks, ts =>
    match ts.find? (·.data.opType = k) with
    | some c => c.get ks
    | none => none

/-- effects.rs:130-142 `clear_operations_if_finished`. -/
def clearIfFinished (ts : List OpTree) : List OpTree :=
  if ts.all fun t => t.data.starts.isEmpty then [] else ts

/-- effects.rs:95-103 `OutputDest`. -/
inductive OutputDest where
  | stdout
  | suppress
  | bufferForTest
deriving DecidableEq, Repr

/-- effects.rs:600-628 `start_operation`, in an `Effects` for the operation `parent`. -/
def startOperation (dest : OutputDest) (now : Nat) (parent : List Text) (opType : Text) (ts : List OpTree) : List OpTree :=
  match dest with
  | .stdout => getOrCreateChild (fun d => { d with starts := d.starts ++ [now] }) (parent ++ [opType]) ts
  | _ => ts

/-- effects.rs:656-670 `on_set_message`. -/
def setMessage (dest : OutputDest) (key : List Text) (icon : OpIcon) (message : Text) (ts : List OpTree) : List OpTree :=
  match dest with
  | .stdout =>
    match getChild key ts with
    | some _ => getOrCreateChild (fun d => { d with icon, message }) key ts
    | none => ts
  | _ => ts

/-- effects.rs:690-708: the latest of the start times is removed (the last one in the list, if there are several). -/
def removeMax (starts : List Nat) : Option (Nat × List Nat) :=
  match starts.max? with
  | none => none
  | some m => some (m, (starts.reverse.erase m).reverse)

/-- effects.rs:710-716: the state of an operation when one run of it ends; nothing if it was not running. -/
def OpData.stop (now : Nat) (d : OpData) : Option OpData :=
  match removeMax d.starts with
  | none => none
  | some (start, starts) =>
    some { d with starts, elapsed := d.elapsed + if starts.isEmpty then now - start else 0 }

/-- effects.rs:672-719 `on_drop_progress_handle`. The two warnings of the log are not modelled. -/
def dropHandle (dest : OutputDest) (now : Nat) (key : List Text) (ts : List OpTree) : List OpTree :=
  match dest with
  | .stdout =>
    match getChild key ts with
    | none => ts
    | some t =>
      match t.data.stop now with
      | none => ts
      | some _ => clearIfFinished (getOrCreateChild (fun d => (d.stop now).getD d) key ts)
  | _ => ts

/-- effects.rs:403-409: the time which is shown. -/
def OpData.shown (now : Nat) (d : OpData) : Nat :=
  match d.starts.min? with
  | none => d.elapsed
  | some start => d.elapsed + (now - start)

/-- The styles of effects.rs:366-402, as the symbol at the start of the line. -/
inductive MeterSymbol where
  | spinner
  | bar
  | blank
  | checkmark
  | exclamation
  | cross
deriving DecidableEq, Repr

/-- effects.rs:366-425: the style of a meter. (The style for warnings has the cross.) -/
def OpData.symbol (d : OpData) : MeterSymbol :=
  match d.icon with
  | .success => .checkmark
  | .warning => .cross
  | .failure => .cross
  | .inProgress => if d.starts.isEmpty then .blank else if d.hasMeter then .bar else .spinner

/-! ### output -/

/-- What a stream finds when it is flushed: whether there are operations, whether stderr is a terminal, whether the thread has
begun to show meters (250 ms after the start). -/
structure MeterMode where
  operations : Bool
  attended : Bool
  visible : Bool
deriving DecidableEq, Repr

/-- A piece of text which is written to stdout or stderr. If it is dimmed then its own styles are removed. -/
structure Piece where
  toStderr : Bool
  dimmed : Bool
  text : Text
deriving DecidableEq, Repr

/-- A stream of `get_output_stream` or `get_error_stream`: its buffer, and what was written so far. -/
structure Stream where
  isStderr : Bool
  buffer : Text
  written : List Piece
deriving DecidableEq, Repr

/-- Rust's `split_inclusive('\n')`, with the last line apart: the complete lines without their ends, and the rest. -/
def completeLines : Text → List Text × Text
  | [] => ([], [])
  | c :: cs =>
    let r := completeLines cs
    if c = '\n' then ([] :: r.1, r.2)
    else
      match r.1 with
      | [] => ([], c :: r.2)
      | l :: ls => ((c :: l) :: ls, r.2)

/-- effects.rs:757-827 `WriteProgress::flush`. The meters are drawn on stderr (effects.rs:124-127), and lines which are printed
above them are too. -/
def Stream.flush (m : MeterMode) (s : Stream) : Stream :=
  if !m.operations then { s with buffer := [], written := s.written ++ [⟨s.isStderr, false, s.buffer⟩] }
  else if !m.attended then { s with buffer := [], written := s.written ++ [⟨s.isStderr, false, s.buffer⟩] }
  else if !m.visible then { s with buffer := [], written := s.written ++ [⟨s.isStderr, true, s.buffer⟩] }
  else
    let r := completeLines s.buffer
    { s with buffer := r.2, written := s.written ++ r.1.map fun l => ⟨true, true, l ++ ['\n']⟩ }

/-- effects.rs:875-893, 935-953 `write_str`; for tests the text goes to a buffer, which is shown as one stream here. -/
def Stream.write (dest : OutputDest) (m : MeterMode) (text : Text) (s : Stream) : Stream :=
  match dest with
  | .stdout => ({ s with buffer := s.buffer ++ text } : Stream).flush m
  | .suppress => s
  | .bufferForTest => { s with written := s.written ++ [⟨s.isStderr, false, text⟩] }

/-- effects.rs:829-838 `WriteProgress::drop`. What is in the buffer after it is lost. -/
def Stream.drop (m : MeterMode) (s : Stream) : Stream := if s.buffer.isEmpty then s else s.flush m

end Verif
