import Verif.Model.Lines
import Mathlib.Logic.Function.Basic

/-!
How other programs are run: git-branchless-lib/src/git/run.rs. The program is any process, with pipes of finite
capacity to it and from it; the threads of git-branchless and the process take steps in any order.

Simplifications: each step moves one byte. The process and those which it starts are one: there is one state for all
of them, and the pipes are open until the last one is gone. That a process is killed by a signal of the user is a
possible behaviour of it; failures of the operating system are not modelled.
-/

namespace Verif

/-- How a process ended (`std::process::ExitStatus` on Unix). -/
inductive ExitStatus where
  | code (n : Nat)
  | signal (n : Nat)
deriving DecidableEq

/-- The two pipes from the process. -/
inductive OutStream where
  | out
  | err
deriving DecidableEq

/-- What a process does next; the argument of the continuation is the outcome. -/
inductive ProcAct (σ : Type) where
  /-- Read a byte; there is none at the end of the input. -/
  | read (k : Option UInt8 → σ)
  /-- Write a byte. The outcome is false if the pipe is broken. -/
  | write (stream : OutStream) (b : UInt8) (k : Bool → σ)
  /-- Something else. -/
  | think (s : σ)
  /-- Close the input. -/
  | closeInput (s : σ)
  /-- The process which was started ends; others may be left. -/
  | exit (status : ExitStatus) (left : Option σ)

/-- A program. -/
structure Proc (σ : Type) where
  act : σ → ProcAct σ

/-- Which function runs the program. -/
inductive RunKind where
  /-- `run`: the output is shown. -/
  | shown
  /-- `run_silent`: the output is returned. -/
  | silent
  /-- `run_hook`. -/
  | hook
deriving DecidableEq

/-- A thread which reads a pipe: still reading, ended, or panicked. -/
inductive ReaderMode where
  | reading
  | finished
  | panicked
deriving DecidableEq

/-- A pipe from the process and the thread which reads it. -/
structure PipeReader where
  /-- What is in the pipe. -/
  pipe : List UInt8 := []
  /-- What was read of an unfinished line. -/
  line : List UInt8 := []
  /-- What was shown or collected. -/
  got : List UInt8 := []
  mode : ReaderMode := .reading

/-- How running a program ends. -/
inductive RunOutcome where
  /-- `Ok`, with the exit status. -/
  | exited (status : ExitStatus)
  /-- "Writing process stdin" failed. -/
  | brokenPipe
  /-- The `unwrap` of a panicked thread. -/
  | panicked
deriving DecidableEq

/-- What the main thread does. -/
inductive RunPhase where
  /-- It writes the input. -/
  | writing (rest : List UInt8)
  /-- It waits for the process and the threads. -/
  | waiting
  | ended (outcome : RunOutcome)
deriving DecidableEq

/-- All of it. -/
structure RunState (σ : Type) where
  /-- The process, and those which it started; none if all are gone. -/
  proc : Option σ
  /-- How the process which was started ended. -/
  status : Option ExitStatus
  /-- What is in the pipe to the process. -/
  input : List UInt8
  /-- The process did not close its input. -/
  reads : Bool
  phase : RunPhase
  rd : OutStream → PipeReader

/-- What is fixed. -/
structure RunEnv where
  kind : RunKind
  /-- The capacity of a pipe. -/
  capacity : Nat
  /-- Bytes which are UTF-8. -/
  isUtf8 : List UInt8 → Bool

/-- At the beginning. `run_silent` gives the input if there is one, and an empty one otherwise; `run_hook` likewise.
For `run` the input is inherited, and is not written by git-branchless. -/
def RunState.init {σ : Type} (env : RunEnv) (start : σ) (input : List UInt8) : RunState σ :=
  { proc := some start
    status := none
    input := if env.kind = .shown then input else []
    reads := true
    phase := if env.kind = .shown then .waiting else .writing input
    rd := fun _ => {} }

/-- The main thread may still write. -/
def RunPhase.isWriting : RunPhase → Bool
  | .writing _ => true
  | _ => false

/-- The function has returned (or panicked). -/
def RunPhase.isEnded : RunPhase → Bool
  | .ended _ => true
  | _ => false

/-- A step of the process (or those which it started). What it does after git-branchless stopped running it is not
considered. -/
def procStep {σ : Type} (env : RunEnv) (p : Proc σ) (s : RunState σ) : Option (RunState σ) :=
  match s.proc with
  | none => none
  | some c =>
    if s.phase.isEnded then none
    else
    match p.act c with
    | .read k =>
      if s.reads then
        match s.input with
        | b :: rest => some { s with proc := some (k (some b)), input := rest }
        | [] => if s.phase.isWriting then none else some { s with proc := some (k none) }
      else some { s with proc := some (k none) }
    | .write stream b k =>
      if (s.rd stream).mode = .panicked then some { s with proc := some (k false) }
      else if (s.rd stream).pipe.length < env.capacity then
        some { s with
          proc := some (k true)
          rd := Function.update s.rd stream { s.rd stream with pipe := (s.rd stream).pipe ++ [b] } }
      else none
    | .think c => some { s with proc := some c }
    | .closeInput c => some { s with proc := some c, reads := false }
    | .exit st left => some { s with proc := left, status := some (s.status.getD st) }

/-- run.rs:376-394 and 318-326 (`write_all`, then `wait` or `wait_with_output`, which first close the input), and
run.rs:151-156, 386-394: `wait`, `join`. -/
def mainStep {σ : Type} (env : RunEnv) (s : RunState σ) : Option (RunState σ) :=
  match s.phase with
  | .writing [] => some { s with phase := .waiting }
  | .writing (b :: rest) =>
    if s.proc.isNone || !s.reads then some { s with phase := .ended .brokenPipe }
    else if s.input.length < env.capacity then some { s with phase := .writing rest, input := s.input ++ [b] }
    else none
  | .waiting =>
    match s.status with
    | none => none
    | some st =>
      if (s.rd .out).mode = .reading || (s.rd .err).mode = .reading then none
      else if (s.rd .out).mode = .panicked || (s.rd .err).mode = .panicked then
        some { s with phase := .ended .panicked }
      else some { s with phase := .ended (.exited st) }
  | .ended _ => none

/-- `BufRead::lines`: the line feed at the end and a carriage return before it are removed. -/
def chompCr (line : List UInt8) : List UInt8 := if line.getLast? = some 13 then line.dropLast else line

/-- run.rs:87-107 `spawn_writer_thread`: a byte of the output. A line is shown as soon as it is complete. `run_silent`
collects the bytes (`wait_with_output`). -/
def PipeReader.take (env : RunEnv) (r : PipeReader) (b : UInt8) (rest : List UInt8) : PipeReader :=
  if env.kind = .silent then { r with pipe := rest, got := r.got ++ [b] }
  else if b = 10 then
    if env.isUtf8 r.line then { r with pipe := rest, line := [], got := r.got ++ (chompCr r.line ++ [10]) }
    else { r with pipe := rest, mode := .panicked }
  else { r with pipe := rest, line := r.line ++ [b] }

/-- run.rs:87-107 `spawn_writer_thread`: the end of the output. -/
def PipeReader.finish (env : RunEnv) (r : PipeReader) : PipeReader :=
  if r.line = [] then { r with mode := .finished }
  else if env.isUtf8 r.line then { r with line := [], got := r.got ++ (r.line ++ [10]), mode := .finished }
  else { r with mode := .panicked }

/-- A step of a thread which reads. The threads are started when the input is written (run.rs:381-384;
run.rs:321-326 likewise, in `wait_with_output`, which needs no threads). -/
def readerStep {σ : Type} (env : RunEnv) (s : RunState σ) (stream : OutStream) : Option (RunState σ) :=
  let r := s.rd stream
  match s.phase, r.mode with
  | .waiting, .reading =>
    match r.pipe with
    | b :: rest => some { s with rd := Function.update s.rd stream (r.take env b rest) }
    | [] =>
      if s.proc.isNone then some { s with rd := Function.update s.rd stream (r.finish env) } else none
  | _, _ => none

/-- A step of git-branchless. -/
def OwnStep {σ : Type} (env : RunEnv) (s s' : RunState σ) : Prop :=
  mainStep env s = some s' ∨ ∃ stream, readerStep env s stream = some s'

/-- A step. -/
def RunStep {σ : Type} (env : RunEnv) (p : Proc σ) (s s' : RunState σ) : Prop :=
  procStep env p s = some s' ∨ OwnStep env s s'

/-- run.rs:158-171: the exit code which is reported; a process which was killed counts as 1. -/
def ExitStatus.toCode : ExitStatus → Nat
  | .code n => n
  | .signal _ => 1

/-- run.rs:158-171: success. -/
def ExitStatus.isSuccess (st : ExitStatus) : Bool := st.toCode = 0

end Verif
