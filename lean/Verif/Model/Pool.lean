import Verif.Model.Basic

/-!
The pool of resources (repositories, one for each thread which needs one). Model of
git-branchless-lib/src/core/task.rs, with any number of threads whose steps are interleaved in any way.
-/

namespace Verif

abbrev ThreadId := Nat
abbrev HandleId := Nat

/-- A resource; they are numbered in the order in which the factory made them. -/
abbrev ResourceId := Nat

/-- Where a thread is, as far as the pool is concerned. In all places but `idle` and `dead` it has the
lock. -/
inductive PoolPc where
  /-- Somewhere else. -/
  | idle
  /-- task.rs:127: about to take a resource from the list. -/
  | popping
  /-- task.rs:130: the list was empty; about to call the factory. -/
  | creating
  /-- task.rs:128-132: has a resource. -/
  | got (resource : ResourceId)
  /-- task.rs:130: the factory returned an error. -/
  | failed
  /-- task.rs:95: about to return the resource of a handle. -/
  | pushing (inner : Option ResourceId)
  /-- task.rs:96: has returned it. -/
  | pushed
  /-- It panicked. -/
  | dead
deriving DecidableEq

/-- The pool, its handles and its users. -/
structure PoolState where
  /-- task.rs:62 `resources`, a `Vec`; the head of the list is its end. -/
  resources : List ResourceId
  /-- The thread which has the lock of the mutex. -/
  lock : Option ThreadId
  poisoned : Bool
  pc : ThreadId → PoolPc
  /-- task.rs:84-87: the handles which were returned and not dropped, with `inner`. Rust's ownership makes
  sure that a handle is dropped at most once. -/
  handles : List (HandleId × Option ResourceId)
  /-- The number of handles returned so far. -/
  nextHandle : HandleId
  /-- The number of resources made so far. -/
  created : Nat

/-- task.rs:110-115 `new`. -/
def PoolState.new : PoolState := ⟨[], none, false, fun _ => .idle, [], 0, 0⟩

/-- A step of a thread. -/
inductive PoolAction where
  /-- task.rs:122-126: get the lock. -/
  | lockCreate
  /-- task.rs:127 -/
  | pop
  /-- task.rs:130: the factory succeeds. -/
  | createOk
  /-- task.rs:130: the factory returns an error. -/
  | createError
  /-- task.rs:130: the factory panics. -/
  | createPanic
  /-- task.rs:132-136 and 97: the guard is dropped; the function returns. -/
  | unlock
  /-- task.rs:90-94: get the lock, to drop a handle. -/
  | lockDrop (handle : HandleId)
  /-- task.rs:95 -/
  | push
deriving DecidableEq

def PoolState.setPc (s : PoolState) (t : ThreadId) (pc : PoolPc) : PoolState :=
  { s with pc := fun t' => if t' = t then pc else s.pc t' }

/-- task.rs:88-137 `drop` and `try_create`, step by step. No result: the thread cannot do this now (it is
somewhere else, or it has to wait for the lock). A thread which panics is not heard of again; if it holds
other handles, dropping them during the unwinding would panic and end the process. A handle which is dropped
when the mutex is poisoned panics, and its resource is destroyed. -/
def PoolState.step (s : PoolState) (t : ThreadId) : PoolAction → Option PoolState
  | .lockCreate =>
    if s.pc t = .idle ∧ s.lock = none then
      if s.poisoned then some (s.setPc t .dead)
      else some ({ s with lock := some t }.setPc t .popping)
    else none
  | .pop =>
    if s.pc t = .popping then
      match s.resources with
      | r :: rest => some ({ s with resources := rest }.setPc t (.got r))
      | [] => some (s.setPc t .creating)
    else none
  | .createOk =>
    if s.pc t = .creating then some ({ s with created := s.created + 1 }.setPc t (.got s.created))
    else none
  | .createError => if s.pc t = .creating then some (s.setPc t .failed) else none
  | .createPanic =>
    if s.pc t = .creating then some ({ s with lock := none, poisoned := true }.setPc t .dead) else none
  | .unlock =>
    match s.pc t with
    | .got r =>
      some ({ s with lock := none, handles := (s.nextHandle, some r) :: s.handles,
                     nextHandle := s.nextHandle + 1 }.setPc t .idle)
    | .failed | .pushed => some ({ s with lock := none }.setPc t .idle)
    | _ => none
  | .lockDrop h =>
    if s.pc t = .idle ∧ s.lock = none then
      match s.handles.find? (·.1 = h) with
      | none => none
      | some (_, inner) =>
        let handles := s.handles.filter (·.1 ≠ h)
        if s.poisoned then some ({ s with handles }.setPc t .dead)
        else some ({ s with handles, lock := some t }.setPc t (.pushing inner))
    else none
  | .push =>
    match s.pc t with
    | .pushing (some r) => some ({ s with resources := r :: s.resources }.setPc t .pushed)
    | .pushing none => some ({ s with lock := none, poisoned := true }.setPc t .dead)
    | _ => none

/-- An execution: the steps of all threads in the order in which they happen. -/
inductive PoolExec : PoolState → List PoolState → PoolState → Prop
  | nil (s) : PoolExec s [s] s
  | cons {s states s' t a s''} : PoolExec s states s' → s'.step t a = some s'' →
      PoolExec s (states ++ [s'']) s''

end Verif
