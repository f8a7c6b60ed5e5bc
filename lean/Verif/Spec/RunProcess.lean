import Verif.Model.RunProcess
import Mathlib.Logic.Relation

/-!
What a program does on its own, and what running it means: no reference is made to the threads which run it.
-/

namespace Verif.Spec

open Verif

/-- What a process did. -/
structure ProcHistory where
  /-- The bytes it read. -/
  took : List UInt8 := []
  /-- It was told that the input ends, before it closed it. -/
  sawEnd : Bool := false
  /-- It closed its input. -/
  closed : Bool := false
  /-- It tried to write to a broken pipe. -/
  broken : Bool := false
  /-- The bytes it wrote. -/
  wrote : OutStream → List UInt8 := fun _ => []
  /-- How the process which was started ended. -/
  status : Option ExitStatus := none

/-- What a program can do, when started in the given state. At the end is the state of the processes which are left. -/
inductive Behaves {σ : Type} (p : Proc σ) (start : σ) : ProcHistory → Option σ → Prop
  | start : Behaves p start {} (some start)
  | read {h : ProcHistory} {c : σ} {k : Option UInt8 → σ} (b : UInt8) (hb : Behaves p start h (some c))
      (ha : p.act c = .read k) (ho : h.closed = false) :
      Behaves p start { h with took := h.took ++ [b] } (some (k (some b)))
  | inputEnds {h : ProcHistory} {c : σ} {k : Option UInt8 → σ} (hb : Behaves p start h (some c))
      (ha : p.act c = .read k) (ho : h.closed = false) : Behaves p start { h with sawEnd := true } (some (k none))
  | inputClosed {h : ProcHistory} {c : σ} {k : Option UInt8 → σ} (hb : Behaves p start h (some c))
      (ha : p.act c = .read k) (ho : h.closed = true) : Behaves p start h (some (k none))
  | write {h : ProcHistory} {c : σ} {stream : OutStream} {b : UInt8} {k : Bool → σ}
      (hb : Behaves p start h (some c)) (ha : p.act c = .write stream b k) :
      Behaves p start { h with wrote := Function.update h.wrote stream (h.wrote stream ++ [b]) } (some (k true))
  | writeFails {h : ProcHistory} {c : σ} {stream : OutStream} {b : UInt8} {k : Bool → σ}
      (hb : Behaves p start h (some c)) (ha : p.act c = .write stream b k) :
      Behaves p start { h with broken := true } (some (k false))
  | think {h : ProcHistory} {c c' : σ} (hb : Behaves p start h (some c)) (ha : p.act c = .think c') :
      Behaves p start h (some c')
  | closeInput {h : ProcHistory} {c c' : σ} (hb : Behaves p start h (some c)) (ha : p.act c = .closeInput c') :
      Behaves p start { h with closed := true } (some c')
  | exit {h : ProcHistory} {c : σ} {st : ExitStatus} {left : Option σ} (hb : Behaves p start h (some c))
      (ha : p.act c = .exit st left) : Behaves p start { h with status := some (h.status.getD st) } left

/-- The states which can be reached. -/
def RunReaches {σ : Type} (env : RunEnv) (p : Proc σ) (start : σ) (input : List UInt8) (s : RunState σ) : Prop :=
  Relation.ReflTransGen (RunStep env p) (RunState.init env start input) s

/-- It hangs: nobody can do anything any more, and the program was not run to the end. -/
def RunHangs {σ : Type} (env : RunEnv) (p : Proc σ) (s : RunState σ) : Prop :=
  (∀ s', ¬ RunStep env p s s') ∧ ∀ o, s.phase ≠ .ended o

/-- The program fills a pipe with output and goes on writing, while it left so much of the input that it fills the
pipe, too. -/
def Clogs {σ : Type} (p : Proc σ) (start : σ) (capacity : Nat) (input : List UInt8) : Prop :=
  ∃ h c stream b k, Behaves p start h (some c) ∧ p.act c = .write stream b k ∧ h.took <+: input ∧
    h.took.length + capacity < input.length ∧ (h.wrote stream).length = capacity ∧
    (∀ stream, (h.wrote stream).length ≤ capacity) ∧ h.sawEnd = false ∧ h.closed = false ∧ h.broken = false

/-- The program reads its input to the end before it writes anything. -/
def ReadsFirst {σ : Type} (p : Proc σ) (start : σ) : Prop :=
  ∀ h c, Behaves p start h c → (∃ stream, h.wrote stream ≠ []) → h.sawEnd = true

/-- The program does not leave, nor close its input, before it has read it to the end. -/
def ReadsAll {σ : Type} (p : Proc σ) (start : σ) : Prop :=
  ∀ h c, Behaves p start h c → (c = none ∨ h.closed = true) → h.sawEnd = true

/-- The complete lines of a text, and what follows the last one. -/
def byteLines : List UInt8 → List (List UInt8) × List UInt8
  | [] => ([], [])
  | b :: rest =>
    let (ls, last) := byteLines rest
    if b = 10 then ([] :: ls, last)
    else
      match ls with
      | [] => ([], b :: last)
      | l :: ls => ((b :: l) :: ls, last)

/-- All lines are UTF-8. -/
def LinesUtf8 (isUtf8 : List UInt8 → Bool) (text : List UInt8) : Prop :=
  (∀ l ∈ (byteLines text).1, isUtf8 l = true) ∧ ((byteLines text).2 ≠ [] → isUtf8 (byteLines text).2 = true)

/-- The text with line feeds at the end of all lines, also of the last one, and without carriage returns before
them. -/
def tidyLines (text : List UInt8) : List UInt8 :=
  ((byteLines text).1.map fun l => (if l.getLast? = some 13 then l.dropLast else l) ++ [10]).flatten ++
    (if (byteLines text).2 = [] then [] else (byteLines text).2 ++ [10])

end Verif.Spec
