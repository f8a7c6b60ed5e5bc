import Verif.Model.Text

/-! The time during which something is running. -/

namespace Verif.Spec

open Verif

/-- Something is started, or one of the runs of it ends. -/
inductive OpEvent where
  | start (key : List Text)
  | stop (key : List Text)
deriving DecidableEq, Repr

def OpEvent.key : OpEvent → List Text
  | .start k => k
  | .stop k => k

/-- How many runs of an operation are going on after some events. -/
def running (key : List Text) : List (Nat × OpEvent) → Nat → Nat
  | [], n => n
  | (_, .start k) :: es, n => running key es (if k = key then n + 1 else n)
  | (_, .stop k) :: es, n => running key es (if k = key then n - 1 else n)

/-- The wall-clock time, until `now`, during which at least one run of an operation was going on; `n` runs are going on at the time
`last`. -/
def busyTime (key : List Text) : List (Nat × OpEvent) → Nat → Nat → Nat → Nat
  | [], n, last, now => if n = 0 then 0 else now - last
  | (t, .start k) :: es, n, last, now =>
    (if n = 0 then 0 else t - last) + busyTime key es (if k = key then n + 1 else n) t now
  | (t, .stop k) :: es, n, last, now =>
    (if n = 0 then 0 else t - last) + busyTime key es (if k = key then n - 1 else n) t now

/-- The events are in the order of their times, all of them between `last` and `now`. -/
def TimesInOrder : List (Nat × OpEvent) → Nat → Nat → Prop
  | [], last, now => last ≤ now
  | (t, _) :: es, last, now => last ≤ t ∧ TimesInOrder es t now

/-- No operation at the top of the hierarchy is running. -/
def AllQuiet (es : List (Nat × OpEvent)) : Prop := ∀ k, running [k] es 0 = 0

/-- The events since the meters were cleared last, which happens whenever a run has ended and nothing at the top is running. -/
inductive SinceCleared : List (Nat × OpEvent) → List (Nat × OpEvent) → Prop where
  | nil : SinceCleared [] []
  | start {es h t k} : SinceCleared es h → SinceCleared (es ++ [(t, .start k)]) (h ++ [(t, .start k)])
  /-- A run which is not known ends: it was begun before the meters were cleared. -/
  | unknown {es h t k} : SinceCleared es h → running k h 0 = 0 →
      SinceCleared (es ++ [(t, .stop k)]) (h ++ [(t, .stop k)])
  | stop {es h t k} : SinceCleared es h → running k h 0 ≠ 0 → ¬ AllQuiet (h ++ [(t, .stop k)]) →
      SinceCleared (es ++ [(t, .stop k)]) (h ++ [(t, .stop k)])
  | cleared {es h t k} : SinceCleared es h → running k h 0 ≠ 0 → AllQuiet (h ++ [(t, .stop k)]) →
      SinceCleared (es ++ [(t, .stop k)]) []

end Verif.Spec
