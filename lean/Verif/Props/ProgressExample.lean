import Verif.Props.Progress

/-! C100, concrete cases. -/

namespace Verif.Props

open Verif Verif.Spec

/-- Two overlapping runs of an operation below another one, and a third one later. -/
def exOpEvents : List (Nat × OpEvent) :=
  [(0, .start [t!"sync"]), (10, .start [t!"sync", t!"walk"]), (20, .start [t!"sync", t!"walk"]),
    (30, .stop [t!"sync", t!"walk"]), (50, .stop [t!"sync", t!"walk"]), (60, .start [t!"sync", t!"walk"])]

theorem exOp_running (k : Text) (h : List (Nat × OpEvent)) (n : Nat) (hk : ∀ e ∈ h, e.2 ≠ .start [k] ∧ e.2 ≠ .stop [k]) :
    running [k] h n = n := by
  induction h generalizing n with
  | nil => rfl
  | cons e h ih =>
    obtain ⟨t, c | c⟩ := e
    · have := (hk (t, .start c) (by simp)).1
      simp only [running]
      rw [if_neg (by rintro rfl; exact this rfl)]
      exact ih n fun e he => hk e (by simp [he])
    · have := (hk (t, .stop c) (by simp)).2
      simp only [running]
      rw [if_neg (by rintro rfl; exact this rfl)]
      exact ih n fun e he => hk e (by simp [he])

theorem exOpSince : SinceCleared exOpEvents exOpEvents := by
  have q : ∀ h, running [t!"sync"] h 0 ≠ 0 → ¬ AllQuiet h := fun h hr ha => hr (ha t!"sync")
  refine .start (es := exOpEvents.take 5) (h := exOpEvents.take 5) ?_
  refine .stop (es := exOpEvents.take 4) (h := exOpEvents.take 4) ?_ (by decide) (q _ (by decide))
  refine .stop (es := exOpEvents.take 3) (h := exOpEvents.take 3) ?_ (by decide) (q _ (by decide))
  refine .start (es := exOpEvents.take 2) (h := exOpEvents.take 2) ?_
  refine .start (es := exOpEvents.take 1) (h := exOpEvents.take 1) ?_
  exact .start .nil

example : TimesInOrder exOpEvents 0 65 ∧ ∀ e ∈ exOpEvents, e.2.key ≠ [] := by
  refine ⟨by simp [TimesInOrder, exOpEvents], by decide⟩

/-- 40 from the two runs which overlap, and 5 from the third. -/
example : busyTime [t!"sync", t!"walk"] exOpEvents 0 0 65 = 45 ∧
    (getChild [t!"sync", t!"walk"] (opRun exOpEvents)).map (fun t => t.data.shown 65) = some 45 := by
  decide +kernel

/-- When `sync` ends as well, everything is quiet. -/
example : AllQuiet ([(0, .start [t!"sync"])] ++ [(70, .stop [t!"sync"])]) := by
  intro k
  by_cases h : k = t!"sync"
  · subst h
    decide
  · exact exOp_running k _ 0 (by
      intro e he
      simp only [List.cons_append, List.nil_append, List.mem_cons, List.not_mem_nil, or_false] at he
      rcases he with rfl | rfl <;> simp [Ne.symm h])

example : (opRun [(0, .start [t!"sync"]), (70, .stop [t!"sync"])]).length = 0 := by decide +kernel

/-- A question without the end of its line is not seen, and lines for stdout are on stderr. -/
example : ((writes ⟨false, [], []⟩ [(⟨true, true, true⟩, t!"Continue? ")]).drop ⟨true, true, true⟩).written = [] ∧
    (writes ⟨false, [], []⟩ [(⟨true, true, true⟩, t!"a\nb\n")]).written =
      [⟨true, true, t!"a\n"⟩, ⟨true, true, t!"b\n"⟩] ∧
    (writes ⟨false, [], []⟩ [(⟨true, true, false⟩, t!"a\nb")]).written = [⟨false, true, t!"a\nb"⟩] := by
  decide +kernel

end Verif.Props
