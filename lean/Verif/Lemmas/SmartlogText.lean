import Verif.Spec.Describe
import Verif.Lemmas.RevsetEval
import Verif.Lemmas.Lines
import Verif.Props.Status

/-!
Lemmas for C80: the texts of the smartlog can be read back.
-/

namespace Verif.Spec

open Verif

/-! ### texts without spaces -/

/-- What is before and after the first space. -/
theorem space_cut {a b x y : Text} (ha : ' ' ∉ a) (hb : ' ' ∉ b) (h : a ++ ' ' :: x = b ++ ' ' :: y) : a = b ∧ x = y := by
  induction a generalizing b with
  | nil =>
    cases b with
    | nil => exact ⟨rfl, (List.cons.inj h).2⟩
    | cons d b =>
      have := (List.cons.inj h).1
      exact absurd (by rw [this]; exact List.mem_cons_self) hb
  | cons c a ih =>
    cases b with
    | nil =>
      have := (List.cons.inj h).1
      exact absurd (by rw [← this]; exact List.mem_cons_self) ha
    | cons d b =>
      obtain ⟨h1, h2⟩ := List.cons.inj h
      obtain ⟨h3, h4⟩ := ih (fun hc => ha (List.mem_cons_of_mem _ hc)) (fun hc => hb (List.mem_cons_of_mem _ hc)) h2
      exact ⟨by rw [h1, h3], h4⟩

theorem natToText_no_space (n : Nat) : ' ' ∉ natToText n := by
  intro h
  have := mem_natToText h
  revert this
  decide

/-! ### the lines -/

/-- The part of a line which is not the description of a commit. -/
def itemHead (g : Glyphs) : LineItem → Text
  | .omitted n => g.commitOmitted ++ t!" " ++ pluralize n t!"omitted commit" t!"omitted commits"
  | .ellipsis => g.verticalEllipsis
  | .mergeParent _ => g.commitMerge ++ t!" (merge) "
  | .mergeJoin => g.lineWithOffshoot ++ g.merge
  | .commit _ isMain isObsolete isHead => g.commit isMain isObsolete isHead ++ t!" "
  | .omittedDescendants n =>
    g.commitOmitted ++ t!" " ++ pluralize n t!"omitted descendant commit" t!"omitted descendant commits"
  | .mergeChild _ => g.commitMerge ++ t!" (merge) "
  | .split => g.lineWithOffshoot ++ g.split
  | .line => g.line
  | .empty => []

theorem itemText_parts {g : Glyphs} {d : Redactor → Oid → Option (Text × Redactor)} {r : Redactor} {i : LineItem}
    {x : Text × Redactor} (h : itemText g d r i = some x) :
    (itemOid i = none ∧ x.1 = itemHead g i) ∨
    ∃ o y, itemOid i = some o ∧ d r o = some y ∧ x.1 = itemHead g i ++ y.1 := by
  cases i with
  | mergeParent o =>
    simp only [itemText, Option.map_eq_some_iff] at h
    obtain ⟨y, h1, rfl⟩ := h
    exact .inr ⟨o, y, rfl, h1, rfl⟩
  | mergeChild o =>
    simp only [itemText, Option.map_eq_some_iff] at h
    obtain ⟨y, h1, rfl⟩ := h
    exact .inr ⟨o, y, rfl, h1, rfl⟩
  | commit o a b c =>
    simp only [itemText, Option.map_eq_some_iff] at h
    obtain ⟨y, h1, rfl⟩ := h
    exact .inr ⟨o, y, rfl, h1, rfl⟩
  | _ =>
    simp only [itemText, Option.some.injEq] at h
    subst h
    exact .inl ⟨rfl, rfl⟩

theorem linesText_parts {g : Glyphs} {d : Redactor → Oid → Option (Text × Redactor)} {r : Redactor}
    {lines : List SmartlogLine} {x : List Text × Redactor} (h : linesText g d r lines = some x) :
    List.Forall₂ (fun (l : SmartlogLine) t => ∃ r y, itemText g d r l.2 = some y ∧
      t = (l.1.flatMap fun rail => g.rail rail ++ t!" ") ++ y.1) lines x.1 := by
  induction lines generalizing r x with
  | nil =>
    simp only [linesText, Option.some.injEq] at h
    subst h
    exact .nil
  | cons l ls ih =>
    simp only [linesText] at h
    cases hi : itemText g d r l.2 with
    | none => rw [hi] at h; exact nomatch h
    | some y =>
      rw [hi] at h
      dsimp only at h
      cases hl : linesText g d y.2 ls with
      | none => rw [hl] at h; exact nomatch h
      | some z =>
        rw [hl] at h
        obtain rfl := Option.some.inj h
        exact .cons ⟨r, y, hi, rfl⟩ (ih hl)

theorem pluralize_read {n m : Nat} {a a' b b' x y : Text}
    (h : pluralize n a a' ++ x = pluralize m b b' ++ y) :
    n = m ∧ (if n = 1 then a else a') ++ x = (if m = 1 then b else b') ++ y := by
  unfold pluralize at h
  simp only [List.append_assoc, List.cons_append, List.nil_append] at h
  obtain ⟨h1, h2⟩ := space_cut (natToText_no_space n) (natToText_no_space m) h
  exact ⟨natToText_inj h1, h2⟩

/-- The glyphs for which lines can be read. -/
inductive KnownGlyphs : Bool → Glyphs → Prop
  | text (reverse : Bool) : KnownGlyphs false (Glyphs.text.reverseOrder reverse)
  | pretty (reverse : Bool) : KnownGlyphs true (Glyphs.pretty.reverseOrder reverse)

theorem items_read {p : Bool} {g : Glyphs} (hg : KnownGlyphs p g) {i i' : LineItem} {u u' : Text}
    (hu : itemOid i = none → u = []) (hu' : itemOid i' = none → u' = [])
    (h : itemHead g i ++ u = itemHead g i' ++ u') :
    u = u' ∧ (itemOid i).isSome = (itemOid i').isSome ∧ (itemOid i = itemOid i' → SameItem p i i') := by
  cases hg with
  | text rev =>
    cases i with
    | omitted n =>
      obtain rfl := hu rfl
      cases i' with
      | omitted m =>
        obtain rfl := hu' rfl
        have h : '#' :: ' ' :: (pluralize n t!"omitted commit" t!"omitted commits" ++ []) =
          '#' :: ' ' :: (pluralize m t!"omitted commit" t!"omitted commits" ++ []) := by
          cases rev <;> simpa [itemHead, Glyphs.reverseOrder, Glyphs.text] using h
        obtain ⟨rfl, _⟩ := pluralize_read (List.cons.inj (List.cons.inj h).2).2
        exact ⟨rfl, rfl, fun _ => .omitted n⟩
      | omittedDescendants m =>
        obtain rfl := hu' rfl
        have h : '#' :: ' ' :: (pluralize n t!"omitted commit" t!"omitted commits" ++ []) =
          '#' :: ' ' :: (pluralize m t!"omitted descendant commit" t!"omitted descendant commits" ++ []) := by
          cases rev <;> simpa [itemHead, Glyphs.reverseOrder, Glyphs.text] using h
        have := (pluralize_read (List.cons.inj (List.cons.inj h).2).2).2
        exfalso
        split at this <;> split at this <;> simp at this
      | commit o a b c =>
        exfalso
        cases rev <;> cases a <;> cases b <;> cases c <;>
          simp [itemHead, Glyphs.reverseOrder, Glyphs.text, Glyphs.commit] at h
      | empty => exfalso; obtain rfl := hu' rfl; cases rev <;> simp [itemHead, Glyphs.reverseOrder, Glyphs.text] at h
      | _ => exfalso; cases rev <;> simp [itemHead, Glyphs.reverseOrder, Glyphs.text] at h
    | omittedDescendants n =>
      obtain rfl := hu rfl
      cases i' with
      | omittedDescendants m =>
        obtain rfl := hu' rfl
        have h : '#' :: ' ' :: (pluralize n t!"omitted descendant commit" t!"omitted descendant commits" ++ []) =
          '#' :: ' ' :: (pluralize m t!"omitted descendant commit" t!"omitted descendant commits" ++ []) := by
          cases rev <;> simpa [itemHead, Glyphs.reverseOrder, Glyphs.text] using h
        obtain ⟨rfl, _⟩ := pluralize_read (List.cons.inj (List.cons.inj h).2).2
        exact ⟨rfl, rfl, fun _ => .omittedDescendants n⟩
      | omitted m =>
        obtain rfl := hu' rfl
        have h : '#' :: ' ' :: (pluralize n t!"omitted descendant commit" t!"omitted descendant commits" ++ []) =
          '#' :: ' ' :: (pluralize m t!"omitted commit" t!"omitted commits" ++ []) := by
          cases rev <;> simpa [itemHead, Glyphs.reverseOrder, Glyphs.text] using h
        have := (pluralize_read (List.cons.inj (List.cons.inj h).2).2).2
        exfalso
        split at this <;> split at this <;> simp at this
      | commit o a b c =>
        exfalso
        cases rev <;> cases a <;> cases b <;> cases c <;>
          simp [itemHead, Glyphs.reverseOrder, Glyphs.text, Glyphs.commit] at h
      | empty => exfalso; obtain rfl := hu' rfl; cases rev <;> simp [itemHead, Glyphs.reverseOrder, Glyphs.text] at h
      | _ => exfalso; cases rev <;> simp [itemHead, Glyphs.reverseOrder, Glyphs.text] at h
    | commit o a b c =>
      cases i' with
      | commit o' a' b' c' =>
        have hh : u = u' ∧ b = b' ∧ c = c' ∧ (a = a' ∨ c = true) := by
          cases rev <;> cases a <;> cases b <;> cases c <;> cases a' <;> cases b' <;> cases c' <;>
            simp [itemHead, Glyphs.reverseOrder, Glyphs.text, Glyphs.commit] at h ⊢ <;> exact h
        obtain ⟨h1, rfl, rfl, h2⟩ := hh
        refine ⟨h1, rfl, ?_⟩
        intro ho
        obtain rfl := Option.some.inj ho
        exact .commit o a a' b c h2
      | empty =>
        exfalso
        obtain rfl := hu' rfl
        cases rev <;> cases a <;> cases b <;> cases c <;>
          simp [itemHead, Glyphs.reverseOrder, Glyphs.text, Glyphs.commit] at h
      | _ =>
        exfalso
        cases rev <;> cases a <;> cases b <;> cases c <;>
          simp [itemHead, Glyphs.reverseOrder, Glyphs.text, Glyphs.commit] at h
    | mergeParent o =>
      cases i' with
      | mergeParent o' =>
        refine ⟨List.append_cancel_left h, rfl, fun ho => ?_⟩
        obtain rfl := Option.some.inj ho
        exact .merge o (by simp) (by simp)
      | mergeChild o' =>
        refine ⟨List.append_cancel_left h, rfl, fun ho => ?_⟩
        obtain rfl := Option.some.inj ho
        exact .merge o (by simp) (by simp)
      | commit o' a b c =>
        exfalso
        cases rev <;> cases a <;> cases b <;> cases c <;>
          simp [itemHead, Glyphs.reverseOrder, Glyphs.text, Glyphs.commit] at h
      | empty => exfalso; obtain rfl := hu' rfl; cases rev <;> simp [itemHead, Glyphs.reverseOrder, Glyphs.text] at h
      | _ => exfalso; cases rev <;> simp [itemHead, Glyphs.reverseOrder, Glyphs.text] at h
    | mergeChild o =>
      cases i' with
      | mergeParent o' =>
        refine ⟨List.append_cancel_left h, rfl, fun ho => ?_⟩
        obtain rfl := Option.some.inj ho
        exact .merge o (by simp) (by simp)
      | mergeChild o' =>
        refine ⟨List.append_cancel_left h, rfl, fun ho => ?_⟩
        obtain rfl := Option.some.inj ho
        exact .merge o (by simp) (by simp)
      | commit o' a b c =>
        exfalso
        cases rev <;> cases a <;> cases b <;> cases c <;>
          simp [itemHead, Glyphs.reverseOrder, Glyphs.text, Glyphs.commit] at h
      | empty => exfalso; obtain rfl := hu' rfl; cases rev <;> simp [itemHead, Glyphs.reverseOrder, Glyphs.text] at h
      | _ => exfalso; cases rev <;> simp [itemHead, Glyphs.reverseOrder, Glyphs.text] at h
    | ellipsis =>
      obtain rfl := hu rfl
      cases i' with
      | ellipsis => obtain rfl := hu' rfl; exact ⟨rfl, rfl, fun _ => .ellipsis⟩
      | commit o' a b c =>
        exfalso
        cases rev <;> cases a <;> cases b <;> cases c <;>
          simp [itemHead, Glyphs.reverseOrder, Glyphs.text, Glyphs.commit] at h
      | empty => exfalso; obtain rfl := hu' rfl; cases rev <;> simp [itemHead, Glyphs.reverseOrder, Glyphs.text] at h
      | _ => exfalso; cases rev <;> simp [itemHead, Glyphs.reverseOrder, Glyphs.text] at h
    | mergeJoin =>
      obtain rfl := hu rfl
      cases i' with
      | mergeJoin => obtain rfl := hu' rfl; exact ⟨rfl, rfl, fun _ => .mergeJoin⟩
      | line => exfalso; obtain rfl := hu' rfl; cases rev <;> simp [itemHead, Glyphs.reverseOrder, Glyphs.text] at h
      | commit o' a b c =>
        exfalso
        cases rev <;> cases a <;> cases b <;> cases c <;>
          simp [itemHead, Glyphs.reverseOrder, Glyphs.text, Glyphs.commit] at h
      | empty => exfalso; obtain rfl := hu' rfl; cases rev <;> simp [itemHead, Glyphs.reverseOrder, Glyphs.text] at h
      | _ => exfalso; cases rev <;> simp [itemHead, Glyphs.reverseOrder, Glyphs.text] at h
    | split =>
      obtain rfl := hu rfl
      cases i' with
      | split => obtain rfl := hu' rfl; exact ⟨rfl, rfl, fun _ => .split⟩
      | line => exfalso; obtain rfl := hu' rfl; cases rev <;> simp [itemHead, Glyphs.reverseOrder, Glyphs.text] at h
      | commit o' a b c =>
        exfalso
        cases rev <;> cases a <;> cases b <;> cases c <;>
          simp [itemHead, Glyphs.reverseOrder, Glyphs.text, Glyphs.commit] at h
      | empty => exfalso; obtain rfl := hu' rfl; cases rev <;> simp [itemHead, Glyphs.reverseOrder, Glyphs.text] at h
      | _ => exfalso; cases rev <;> simp [itemHead, Glyphs.reverseOrder, Glyphs.text] at h
    | line =>
      obtain rfl := hu rfl
      cases i' with
      | line => obtain rfl := hu' rfl; exact ⟨rfl, rfl, fun _ => .line⟩
      | commit o' a b c =>
        exfalso
        cases rev <;> cases a <;> cases b <;> cases c <;>
          simp [itemHead, Glyphs.reverseOrder, Glyphs.text, Glyphs.commit] at h
      | empty => exfalso; obtain rfl := hu' rfl; cases rev <;> simp [itemHead, Glyphs.reverseOrder, Glyphs.text] at h
      | _ => exfalso; cases rev <;> simp [itemHead, Glyphs.reverseOrder, Glyphs.text] at h
    | empty =>
      obtain rfl := hu rfl
      cases i' with
      | empty => obtain rfl := hu' rfl; exact ⟨rfl, rfl, fun _ => .empty⟩
      | commit o' a b c =>
        exfalso
        cases rev <;> cases a <;> cases b <;> cases c <;>
          simp [itemHead, Glyphs.reverseOrder, Glyphs.text, Glyphs.commit] at h
      | _ => exfalso; cases rev <;> simp [itemHead, Glyphs.reverseOrder, Glyphs.text] at h
  | pretty rev =>
    cases i with
    | omitted n =>
      obtain rfl := hu rfl
      cases i' with
      | omitted m =>
        obtain rfl := hu' rfl
        have h : '◌' :: ' ' :: (pluralize n t!"omitted commit" t!"omitted commits" ++ []) =
          '◌' :: ' ' :: (pluralize m t!"omitted commit" t!"omitted commits" ++ []) := by
          cases rev <;> simpa [itemHead, Glyphs.reverseOrder, Glyphs.pretty] using h
        obtain ⟨rfl, _⟩ := pluralize_read (List.cons.inj (List.cons.inj h).2).2
        exact ⟨rfl, rfl, fun _ => .omitted n⟩
      | omittedDescendants m =>
        obtain rfl := hu' rfl
        have h : '◌' :: ' ' :: (pluralize n t!"omitted commit" t!"omitted commits" ++ []) =
          '◌' :: ' ' :: (pluralize m t!"omitted descendant commit" t!"omitted descendant commits" ++ []) := by
          cases rev <;> simpa [itemHead, Glyphs.reverseOrder, Glyphs.pretty] using h
        have := (pluralize_read (List.cons.inj (List.cons.inj h).2).2).2
        exfalso
        split at this <;> split at this <;> simp at this
      | commit o a b c =>
        exfalso
        cases rev <;> cases a <;> cases b <;> cases c <;>
          simp [itemHead, Glyphs.reverseOrder, Glyphs.pretty, Glyphs.commit] at h
      | empty => exfalso; obtain rfl := hu' rfl; cases rev <;> simp [itemHead, Glyphs.reverseOrder, Glyphs.pretty] at h
      | _ => exfalso; cases rev <;> simp [itemHead, Glyphs.reverseOrder, Glyphs.pretty] at h
    | omittedDescendants n =>
      obtain rfl := hu rfl
      cases i' with
      | omittedDescendants m =>
        obtain rfl := hu' rfl
        have h : '◌' :: ' ' :: (pluralize n t!"omitted descendant commit" t!"omitted descendant commits" ++ []) =
          '◌' :: ' ' :: (pluralize m t!"omitted descendant commit" t!"omitted descendant commits" ++ []) := by
          cases rev <;> simpa [itemHead, Glyphs.reverseOrder, Glyphs.pretty] using h
        obtain ⟨rfl, _⟩ := pluralize_read (List.cons.inj (List.cons.inj h).2).2
        exact ⟨rfl, rfl, fun _ => .omittedDescendants n⟩
      | omitted m =>
        obtain rfl := hu' rfl
        have h : '◌' :: ' ' :: (pluralize n t!"omitted descendant commit" t!"omitted descendant commits" ++ []) =
          '◌' :: ' ' :: (pluralize m t!"omitted commit" t!"omitted commits" ++ []) := by
          cases rev <;> simpa [itemHead, Glyphs.reverseOrder, Glyphs.pretty] using h
        have := (pluralize_read (List.cons.inj (List.cons.inj h).2).2).2
        exfalso
        split at this <;> split at this <;> simp at this
      | commit o a b c =>
        exfalso
        cases rev <;> cases a <;> cases b <;> cases c <;>
          simp [itemHead, Glyphs.reverseOrder, Glyphs.pretty, Glyphs.commit] at h
      | empty => exfalso; obtain rfl := hu' rfl; cases rev <;> simp [itemHead, Glyphs.reverseOrder, Glyphs.pretty] at h
      | _ => exfalso; cases rev <;> simp [itemHead, Glyphs.reverseOrder, Glyphs.pretty] at h
    | commit o a b c =>
      cases i' with
      | commit o' a' b' c' =>
        have hh : u = u' ∧ b = b' ∧ c = c' ∧ (a = a' ∨ (b = true ∧ c = false)) := by
          cases rev <;> cases a <;> cases b <;> cases c <;> cases a' <;> cases b' <;> cases c' <;>
            simp [itemHead, Glyphs.reverseOrder, Glyphs.pretty, Glyphs.commit] at h ⊢ <;> exact h
        obtain ⟨h1, rfl, rfl, h2⟩ := hh
        refine ⟨h1, rfl, ?_⟩
        intro ho
        obtain rfl := Option.some.inj ho
        exact .commit o a a' b c h2
      | empty =>
        exfalso
        obtain rfl := hu' rfl
        cases rev <;> cases a <;> cases b <;> cases c <;>
          simp [itemHead, Glyphs.reverseOrder, Glyphs.pretty, Glyphs.commit] at h
      | _ =>
        exfalso
        cases rev <;> cases a <;> cases b <;> cases c <;>
          simp [itemHead, Glyphs.reverseOrder, Glyphs.pretty, Glyphs.commit] at h
    | mergeParent o =>
      cases i' with
      | mergeParent o' =>
        refine ⟨List.append_cancel_left h, rfl, fun ho => ?_⟩
        obtain rfl := Option.some.inj ho
        exact .merge o (by simp) (by simp)
      | mergeChild o' =>
        refine ⟨List.append_cancel_left h, rfl, fun ho => ?_⟩
        obtain rfl := Option.some.inj ho
        exact .merge o (by simp) (by simp)
      | commit o' a b c =>
        exfalso
        cases rev <;> cases a <;> cases b <;> cases c <;>
          simp [itemHead, Glyphs.reverseOrder, Glyphs.pretty, Glyphs.commit] at h
      | empty => exfalso; obtain rfl := hu' rfl; cases rev <;> simp [itemHead, Glyphs.reverseOrder, Glyphs.pretty] at h
      | _ => exfalso; cases rev <;> simp [itemHead, Glyphs.reverseOrder, Glyphs.pretty] at h
    | mergeChild o =>
      cases i' with
      | mergeParent o' =>
        refine ⟨List.append_cancel_left h, rfl, fun ho => ?_⟩
        obtain rfl := Option.some.inj ho
        exact .merge o (by simp) (by simp)
      | mergeChild o' =>
        refine ⟨List.append_cancel_left h, rfl, fun ho => ?_⟩
        obtain rfl := Option.some.inj ho
        exact .merge o (by simp) (by simp)
      | commit o' a b c =>
        exfalso
        cases rev <;> cases a <;> cases b <;> cases c <;>
          simp [itemHead, Glyphs.reverseOrder, Glyphs.pretty, Glyphs.commit] at h
      | empty => exfalso; obtain rfl := hu' rfl; cases rev <;> simp [itemHead, Glyphs.reverseOrder, Glyphs.pretty] at h
      | _ => exfalso; cases rev <;> simp [itemHead, Glyphs.reverseOrder, Glyphs.pretty] at h
    | ellipsis =>
      obtain rfl := hu rfl
      cases i' with
      | ellipsis => obtain rfl := hu' rfl; exact ⟨rfl, rfl, fun _ => .ellipsis⟩
      | commit o' a b c =>
        exfalso
        cases rev <;> cases a <;> cases b <;> cases c <;>
          simp [itemHead, Glyphs.reverseOrder, Glyphs.pretty, Glyphs.commit] at h
      | empty => exfalso; obtain rfl := hu' rfl; cases rev <;> simp [itemHead, Glyphs.reverseOrder, Glyphs.pretty] at h
      | _ => exfalso; cases rev <;> simp [itemHead, Glyphs.reverseOrder, Glyphs.pretty] at h
    | mergeJoin =>
      obtain rfl := hu rfl
      cases i' with
      | mergeJoin => obtain rfl := hu' rfl; exact ⟨rfl, rfl, fun _ => .mergeJoin⟩
      | commit o' a b c =>
        exfalso
        cases rev <;> cases a <;> cases b <;> cases c <;>
          simp [itemHead, Glyphs.reverseOrder, Glyphs.pretty, Glyphs.commit] at h
      | empty => exfalso; obtain rfl := hu' rfl; cases rev <;> simp [itemHead, Glyphs.reverseOrder, Glyphs.pretty] at h
      | _ => exfalso; cases rev <;> simp [itemHead, Glyphs.reverseOrder, Glyphs.pretty] at h
    | split =>
      obtain rfl := hu rfl
      cases i' with
      | split => obtain rfl := hu' rfl; exact ⟨rfl, rfl, fun _ => .split⟩
      | commit o' a b c =>
        exfalso
        cases rev <;> cases a <;> cases b <;> cases c <;>
          simp [itemHead, Glyphs.reverseOrder, Glyphs.pretty, Glyphs.commit] at h
      | empty => exfalso; obtain rfl := hu' rfl; cases rev <;> simp [itemHead, Glyphs.reverseOrder, Glyphs.pretty] at h
      | _ => exfalso; cases rev <;> simp [itemHead, Glyphs.reverseOrder, Glyphs.pretty] at h
    | line =>
      obtain rfl := hu rfl
      cases i' with
      | line => obtain rfl := hu' rfl; exact ⟨rfl, rfl, fun _ => .line⟩
      | commit o' a b c =>
        exfalso
        cases rev <;> cases a <;> cases b <;> cases c <;>
          simp [itemHead, Glyphs.reverseOrder, Glyphs.pretty, Glyphs.commit] at h
      | empty => exfalso; obtain rfl := hu' rfl; cases rev <;> simp [itemHead, Glyphs.reverseOrder, Glyphs.pretty] at h
      | _ => exfalso; cases rev <;> simp [itemHead, Glyphs.reverseOrder, Glyphs.pretty] at h
    | empty =>
      obtain rfl := hu rfl
      cases i' with
      | empty => obtain rfl := hu' rfl; exact ⟨rfl, rfl, fun _ => .empty⟩
      | commit o' a b c =>
        exfalso
        cases rev <;> cases a <;> cases b <;> cases c <;>
          simp [itemHead, Glyphs.reverseOrder, Glyphs.pretty, Glyphs.commit] at h
      | _ => exfalso; cases rev <;> simp [itemHead, Glyphs.reverseOrder, Glyphs.pretty] at h


theorem item_not_rail {p : Bool} {g : Glyphs} (hg : KnownGlyphs p g) {i : LineItem} {u x : Text} {rail : Rail}
    (hu : itemOid i = none → u = []) (h : g.rail rail ++ t!" " ++ x = itemHead g i ++ u) : False := by
  cases hg with
  | text rev =>
    cases i with
    | commit o a b c =>
      cases rail <;> cases rev <;> cases a <;> cases b <;> cases c <;>
        simp [itemHead, Glyphs.reverseOrder, Glyphs.text, Glyphs.commit, Glyphs.rail] at h
    | mergeParent o => cases rail <;> cases rev <;> simp [itemHead, Glyphs.reverseOrder, Glyphs.text, Glyphs.rail] at h
    | mergeChild o => cases rail <;> cases rev <;> simp [itemHead, Glyphs.reverseOrder, Glyphs.text, Glyphs.rail] at h
    | _ =>
      obtain rfl := hu rfl
      cases rail <;> cases rev <;> simp [itemHead, Glyphs.reverseOrder, Glyphs.text, Glyphs.rail] at h
  | pretty rev =>
    cases i with
    | commit o a b c =>
      cases rail <;> cases rev <;> cases a <;> cases b <;> cases c <;>
        simp [itemHead, Glyphs.reverseOrder, Glyphs.pretty, Glyphs.commit, Glyphs.rail] at h
    | mergeParent o => cases rail <;> cases rev <;> simp [itemHead, Glyphs.reverseOrder, Glyphs.pretty, Glyphs.rail] at h
    | mergeChild o => cases rail <;> cases rev <;> simp [itemHead, Glyphs.reverseOrder, Glyphs.pretty, Glyphs.rail] at h
    | _ =>
      obtain rfl := hu rfl
      cases rail <;> cases rev <;> simp [itemHead, Glyphs.reverseOrder, Glyphs.pretty, Glyphs.rail] at h

theorem rail_read {p : Bool} {g : Glyphs} (hg : KnownGlyphs p g) {a b : Rail} {x y : Text}
    (h : g.rail a ++ t!" " ++ x = g.rail b ++ t!" " ++ y) : a = b ∧ x = y := by
  cases hg with
  | text rev =>
    cases a <;> cases b <;> cases rev <;> simp [Glyphs.reverseOrder, Glyphs.text, Glyphs.rail] at h ⊢ <;> exact h
  | pretty rev =>
    cases a <;> cases b <;> cases rev <;> simp [Glyphs.reverseOrder, Glyphs.pretty, Glyphs.rail] at h ⊢ <;> exact h

theorem rails_read {p : Bool} {g : Glyphs} (hg : KnownGlyphs p g) {rails rails' : List Rail} {i i' : LineItem}
    {u u' : Text} (hu : itemOid i = none → u = []) (hu' : itemOid i' = none → u' = [])
    (h : (rails.flatMap fun rail => g.rail rail ++ t!" ") ++ (itemHead g i ++ u) =
      (rails'.flatMap fun rail => g.rail rail ++ t!" ") ++ (itemHead g i' ++ u')) :
    rails = rails' ∧ itemHead g i ++ u = itemHead g i' ++ u' := by
  induction rails generalizing rails' with
  | nil =>
    cases rails' with
    | nil => exact ⟨rfl, h⟩
    | cons b rails' =>
      exfalso
      simp only [List.flatMap_nil, List.nil_append, List.flatMap_cons] at h
      rw [List.append_assoc] at h
      exact item_not_rail hg hu h.symm
  | cons a rails ih =>
    cases rails' with
    | nil =>
      exfalso
      simp only [List.flatMap_nil, List.nil_append, List.flatMap_cons] at h
      rw [List.append_assoc] at h
      exact item_not_rail hg hu' h
    | cons b rails' =>
      simp only [List.flatMap_cons] at h
      rw [List.append_assoc (g.rail a ++ [' ']), List.append_assoc (g.rail b ++ [' '])] at h
      obtain ⟨rfl, h2⟩ := rail_read hg h
      obtain ⟨rfl, h4⟩ := ih h2
      exact ⟨rfl, h4⟩

/-- The lines can be read, if the descriptions tell which commit is meant. -/
theorem linesText_read {p : Bool} {g : Glyphs} (hg : KnownGlyphs p g)
    {d d' : Redactor → Oid → Option (Text × Redactor)} (P : Oid → Prop)
    (hd : ∀ r r' o o' x x', P o → P o' → d r o = some x → d' r' o' = some x' → x.1 = x'.1 → o = o')
    {r r' : Redactor} {lines lines' : List SmartlogLine} {x x' : List Text × Redactor}
    (hp : ∀ l ∈ lines, ∀ o, itemOid l.2 = some o → P o) (hp' : ∀ l ∈ lines', ∀ o, itemOid l.2 = some o → P o)
    (h : linesText g d r lines = some x) (h' : linesText g d' r' lines' = some x') (he : x.1 = x'.1) :
    List.Forall₂ (fun (l l' : SmartlogLine) => l.1 = l'.1 ∧ SameItem p l.2 l'.2) lines lines' := by
  have h1 := linesText_parts h
  have h2 := linesText_parts h'
  rw [he] at h1
  generalize x'.1 = ts at h1 h2
  clear he h h'
  induction h1 generalizing lines' with
  | nil => cases h2; exact .nil
  | cons hl hls ih =>
    cases h2 with
    | cons hl' hls' =>
      refine .cons ?_ (ih (fun l hl => hp l (List.mem_cons_of_mem _ hl))
        (fun l hl => hp' l (List.mem_cons_of_mem _ hl)) hls')
      obtain ⟨s, y, hy, ht⟩ := hl
      obtain ⟨s', y', hy', ht'⟩ := hl'
      rw [ht] at ht'
      rename_i l _ _ _ l' _
      have norm : ∀ {d r} {l : SmartlogLine} {y : Text × Redactor}, itemText g d r l.2 = some y →
          ∃ u, y.1 = itemHead g l.2 ++ u ∧ (itemOid l.2 = none → u = []) ∧
            (∀ o, itemOid l.2 = some o → ∃ z, d r o = some z ∧ u = z.1) := by
        intro d r l y hy
        rcases itemText_parts hy with ⟨h1, h2⟩ | ⟨o, z, h1, h2, h3⟩
        · exact ⟨[], by simp [h2], fun _ => rfl, fun o ho => by rw [h1] at ho; exact nomatch ho⟩
        · refine ⟨z.1, h3, fun hn => (by rw [h1] at hn; exact nomatch hn), fun o' ho => ?_⟩
          rw [h1] at ho
          obtain rfl := Option.some.inj ho
          exact ⟨z, h2, rfl⟩
      obtain ⟨u, e1, n1, o1⟩ := norm hy
      obtain ⟨u', e2, n2, o2⟩ := norm hy'
      rw [e1, e2] at ht'
      obtain ⟨hr, hi⟩ := rails_read hg n1 n2 ht'
      obtain ⟨huu, hs, hsame⟩ := items_read hg n1 n2 hi
      refine ⟨hr, hsame ?_⟩
      cases ho : itemOid l.2 with
      | none =>
        rw [ho] at hs
        cases ho' : itemOid l'.2 with
        | none => rfl
        | some o' => rw [ho'] at hs; exact nomatch hs
      | some o =>
        rw [ho] at hs
        cases ho' : itemOid l'.2 with
        | none => rw [ho'] at hs; exact nomatch hs
        | some o' =>
          obtain ⟨z, hz, rfl⟩ := o1 o ho
          obtain ⟨z', hz', rfl⟩ := o2 o' ho'
          rw [hd _ _ _ _ _ _ (hp _ List.mem_cons_self o ho) (hp' _ List.mem_cons_self o' ho') hz hz' huu]

/-! ### descriptions -/

theorem describeNode_starts {env : DescribeEnv} {arrow : Text} {rep : Replayer} {c : Cursor} {r : Redactor} {o : Oid}
    {x : Text × Redactor} (h : describeNode env arrow rep c r o = some x) :
    ∃ rest, x.1 = shortOid env o ++ ' ' :: rest := by
  unfold describeNode at h
  cases ht : describeTime env o with
  | none => rw [ht] at h; exact nomatch h
  | some time =>
    rw [ht] at h
    obtain rfl := Option.some.inj h
    dsimp only
    have key : ∀ (l : List (Option Text)) (m : Text), ∃ rest,
        joinTexts t!" " ((some (shortOid env o) :: (l ++ [some m])).filterMap id) = shortOid env o ++ ' ' :: rest := by
      intro l m
      rw [List.filterMap_cons_some (by rfl), List.filterMap_append]
      have : ([some m].filterMap id : List Text) = [m] := rfl
      rw [this]
      cases hl : l.filterMap id with
      | nil => exact ⟨m, by simp [joinTexts, List.intercalate]⟩
      | cons a l => exact ⟨joinTexts t!" " (a :: (l ++ [m])), by simp [joinTexts, List.intercalate]⟩
    exact key [_, _, _, _] _

/-! ### branches -/

/-- A comma followed by a space. -/
def hasSep : Text → Bool
  | [] => false
  | [_] => false
  | a :: b :: t => (a = ',' && b = ' ') || hasSep (b :: t)

theorem hasSep_of_no_space {t : Text} (h : ' ' ∉ t) : hasSep t = false := by
  induction t with
  | nil => rfl
  | cons a t ih =>
    cases t with
    | nil => rfl
    | cons b t =>
      unfold hasSep
      rw [ih (fun hh => h (List.mem_cons_of_mem _ hh))]
      have : b ≠ ' ' := by rintro rfl; exact h (by simp)
      simp [this]

/-- What is before and after the first comma with a space. -/
def cutSep : Text → Text × Option Text
  | [] => ([], none)
  | [a] => ([a], none)
  | a :: b :: t => if a = ',' ∧ b = ' ' then ([], some t) else
    let x := cutSep (b :: t)
    (a :: x.1, x.2)

theorem cutSep_none {t : Text} (h : hasSep t = false) : cutSep t = (t, none) := by
  induction t with
  | nil => rfl
  | cons a t ih =>
    cases t with
    | nil => rfl
    | cons b t =>
      unfold hasSep at h
      simp only [Bool.or_eq_false_iff, Bool.and_eq_false_iff, decide_eq_false_iff_not] at h
      unfold cutSep
      rw [if_neg (by rintro ⟨h1, h2⟩; rcases h.1 with hh | hh; exact hh h1; exact hh h2), ih h.2]

theorem cutSep_some {t : Text} (h : hasSep t = false) (u : Text) : cutSep (t ++ ',' :: ' ' :: u) = (t, some u) := by
  induction t with
  | nil => simp [cutSep]
  | cons a t ih =>
    cases t with
    | nil => simp [cutSep]
    | cons b t =>
      unfold hasSep at h
      simp only [Bool.or_eq_false_iff, Bool.and_eq_false_iff, decide_eq_false_iff_not] at h
      have := ih h.2
      rw [List.cons_append, List.cons_append, cutSep,
        if_neg (by rintro ⟨h1, h2⟩; rcases h.1 with hh | hh; exact hh h1; exact hh h2)]
      rw [List.cons_append] at this
      rw [this]

theorem joinTexts_read {x y : List Text} (hx : x ≠ []) (hy : y ≠ []) (hsx : ∀ t ∈ x, hasSep t = false)
    (hsy : ∀ t ∈ y, hasSep t = false) (h : joinTexts t!", " x = joinTexts t!", " y) : x = y := by
  have one : ∀ a : Text, joinTexts t!", " [a] = a := by intro a; simp [joinTexts, List.intercalate]
  have more : ∀ (a b : Text) (l : List Text), joinTexts t!", " (a :: b :: l) =
      a ++ ',' :: ' ' :: joinTexts t!", " (b :: l) := by
    intro a b l; simp [joinTexts, List.intercalate]
  induction x generalizing y with
  | nil => exact absurd rfl hx
  | cons a x ih =>
    cases y with
    | nil => exact absurd rfl hy
    | cons b y =>
      have ha := hsx a List.mem_cons_self
      have hb := hsy b List.mem_cons_self
      cases x with
      | nil =>
        cases y with
        | nil => rw [one, one] at h; rw [h]
        | cons c y =>
          rw [one, more] at h
          have := cutSep_none ha
          rw [h, cutSep_some hb] at this
          exact nomatch (Prod.mk.inj this).2
      | cons c x =>
        cases y with
        | nil =>
          rw [one, more] at h
          have := cutSep_none hb
          rw [← h, cutSep_some ha] at this
          exact nomatch (Prod.mk.inj this).2
        | cons d y =>
          rw [more, more] at h
          have := cutSep_some ha (joinTexts t!", " (c :: x))
          rw [h, cutSep_some hb] at this
          obtain ⟨h1, h2⟩ := Prod.mk.inj this
          rw [h1, ih (by simp) (by simp) (fun t ht => hsx t (List.mem_cons_of_mem _ ht))
            (fun t ht => hsy t (List.mem_cons_of_mem _ ht)) (Option.some.inj h2).symm]

theorem suffix_no_space {n : Text} (h : ' ' ∉ n) : ' ' ∉ (categorize n).renderSuffix := by
  intro hh
  have := (Props.categorize_exact n).2.2.2.1
  exact h (by rw [← this]; exact List.mem_append_right _ hh)

/-- The words of what is written for a branch. -/
def branchWords (n : Text) : Text :=
  (match categorize n with
    | .localBranch _ => []
    | .remoteBranch _ => t!"remote "
    | .otherRef _ => t!"ref ") ++ (categorize n).renderSuffix

theorem describeBranch_eq (arrow : Text) (head : Option Text) (n : Text) :
    describeBranch arrow head n = (if head = some n then arrow ++ t!" " else []) ++ branchWords n := by
  unfold describeBranch branchWords
  have hfull := (Props.categorize_exact n).2.2.1
  cases hc : categorize n <;> simp

theorem branchWords_noSep {n : Text} (h : ' ' ∉ n) : hasSep (branchWords n) = false := by
  have hs := suffix_no_space h
  have hs' := hasSep_of_no_space hs
  unfold branchWords
  generalize (categorize n).renderSuffix = s at hs hs'
  cases categorize n with
  | localBranch => exact hs'
  | remoteBranch =>
    cases s with
    | nil => rfl
    | cons a s => simpa [hasSep] using hs'
  | otherRef =>
    cases s with
    | nil => rfl
    | cons a s => simpa [hasSep] using hs'

theorem describeBranch_noSep {a : Char} (ha : a ≠ ' ') (ha' : a ≠ ',') (head : Option Text) {n : Text} (h : ' ' ∉ n) :
    hasSep (describeBranch [a] head n) = false := by
  have hw := branchWords_noSep h
  rw [describeBranch_eq]
  split
  · show hasSep (a :: ' ' :: branchWords n) = false
    generalize branchWords n = w at hw
    cases w with
    | nil => simp [hasSep, ha']
    | cons b w => simpa [hasSep, ha'] using hw
  · exact hw

theorem branchWords_read {n m : Text} (hn : ' ' ∉ n) (hm : ' ' ∉ m) (h : branchWords n = branchWords m) : n = m := by
  have h1 := suffix_no_space hn
  have h2 := suffix_no_space hm
  have key : (categorize n).pfx = (categorize m).pfx ∧ (categorize n).renderSuffix = (categorize m).renderSuffix := by
    unfold branchWords at h
    generalize hx : (categorize n).renderSuffix = x at h h1
    generalize hy : (categorize m).renderSuffix = y at h h2
    have nosp : ∀ {w s t : Text}, ' ' ∉ t → t = w ++ ' ' :: s → False := by
      intro w s t ht he
      exact ht (by rw [he]; simp)
    cases hcn : categorize n <;> cases hcm : categorize m <;> rw [hcn, hcm] at h <;> dsimp only at h
    · exact ⟨rfl, h⟩
    · exact (nosp (w := t!"remote") h1 h).elim
    · exact (nosp (w := t!"ref") h1 h).elim
    · exact (nosp (w := t!"remote") h2 h.symm).elim
    · exact ⟨rfl, List.append_cancel_left h⟩
    · simp at h
    · exact (nosp (w := t!"ref") h2 h.symm).elim
    · simp at h
    · exact ⟨rfl, List.append_cancel_left h⟩
  exact Props.render_suffix_injective n m key.1 key.2

theorem branchWords_first {n : Text} (hn : ' ' ∉ n) {a : Char} {w : Text} (ha : a ≠ ' ') (ha' : a ≠ 'r') :
    branchWords n ≠ a :: ' ' :: w := by
  intro h
  have h1 := suffix_no_space hn
  unfold branchWords at h
  cases hcn : categorize n <;> rw [hcn] at h h1 <;> dsimp only at h
  · rw [List.nil_append] at h
    rw [h] at h1
    exact h1 (by simp)
  · exact ha' (List.cons.inj h).1.symm
  · exact ha' (List.cons.inj h).1.symm

theorem describeBranch_read {a : Char} (ha : a ≠ ' ') (ha' : a ≠ 'r') {head head' : Option Text} {n m : Text}
    (hn : ' ' ∉ n) (hm : ' ' ∉ m) (h : describeBranch [a] head n = describeBranch [a] head' m) :
    n = m ∧ (head = some n ↔ head' = some n) := by
  rw [describeBranch_eq, describeBranch_eq] at h
  by_cases h1 : head = some n
  · rw [if_pos h1] at h
    by_cases h2 : head' = some m
    · rw [if_pos h2] at h
      obtain rfl := branchWords_read hn hm (List.append_cancel_left h)
      exact ⟨rfl, by simp [h1, h2]⟩
    · rw [if_neg h2] at h
      exact absurd h.symm (branchWords_first hm ha ha')
  · rw [if_neg h1] at h
    by_cases h2 : head' = some m
    · rw [if_pos h2] at h
      exact absurd h (branchWords_first hn ha ha')
    · rw [if_neg h2] at h
      obtain rfl := branchWords_read hn hm h
      exact ⟨rfl, by simp [h1, h2]⟩

end Verif.Spec
