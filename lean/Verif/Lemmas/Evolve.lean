import Verif.Model.Evolve
import Verif.Spec.Evolve
import Verif.Lemmas.Replay

/-! Helper lemmas for following rewrites. -/

namespace Verif

open Spec

/-- Index after the last event with an effect on `oid` (0 if none). -/
def lastIdx (oid : Oid) : List Event → Nat
  | [] => 0
  | e :: es => if lastIdx oid es ≠ 0 then lastIdx oid es + 1
    else if (effectOn oid e).isSome then 1 else 0

theorem lastIdx_append (oid : Oid) (es : List Event) (e : Event) :
    lastIdx oid (es ++ [e]) = if (effectOn oid e).isSome then es.length + 1 else lastIdx oid es := by
  induction es with
  | nil => simp [lastIdx]
  | cons a es ih =>
    simp only [List.cons_append, lastIdx, ih, List.length_cons]
    split <;> simp

theorem lastIdx_le (oid : Oid) (es : List Event) : lastIdx oid es ≤ es.length := by
  induction es using snocInduction with
  | h0 => simp [lastIdx]
  | h1 es e ih => rw [lastIdx_append]; split <;> simp <;> omega

theorem lastEffect_eq_get (oid : Oid) (es : List Event) :
    (lastEffect oid es).map Prod.fst =
      if lastIdx oid es = 0 then none else es[lastIdx oid es - 1]? := by
  induction es using snocInduction with
  | h0 => simp [lastIdx, lastEffect]
  | h1 es e ih =>
    rw [Replayer.lastEffect_append, lastIdx_append]
    cases h : effectOn oid e with
    | some b => simp
    | none =>
      simp only [Option.isSome_none, Bool.false_eq_true, ite_false, ih]
      split
      · rfl
      · rw [List.getElem?_append_left]
        have := lastIdx_le oid es
        omega

theorem effectOn_get_lastIdx {oid : Oid} {es : List Event} {i : Nat} {e : Event}
    (h : es[i]? = some e) (he : (effectOn oid e).isSome) : i + 1 ≤ lastIdx oid es := by
  induction es using snocInduction with
  | h0 => simp at h
  | h1 es x ih =>
    rw [lastIdx_append]
    rw [List.getElem?_append] at h
    split at h
    · have := ih h
      split <;> omega
    · have hi : i = es.length := by
        rcases Nat.lt_or_ge (i - es.length) 1 with h1 | h1
        · omega
        · rw [List.getElem?_eq_none (by simpa using h1)] at h; simp at h
      subst hi
      simp at h
      subst h
      simp [he]

/-- A rewrite of `a` to `b`: the last event of `b` is the same one, or a later one. -/
theorem rewritten_idx {es : List Event} {a b : Oid} (h : RewrittenTo es a (.nonZero b)) :
    lastIdx a es ≤ lastIdx b es ∧
      (lastIdx a es = lastIdx b es → ∀ m, ¬ RewrittenTo es b m) ∧ 0 < lastIdx a es := by
  obtain ⟨ts, tx, h, hne⟩ := h
  rw [lastEffect_eq_get] at h
  by_cases h0 : lastIdx a es = 0
  · simp [h0] at h
  · simp only [h0, ite_false] at h
    have he : (effectOn b (.rewrite ts tx (.nonZero a) (.nonZero b))).isSome := by simp [effectOn]
    have h1 := effectOn_get_lastIdx h he
    refine ⟨by omega, ?_, by omega⟩
    rintro heq m ⟨ts', tx', h', _⟩
    rw [lastEffect_eq_get, ← heq] at h'
    simp only [h0, ite_false, h, Option.some.injEq, Event.rewrite.injEq, MaybeZero.nonZero.injEq] at h'
    exact hne (by rw [h'.2.2.1])

theorem newest_idx {es : List Event} {a : Oid} {m : MaybeZero} (h : Newest es a m) :
    ∀ b, m = .nonZero b → lastIdx a es ≤ lastIdx b es ∧ b ≠ a := by
  induction h with
  | dropped _ => simp
  | @last a b h _ =>
    intro b' hb
    cases hb
    exact ⟨(rewritten_idx h).1, fun e => by obtain ⟨_, _, _, h⟩ := h; exact h (by rw [e])⟩
  | @step a b m h hn ih =>
    intro b' hb
    have h1 := rewritten_idx h
    have h2 := ih b' hb
    refine ⟨by omega, ?_⟩
    rintro rfl
    have : lastIdx b' es = lastIdx b es := by omega
    have h3 := h1.2.1 this
    cases hn with
    | dropped h => exact h3 _ h
    | last h _ => exact h3 _ h
    | step h _ => exact h3 _ h

theorem newest_iff {es : List Event} {a : Oid} {m : MaybeZero} :
    Newest es a m ↔ (RewrittenTo es a m ∧ (∀ b, m = .nonZero b → ∀ m, ¬ RewrittenTo es b m)) ∨
      ∃ b, RewrittenTo es a (.nonZero b) ∧ Newest es b m := by
  constructor
  · intro h
    cases h with
    | dropped h => exact .inl ⟨h, by simp⟩
    | last h h' => exact .inl ⟨h, by rintro _ ⟨⟩; exact h'⟩
    | step h h' => exact .inr ⟨_, h, h'⟩
  · rintro (⟨h, h'⟩ | ⟨b, h, h'⟩)
    · cases m with
      | zero => exact .dropped h
      | nonZero b => exact .last h (h' b rfl)
    · exact .step h h'

theorem rewritten_functional {es : List Event} {a : Oid} {m m' : MaybeZero}
    (h : RewrittenTo es a m) (h' : RewrittenTo es a m') : m = m' := by
  obtain ⟨_, _, h, _⟩ := h
  obtain ⟨_, _, h', _⟩ := h'
  rw [h] at h'
  simp at h'
  exact h'.2.2

/-- The recursion of the code against the specification. -/
theorem findRewriteTargetFuel_spec {r : Replayer} {c : Nat} {es : List Event}
    (hl : ∀ oid, r.latestEvent ⟨c⟩ oid = (lastEffect oid es).map Prod.fst) (fuel : Nat) (a : Oid)
    (hf : es.length + 1 < fuel + lastIdx a es) :
    ∃ res, findRewriteTargetFuel r ⟨c⟩ fuel a = some res ∧
      (∀ m, res = some m ↔ Newest es a m) ∧ (res = none ↔ ∀ m, ¬ RewrittenTo es a m) := by
  have stop : ∀ fuel a, (∀ m, ¬ RewrittenTo es a m) →
      findRewriteTargetFuel r ⟨c⟩ (fuel + 1) a = some none := by
    intro fuel a h
    unfold findRewriteTargetFuel
    rw [hl]
    split
    · rfl
    · rename_i ts tx old new heq
      split
      · rename_i hc
        obtain ⟨rfl, hc⟩ := hc
        exact absurd ⟨ts, tx, heq, hc⟩ (h new)
      · rfl
    · rfl
  induction fuel generalizing a with
  | zero => have := lastIdx_le a es; omega
  | succ fuel ih =>
    by_cases h : ∃ m, RewrittenTo es a m
    · obtain ⟨m, h⟩ := h
      have hfun := h
      obtain ⟨ts, tx, heq, hne⟩ := h
      unfold findRewriteTargetFuel
      rw [hl, heq]
      simp only [true_and]
      rw [if_pos hne]
      cases m with
      | zero =>
        refine ⟨_, rfl, fun m => ?_, by simp; exact ⟨_, hfun⟩⟩
        simp only [Option.some.injEq]
        constructor
        · rintro rfl; exact .dropped hfun
        · intro hn
          cases hn with
          | dropped _ => rfl
          | last h _ => exact rewritten_functional hfun h
          | step h _ => cases rewritten_functional hfun h
      | nonZero b =>
        have hi := rewritten_idx hfun
        by_cases hb : ∃ m, RewrittenTo es b m
        · have hlt : lastIdx a es < lastIdx b es := by
            rcases Nat.lt_or_ge (lastIdx a es) (lastIdx b es) with h | h
            · exact h
            · exact absurd hb (by have := hi.2.1 (by omega); simpa using this)
          have := lastIdx_le b es
          have ⟨res, h1, h2, h3⟩ := ih b (by omega)
          simp only [h1]
          cases res with
          | none => exact absurd hb (by simpa using h3.1 rfl)
          | some m =>
            refine ⟨some m, rfl, fun m' => ?_, by simp; exact ⟨_, hfun⟩⟩
            rw [h2 m']
            constructor
            · exact .step hfun
            · intro hn
              cases hn with
              | dropped h => cases rewritten_functional hfun h
              | last h h' =>
                cases rewritten_functional hfun h
                obtain ⟨x, hx⟩ := hb
                exact absurd hx (h' x)
              | step h h' => cases rewritten_functional hfun h; exact h'
        · have hb' : ∀ m, ¬ RewrittenTo es b m := by simpa using hb
          obtain ⟨fuel, rfl⟩ : ∃ k, fuel = k + 1 := ⟨fuel - 1, by have := lastIdx_le a es; omega⟩
          simp only [stop fuel b hb']
          refine ⟨_, rfl, fun m => ?_, by simp; exact ⟨_, hfun⟩⟩
          simp only [Option.some.injEq]
          constructor
          · rintro rfl; exact .last hfun hb'
          · intro hn
            cases hn with
            | dropped h => exact rewritten_functional hfun h
            | last h _ => exact rewritten_functional hfun h
            | step h h' =>
              cases rewritten_functional hfun h
              rcases newest_iff.1 h' with ⟨h, _⟩ | ⟨_, h, _⟩ <;> exact absurd h (hb' _)
    · have h : ∀ m, ¬ RewrittenTo es a m := by simpa using h
      refine ⟨none, stop fuel a h, fun m => ?_, by simpa using h⟩
      simp only [reduceCtorEq, false_iff]
      intro hn
      rcases newest_iff.1 hn with ⟨h', _⟩ | ⟨_, h', _⟩ <;> exact h _ h'

end Verif
