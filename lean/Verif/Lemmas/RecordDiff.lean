import Verif.Spec.RecordDiff
import Verif.Lemmas.Snapshot

/-!
Lemmas about the sections which `record --interactive` offers.
-/

namespace Verif.Spec

open Verif

/-! ### lines -/

theorem splitInclusive_flatten (t : Text) : (splitInclusive t).flatten = t := by
  induction t with
  | nil => rfl
  | cons c cs ih =>
    unfold splitInclusive
    by_cases hc : c = '\n'
    · rw [if_pos hc, List.flatten_cons, ih]; rfl
    · rw [if_neg hc]
      cases h : splitInclusive cs with
      | nil => rw [h] at ih; simp only [List.flatten_nil] at ih; subst ih; rfl
      | cons l ls => rw [h] at ih; simp only [List.flatten_cons] at ih ⊢; rw [← ih]; rfl

/-- Lines in the sense of the specification are what `split_inclusive` gives. -/
theorem IsLines.eq {t : Text} {ls : List Text} (h : IsLines t ls) : splitInclusive t = ls := by
  induction ls generalizing t with
  | nil => have := h.joined; simp only [List.flatten_nil] at this; subst this; rfl
  | cons l ls ih =>
    have hrest : IsLines ls.flatten ls := by
      refine ⟨rfl, fun x hx => h.nonempty x (List.mem_cons_of_mem _ hx),
        fun x hx => h.single x (List.mem_cons_of_mem _ hx), fun x hx => h.ended x ?_⟩
      cases ls with
      | nil => cases hx
      | cons y ys => rw [List.dropLast_cons_of_ne_nil (by simp)]; exact List.mem_cons_of_mem _ hx
    have hl := h.nonempty l List.mem_cons_self
    have hs := h.single l List.mem_cons_self
    have he : ls ≠ [] → l.getLast? = some '\n' := by
      intro hne
      refine h.ended l ?_
      rw [List.dropLast_cons_of_ne_nil hne]; exact List.mem_cons_self
    have hi := ih hrest
    rw [← h.joined, List.flatten_cons]
    clear h ih
    induction l with
    | nil => exact absurd rfl hl
    | cons c cs ihl =>
      cases cs with
      | nil =>
        rw [List.singleton_append]
        unfold splitInclusive
        by_cases hc : c = '\n'
        · rw [if_pos hc, hi]
        · rw [if_neg hc]
          have : ls = [] := by
            by_contra hne
            have := he hne
            simp only [List.getLast?_singleton, Option.some.injEq] at this
            exact hc this
          subst this
          rfl
      | cons d ds =>
        have hc : c ≠ '\n' := by
          intro hc
          apply hs
          rw [hc, List.dropLast_cons_of_ne_nil (by simp)]
          exact List.mem_cons_self
        have := ihl (by simp) (fun hm => hs (by
          rw [List.dropLast_cons_of_ne_nil (by simp)]; exact List.mem_cons_of_mem _ hm))
          (fun hne => by
            have := he hne
            rw [List.getLast?_cons_cons] at this
            exact this)
        rw [List.cons_append]
        unfold splitInclusive
        rw [if_neg hc, this]

theorem FileLines.read {env : DiffEnv} {oid : MaybeZero} {ls : List Text} (h : FileLines env oid ls) :
    (oid = .zero ∧ ls = [] ∧ linesFromBlob env oid = .ok .absent) ∨
    linesFromBlob env oid = .ok (.text ls) := by
  rcases h with ⟨rfl, rfl⟩ | ⟨o, b, t, rfl, hb, hn, ht, hl⟩
  · exact .inl ⟨rfl, rfl, rfl⟩
  · right
    simp only [linesFromBlob, hb, hn, ht, hl.eq, Bool.false_eq_true, if_false]

/-! ### the loop over the hunks -/

/-- The lines of a changed section. -/
def changeLines (r a : List Text) : List ChangedLine :=
  r.map (ChangedLine.mk false .removed) ++ a.map (ChangedLine.mk false .added)

/-- The sections for a comparison, if some unchanged lines are in no section yet; and the unchanged lines
which remain. -/
def sectionsOf : List Text → List Piece → List FileSection × List Text
  | pending, [] => ([], pending)
  | pending, .same ls :: ps => sectionsOf (pending ++ ls) ps
  | pending, .change r a :: ps =>
    (.unchanged pending :: .changed (changeLines r a) :: (sectionsOf [] ps).1, (sectionsOf [] ps).2)

theorem zeroBased_range (pos : Nat) (ls : List Text) :
    zeroBased (rangeStart pos ls) ls.length =
      .ok (if ls = [] then pos - 1 else pos, decide (ls = [] ∧ pos = 0)) := by
  unfold zeroBased rangeStart
  cases ls with
  | nil =>
    cases pos with
    | zero => simp
    | succ n => simp
  | cons l ls => simp

theorem sliceLines_ok {ls : List Text} {a b : Nat} (h1 : a ≤ b) (h2 : b ≤ ls.length) :
    sliceLines ls a b = .ok ((ls.drop a).take (b - a)) := if_pos ⟨h1, h2⟩

/-- One hunk. -/
theorem textHunk_piece {before after r a rest rest' : List Text} {o n idx : Nat}
    {sections : List FileSection} (hb : before.drop o = r ++ rest) (ha : after.drop n = a ++ rest')
    (ho : o ≤ before.length) (hn : n ≤ after.length) (hne : r ≠ [] ∨ a ≠ [])
    (hi : idx < o ∨ (o = 0 ∧ idx = 0)) :
    textHunk before after (idx, sections) ⟨rangeStart o r, r.length, rangeStart n a, a.length⟩ =
      .ok (o + r.length, sections ++ [.unchanged ((before.drop idx).take (o - idx)),
        .changed (changeLines r a)]) := by
  have hrl : o + r.length ≤ before.length := by
    have := congrArg List.length hb
    rw [List.length_drop, List.length_append] at this
    omega
  have hal : n + a.length ≤ after.length := by
    have := congrArg List.length ha
    rw [List.length_drop, List.length_append] at this
    omega
  have hstep : unchangedBefore before idx (if r = [] then o - 1 else o) r.length
      (decide (r = [] ∧ o = 0)) sections =
      .ok (o + r.length, sections ++ [.unchanged ((before.drop idx).take (o - idx))]) := by
    unfold unchangedBefore
    cases r with
    | nil =>
      rcases hi with hi | ⟨rfl, rfl⟩
      · have h0 : o ≠ 0 := by omega
        rw [if_pos (by simp; omega)]
        simp only [List.length_nil, if_true, true_and, h0, decide_false, Bool.not_false, Nat.add_zero]
        rw [show o - 1 + 1 = o by omega, sliceLines_ok (by omega) ho]
      · simp [sliceLines_ok (Nat.le_refl 0) (Nat.zero_le _)]
    | cons l ls =>
      have : idx ≤ o := by omega
      simp only [reduceCtorEq, if_false, false_and, decide_false, List.length_cons, Nat.succ_ne_zero,
        if_pos this]
      rw [sliceLines_ok this ho]
  have hrem : sliceLines before (if r = [] then o - 1 else o) ((if r = [] then o - 1 else o) + r.length) =
      .ok r := by
    cases r with
    | nil =>
      rw [sliceLines_ok (by simp) (by simp; omega)]
      simp
    | cons l ls =>
      simp only [reduceCtorEq, if_false]
      rw [sliceLines_ok (by omega) hrl, hb, Nat.add_sub_cancel_left, List.take_left]
  have hadd : sliceLines after (if a = [] then n - 1 else n) ((if a = [] then n - 1 else n) + a.length) =
      .ok a := by
    cases a with
    | nil =>
      rw [sliceLines_ok (by simp) (by simp; omega)]
      simp
    | cons l ls =>
      simp only [reduceCtorEq, if_false]
      rw [sliceLines_ok (by omega) hal, ha, Nat.add_sub_cancel_left, List.take_left]
  have hcl : (changeLines r a).isEmpty = false := by
    rw [List.isEmpty_eq_false_iff]
    unfold changeLines
    rcases hne with h | h <;> simp [h]
  unfold textHunk
  simp only [zeroBased_range]
  show (do
    let (idx, sections) ← unchangedBefore before idx (if r = [] then o - 1 else o) r.length
      (decide (r = [] ∧ o = 0)) sections
    let removed ← sliceLines before (if r = [] then o - 1 else o) ((if r = [] then o - 1 else o) + r.length)
    let added ← sliceLines after (if a = [] then n - 1 else n) ((if a = [] then n - 1 else n) + a.length)
    let lines := removed.map (ChangedLine.mk false .removed) ++ added.map (ChangedLine.mk false .added)
    if lines.isEmpty then Except.ok (idx, sections) else .ok (idx, sections ++ [FileSection.changed lines])) = _
  rw [hstep, hrem, hadd]
  show (if (changeLines r a).isEmpty then Except.ok (o + r.length, _) else .ok (o + r.length, _)) = _
  rw [hcl, if_neg (by simp), List.append_assoc]
  rfl

/-- The loop. -/
theorem foldlM_textHunk (before after : List Text) (ps : List Piece) (hsep : Separated ps) :
    ∀ (o n idx : Nat) (sections : List FileSection), before.drop o = oldOf ps → after.drop n = newOf ps →
      o ≤ before.length → n ≤ after.length → idx ≤ o →
      (startsChanged ps = true → idx < o ∨ (o = 0 ∧ idx = 0)) →
      ∃ idx', (hunksOf o n ps).foldlM (textHunk before after) (idx, sections) =
          .ok (idx', sections ++ (sectionsOf ((before.drop idx).take (o - idx)) ps).1) ∧
        before.drop idx' = (sectionsOf ((before.drop idx).take (o - idx)) ps).2 := by
  induction ps with
  | nil =>
    intro o n idx sections hb ha ho hn hio _
    refine ⟨idx, by simp [hunksOf, sectionsOf]; rfl, ?_⟩
    simp only [sectionsOf]
    have : before.length = o := by
      have := congrArg List.length hb
      simp only [List.length_drop, oldOf, List.length_nil] at this
      omega
    rw [List.take_of_length_le (by rw [List.length_drop]; omega)]
  | cons p ps ih =>
    intro o n idx sections hb ha ho hn hio hst
    cases p with
    | same ls =>
      have hbl : before.drop (o + ls.length) = oldOf ps := by
        rw [← List.drop_drop, hb]; simp [oldOf]
      have hal : after.drop (n + ls.length) = newOf ps := by
        rw [← List.drop_drop, ha]; simp [newOf]
      have hlen : o + ls.length ≤ before.length := by
        have := congrArg List.length hb
        simp only [List.length_drop, oldOf, List.length_append] at this
        omega
      have hlen' : n + ls.length ≤ after.length := by
        have := congrArg List.length ha
        simp only [List.length_drop, newOf, List.length_append] at this
        omega
      have hpos : 0 < ls.length := List.length_pos_iff.2 hsep.1
      obtain ⟨idx', h1, h2⟩ := ih hsep.2 (o + ls.length) (n + ls.length) idx sections hbl hal hlen hlen'
        (by omega) (fun _ => .inl (by omega))
      have hp : (before.drop idx).take (o + ls.length - idx) = (before.drop idx).take (o - idx) ++ ls := by
        rw [show o + ls.length - idx = (o - idx) + ls.length by omega, List.take_add, List.drop_drop,
          show idx + (o - idx) = o by omega, hb]
        simp [oldOf]
      rw [hp] at h1 h2
      exact ⟨idx', h1, h2⟩
    | change r a =>
      obtain ⟨hne, hns, hsep'⟩ := hsep
      have hbl : before.drop (o + r.length) = oldOf ps := by
        rw [← List.drop_drop, hb]; simp [oldOf]
      have hal : after.drop (n + a.length) = newOf ps := by
        rw [← List.drop_drop, ha]; simp [newOf]
      have hlen : o + r.length ≤ before.length := by
        have := congrArg List.length hb
        simp only [List.length_drop, oldOf, List.length_append] at this
        omega
      have hlen' : n + a.length ≤ after.length := by
        have := congrArg List.length ha
        simp only [List.length_drop, newOf, List.length_append] at this
        omega
      obtain ⟨idx', h1, h2⟩ := ih hsep' (o + r.length) (n + a.length) (o + r.length)
        (sections ++ [.unchanged ((before.drop idx).take (o - idx)), .changed (changeLines r a)]) hbl hal hlen
        hlen' (Nat.le_refl _) (fun h => by rw [hns] at h; cases h)
      rw [Nat.sub_self, List.take_zero] at h1 h2
      refine ⟨idx', ?_, h2⟩
      simp only [hunksOf, List.foldlM_cons]
      rw [textHunk_piece (by rw [hb]; rfl) (by rw [ha]; rfl) ho hn hne (hst rfl)]
      show (hunksOf _ _ ps).foldlM _ _ = _
      rw [h1]
      simp [sectionsOf]

/-! ### the hunks are in order -/

theorem hunksOf_ge (ps : List Piece) : ∀ o n, ∀ h ∈ hunksOf o n ps,
    o ≤ h.oldStart ∧ (startsChanged ps = false → Separated ps → o < h.oldStart) := by
  induction ps with
  | nil => intro o n h hh; cases hh
  | cons p ps ih =>
    intro o n h hh
    cases p with
    | same ls =>
      have := (ih _ _ h hh).1
      refine ⟨by omega, fun _ hs => ?_⟩
      have := List.length_pos_iff.2 hs.1
      omega
    | change r a =>
      refine ⟨?_, fun h => by cases h⟩
      rcases List.mem_cons.1 hh with rfl | hh
      · simp only [rangeStart]; split <;> omega
      · have := (ih _ _ h hh).1
        omega

theorem hunksOf_sorted (ps : List Piece) (hs : Separated ps) : ∀ o n, (hunksOf o n ps).Pairwise hunkLe := by
  induction ps with
  | nil => intro o n; exact .nil
  | cons p ps ih =>
    intro o n
    cases p with
    | same ls => exact ih hs.2 _ _
    | change r a =>
      obtain ⟨hne, hns, hsep'⟩ := hs
      refine List.pairwise_cons.2 ⟨fun h hh => .inl ?_, ih hsep' _ _⟩
      have := (hunksOf_ge ps _ _ h hh).2 hns hsep'
      simp only [rangeStart]
      split
      · omega
      · rename_i hr
        have := List.length_pos_iff.2 hr
        omega

/-! ### what the sections say -/

theorem chosenLines_append (a b : List FileSection) : chosenLines (a ++ b) = chosenLines a ++ chosenLines b := by
  simp [chosenLines]

theorem chosenIn_changeLines (b : Bool) (r a : List Text) :
    chosenIn (markSection b (.changed (changeLines r a))) = if b then a else r := by
  simp only [markSection, chosenIn, changeLines, List.map_append, List.map_map, List.filter_append]
  cases b
  · rw [List.filter_eq_self.2, List.filter_eq_nil_iff.2]
    · simp [Function.comp_def]
    · intro l hl
      obtain ⟨x, _, rfl⟩ := List.mem_map.1 hl
      simp
    · intro l hl
      obtain ⟨x, _, rfl⟩ := List.mem_map.1 hl
      simp
  · rw [List.filter_eq_nil_iff.2, List.filter_eq_self.2]
    · simp [Function.comp_def]
    · intro l hl
      obtain ⟨x, _, rfl⟩ := List.mem_map.1 hl
      simp
    · intro l hl
      obtain ⟨x, _, rfl⟩ := List.mem_map.1 hl
      simp

theorem offered_changeLines (r a : List Text) :
    (((changeLines r a).filter (·.change = .removed)).map (·.line),
      ((changeLines r a).filter (·.change = .added)).map (·.line)) = (r, a) := by
  have h1 : ∀ c (ls : List Text), ((ls.map (ChangedLine.mk false c)).filter (·.change = c)).map (·.line) = ls := by
    intro c ls
    rw [List.filter_eq_self.2]
    · simp [Function.comp_def]
    · intro l hl
      obtain ⟨x, _, rfl⟩ := List.mem_map.1 hl
      simp
  have h2 : ∀ c c' (ls : List Text), c ≠ c' →
      ((ls.map (ChangedLine.mk false c)).filter (·.change = c')) = [] := by
    intro c c' ls hc
    rw [List.filter_eq_nil_iff]
    intro l hl
    obtain ⟨x, _, rfl⟩ := List.mem_map.1 hl
    simpa using hc
  simp only [changeLines, List.filter_append, List.map_append, h1, h2 .removed .added _ (by simp),
    h2 .added .removed _ (by simp), List.map_nil, List.append_nil, List.nil_append]

theorem sectionsOf_text (ps : List Piece) : ∀ pending, ∀ s ∈ (sectionsOf pending ps).1,
    FileSection.IsText s := by
  induction ps with
  | nil => intro pending s hs; cases hs
  | cons p ps ih =>
    intro pending s hs
    cases p with
    | same ls => exact ih _ s hs
    | change r a =>
      simp only [sectionsOf, List.mem_cons] at hs
      rcases hs with rfl | rfl | hs
      · trivial
      · trivial
      · exact ih _ s hs

theorem sectionsOf_unmarked (ps : List Piece) : ∀ pending,
    (sectionsOf pending ps).1.map (markSection false) = (sectionsOf pending ps).1 := by
  induction ps with
  | nil => intro pending; rfl
  | cons p ps ih =>
    intro pending
    cases p with
    | same ls => exact ih _
    | change r a =>
      simp only [sectionsOf, List.map_cons, ih, markSection, changeLines, List.map_append, List.map_map]
      rfl

theorem sectionsOf_changes (ps : List Piece) : ∀ pending,
    offeredChanges (sectionsOf pending ps).1 = changesOf ps := by
  induction ps with
  | nil => intro pending; rfl
  | cons p ps ih =>
    intro pending
    cases p with
    | same ls => exact ih _
    | change r a =>
      simp only [sectionsOf, offeredChanges, changesOf, ih, offered_changeLines]

theorem sectionsOf_marked (b : Bool) (ps : List Piece) : ∀ pending,
    chosenLines ((sectionsOf pending ps).1.map (markSection b)) ++ (sectionsOf pending ps).2 =
      pending ++ if b then newOf ps else oldOf ps := by
  induction ps with
  | nil => intro pending; cases b <;> simp [sectionsOf, chosenLines, oldOf, newOf]
  | cons p ps ih =>
    intro pending
    cases p with
    | same ls =>
      have := ih (pending ++ ls)
      simp only [sectionsOf]
      rw [this]
      cases b <;> simp [oldOf, newOf]
    | change r a =>
      have := ih []
      simp only [List.nil_append] at this
      simp only [sectionsOf, List.map_cons, chosenLines, List.flatMap_cons, chosenIn_changeLines]
      simp only [chosenLines] at this
      rw [List.append_assoc, List.append_assoc, this]
      cases b <;> simp [oldOf, newOf, markSection, chosenIn]

theorem sectionsOf_mixed (choice : Nat → Bool) (ps : List Piece) : ∀ pending i rest,
    (∀ s ∈ rest, ∃ ls, s = FileSection.unchanged ls) → chosenLines rest = (sectionsOf pending ps).2 →
    chosenLines (markChanges choice i ((sectionsOf pending ps).1 ++ rest)) = pending ++ mixOf choice i ps := by
  have hrest : ∀ i (rest : List FileSection), (∀ s ∈ rest, ∃ ls, s = FileSection.unchanged ls) →
      markChanges choice i rest = rest := by
    intro i rest
    induction rest with
    | nil => intro _; rfl
    | cons s ss ih =>
      intro h
      obtain ⟨ls, rfl⟩ := h s List.mem_cons_self
      simp only [markChanges]
      rw [ih fun s hs => h s (List.mem_cons_of_mem _ hs)]
  induction ps with
  | nil =>
    intro pending i rest hr hc
    simp only [sectionsOf, List.nil_append, mixOf, List.append_nil] at hc ⊢
    rw [hrest i rest hr, hc]
  | cons p ps ih =>
    intro pending i rest hr hc
    cases p with
    | same ls =>
      simp only [sectionsOf] at hc ⊢
      rw [ih _ i rest hr hc]
      simp [mixOf]
    | change r a =>
      simp only [sectionsOf] at hc
      have := ih [] (i + 1) rest hr hc
      simp only [chosenLines] at this
      simp only [sectionsOf, List.cons_append, markChanges, chosenLines, List.flatMap_cons, this,
        chosenIn_changeLines, mixOf, List.nil_append]
      rfl

/-- The sections of a comparison, with the rest of the file. -/
theorem textOffer_sections (ps : List Piece) :
    TextOffer ps ((sectionsOf [] ps).1 ++
      if (sectionsOf [] ps).2 = [] then [] else [.unchanged (sectionsOf [] ps).2]) := by
  have hc : chosenLines (if (sectionsOf [] ps).2 = [] then [] else [.unchanged (sectionsOf [] ps).2]) =
      (sectionsOf [] ps).2 := by
    split
    · rename_i h; rw [h]; rfl
    · simp [chosenLines, chosenIn]
  have hm : ∀ b, (if (sectionsOf [] ps).2 = [] then []
      else [FileSection.unchanged (sectionsOf [] ps).2]).map (markSection b) =
        if (sectionsOf [] ps).2 = [] then [] else [.unchanged (sectionsOf [] ps).2] := by
    intro b; split <;> rfl
  refine ⟨?_, ?_, ?_, ?_, ?_, ?_⟩
  · intro s hs
    rcases List.mem_append.1 hs with hs | hs
    · exact sectionsOf_text ps _ s hs
    · split at hs
      · cases hs
      · rw [List.mem_singleton] at hs; subst hs; trivial
  · rw [List.map_append, sectionsOf_unmarked, hm]
  · rw [← sectionsOf_changes ps []]
    generalize (sectionsOf [] ps).2 = rest
    generalize (sectionsOf [] ps).1 = ss
    induction ss with
    | nil => simp only [List.nil_append]; split <;> rfl
    | cons s ss ih => cases s <;> simp only [List.cons_append, offeredChanges, ih]
  · rw [List.map_append, chosenLines_append, hm, hc]
    simpa using sectionsOf_marked false ps []
  · rw [List.map_append, chosenLines_append, hm, hc]
    simpa using sectionsOf_marked true ps []
  · intro choice
    have := sectionsOf_mixed choice ps [] 0 _ (by
      intro s hs
      split at hs
      · cases hs
      · rw [List.mem_singleton] at hs; exact ⟨_, hs⟩) hc
    simpa using this

/-! ### one file -/

theorem hunkStep_text {env : DiffEnv} {d : Delta} {cb ca : BlobContents} {b a : List Text}
    (hb : cb = .text b ∨ (cb = .absent ∧ b = [])) (ha : ca = .text a ∨ (ca = .absent ∧ a = [])) :
    hunkStep env d cb ca = textHunk b a := by
  funext st h
  unfold hunkStep hunkLines
  rcases hb with rfl | ⟨rfl, rfl⟩ <;> rcases ha with rfl | ⟨rfl, rfl⟩ <;> rfl

instance hunkLe_trans : IsTrans Hunk hunkLe := ⟨fun a b c h1 h2 => by unfold hunkLe at *; omega⟩

instance hunkLe_total : Std.Total hunkLe := ⟨fun a b => by unfold hunkLe; omega⟩

theorem sort_hunksOf (ps : List Piece) (hs : Separated ps) (o n : Nat) :
    (hunksOf o n ps).insertionSort hunkLe = hunksOf o n ps :=
  (hunksOf_sorted ps hs o n).insertionSort_eq

/-- The sections for a text file. -/
theorem processDelta_text {env : DiffEnv} {path : TreePath} {d : Delta} {ps : List Piece}
    (hadd : env.addFails path = false) (hnew : d.newOid ≠ .zero) (hc : d.content = .hunks (hunksOf 0 0 ps))
    (hs : Separated ps) (hold : FileLines env d.oldOid (oldOf ps)) (hnewl : FileLines env d.newOid (newOf ps)) :
    processDelta env path d = .ok ⟨path, some d.oldMode, modeSection d.oldMode d.newMode ++
      ((sectionsOf [] ps).1 ++ if (sectionsOf [] ps).2 = [] then [] else [.unchanged (sectionsOf [] ps).2])⟩ := by
  obtain ⟨cb, hcb, hb⟩ : ∃ cb, linesFromBlob env d.oldOid = .ok cb ∧
      (cb = .text (oldOf ps) ∨ (cb = .absent ∧ oldOf ps = [])) := by
    rcases hold.read with ⟨_, h1, h2⟩ | h
    · exact ⟨_, h2, .inr ⟨rfl, h1⟩⟩
    · exact ⟨_, h, .inl rfl⟩
  obtain ⟨ca, hca, ha⟩ : ∃ ca, linesFromBlob env d.newOid = .ok ca ∧
      (ca = .text (newOf ps) ∨ (ca = .absent ∧ newOf ps = [])) := by
    rcases hnewl.read with ⟨_, h1, h2⟩ | h
    · exact ⟨_, h2, .inr ⟨rfl, h1⟩⟩
    · exact ⟨_, h, .inl rfl⟩
  obtain ⟨idx, h1, h2⟩ := foldlM_textHunk (oldOf ps) (newOf ps) ps hs 0 0 0 [] rfl rfl (Nat.zero_le _)
    (Nat.zero_le _) (Nat.le_refl _) (fun _ => .inr ⟨rfl, rfl⟩)
  simp only [List.drop_zero, Nat.sub_zero, List.take_zero, List.nil_append] at h1 h2
  have hrest : restOfFile cb (idx, (sectionsOf [] ps).1) = (sectionsOf [] ps).1 ++
      if (sectionsOf [] ps).2 = [] then [] else [.unchanged (sectionsOf [] ps).2] := by
    unfold restOfFile
    rcases hb with rfl | ⟨rfl, h⟩
    · simp only
      rw [h2]
      have : idx < (oldOf ps).length ↔ (sectionsOf [] ps).2 ≠ [] := by
        rw [← h2, Ne, List.drop_eq_nil_iff]; omega
      split
      · rename_i hlt; rw [if_neg (this.1 hlt)]
      · rename_i hlt; rw [if_pos (not_not.1 fun h => hlt (this.2 h)), List.append_nil]
    · rw [h, List.drop_nil] at h2
      rw [← h2, if_pos rfl, List.append_nil]
  unfold processDelta
  rw [if_neg hnew, hc]
  simp only [hadd, sort_hunksOf ps hs]
  show (do
    let before ← linesFromBlob env d.oldOid
    let after ← linesFromBlob env d.newOid
    let st ← (hunksOf 0 0 ps).foldlM (hunkStep env d before after) (0, [])
    Except.ok (RecordFile.mk path (some d.oldMode) ((if d.oldMode ≠ d.newMode then
      [FileSection.fileMode false d.oldMode d.newMode] else []) ++ restOfFile before st))) = _
  rw [hcb, hca]
  show (do
    let st ← (hunksOf 0 0 ps).foldlM (hunkStep env d cb ca) (0, [])
    Except.ok (RecordFile.mk path (some d.oldMode) ((if d.oldMode ≠ d.newMode then
      [FileSection.fileMode false d.oldMode d.newMode] else []) ++ restOfFile cb st))) = _
  rw [hunkStep_text hb ha, h1]
  show Except.ok (RecordFile.mk path (some d.oldMode) ((if d.oldMode ≠ d.newMode then
      [FileSection.fileMode false d.oldMode d.newMode] else []) ++ restOfFile cb (idx, (sectionsOf [] ps).1))) = _
  rw [hrest]
  congr 3
  unfold modeSection
  by_cases h : d.oldMode = d.newMode <;> simp [h]

end Verif.Spec
