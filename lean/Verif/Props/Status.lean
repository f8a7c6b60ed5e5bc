import Verif.Lemmas.Status
import Verif.Model.Reference

/-! C36 (reading `git status`) and C49 (reference names and file modes). -/

namespace Verif.Props

open Verif Verif.Spec

/-! ## C36 -/

theorem text_first {e : GitEntry} : ∃ c s, e.text = c :: s ∧ (c = '1' ∨ c = 'u' ∨ c = '2') ∧
    (c = '2' ↔ ∃ x y sub mH mI mW hH hI copy score path orig,
      e = .renamed x y sub mH mI mW hH hI copy score path orig) := by
  cases e with
  | ordinary => exact ⟨'1', _, rfl, by simp, by simp⟩
  | renamed => exact ⟨'2', _, rfl, by simp, by simp⟩
  | unmerged => exact ⟨'u', _, rfl, by simp, by simp⟩

theorem nul_not_mem_fields {fs : List Text} (h : ∀ f ∈ fs, '\x00' ∉ f) : '\x00' ∉ fields fs := by
  intro hm
  obtain ⟨f, hf, hm⟩ := List.mem_flatMap.1 hm
  simp only [List.mem_append, List.mem_singleton] at hm
  rcases hm with hm | hm
  · exact h f hf hm
  · exact absurd hm (by decide)

theorem nul_not_mem_mode (m : FileMode) : '\x00' ∉ m.toText := by cases m <;> decide
theorem nul_not_mem_sub (s : Submodule) : '\x00' ∉ s.text := by
  cases s with
  | no => decide
  | yes c m u => cases c <;> cases m <;> cases u <;> decide
theorem nul_not_mem_letter (x : Letter) : '\x00' ≠ x.char := by cases x <;> decide
theorem nul_not_mem_oid (o : MaybeZero) : '\x00' ∉ o.toText := by
  intro h
  obtain ⟨d, hd, he⟩ := MaybeZero.mem_toText h
  revert he; revert hd; revert d; decide
theorem nul_not_mem_nat (n : Nat) : '\x00' ∉ natToText n := by
  intro h
  obtain ⟨d, hd, he⟩ := mem_natToText h
  revert he; revert hd; revert d; decide

theorem parse_entry {k : CharClasses} {e : GitEntry} (hv : e.Valid) (hp : e.Plain k) (fuel : Nat)
    (rest : Text) :
    parseStatus k (fuel + 1) (e.text ++ '\x00' :: rest) =
      match parseStatus k fuel rest with
      | none => none
      | some (.error err) => some (.error err)
      | some (.ok es) => some (.ok (e.expected :: es)) := by
  have hl := ofLine_text hv hp
  cases e with
  | ordinary x y sub mH mI mW hH hI path =>
    obtain ⟨v1, v2⟩ := hv
    have hn : '\x00' ∉ GitEntry.text (.ordinary x y sub mH mI mW hH hI path) := by
      simp only [GitEntry.text, List.mem_append, not_or]
      refine ⟨nul_not_mem_fields ?_, v2⟩
      simp [nul_not_mem_mode, nul_not_mem_sub, nul_not_mem_letter, nul_not_mem_oid]
    have ht := takeEntry_nul hn rest
    generalize hg : GitEntry.text (.ordinary x y sub mH mI mW hH hI path) = t at *
    obtain ⟨s, rfl⟩ : ∃ s, t = '1' :: s := ⟨_, hg.symm⟩
    rw [List.cons_append] at ht ⊢
    simp only [parseStatus, ht]
    simp [hl]
    rfl
  | renamed x y sub mH mI mW hH hI copy score path orig =>
    obtain ⟨v0, v1, v2, v3, v4⟩ := hv
    generalize hf : fields [t!"2", [x.char, y.char], sub.text, mH.toText, mI.toText, mW.toText, hH.toText,
      hI.toText, (if copy then 'C' else 'R') :: natToText score] = f
    have hfn : '\x00' ∉ f := by
      rw [← hf]
      apply nul_not_mem_fields
      simp only [List.mem_cons, List.not_mem_nil, or_false, forall_eq_or_imp, forall_eq, not_or]
      refine ⟨by decide, ⟨nul_not_mem_letter x, nul_not_mem_letter y⟩, nul_not_mem_sub _, nul_not_mem_mode _,
        nul_not_mem_mode _, nul_not_mem_mode _, nul_not_mem_oid _, nul_not_mem_oid _, ?_, nul_not_mem_nat _⟩
      cases copy <;> decide
    have hg : GitEntry.text (.renamed x y sub mH mI mW hH hI copy score path orig)
        = f ++ (path ++ '\x00' :: orig) := by rw [← hf]; rfl
    have hn1 : '\x00' ∉ f ++ path := by simp [hfn, v2]
    have ht1 := takeEntry_nul hn1 (orig ++ '\x00' :: rest)
    have ht2 := takeEntry_nul v4 rest
    have hs : GitEntry.text (.renamed x y sub mH mI mW hH hI copy score path orig) ++ '\x00' :: rest
        = (f ++ path) ++ '\x00' :: (orig ++ '\x00' :: rest) := by rw [hg]; simp
    rw [hg] at hl
    rw [hs]
    obtain ⟨s, rfl⟩ : ∃ s, f = '2' :: s := ⟨_, hf.symm⟩
    simp only [List.cons_append, List.append_assoc] at ht1 hl ⊢
    simp only [parseStatus, ht1, ht2]
    simp [hl]
    rfl
  | unmerged x y sub m1 m2 m3 mW h1 h2 h3 path =>
    obtain ⟨v1, v2⟩ := hv
    have hn : '\x00' ∉ GitEntry.text (.unmerged x y sub m1 m2 m3 mW h1 h2 h3 path) := by
      simp only [GitEntry.text, List.mem_append, not_or]
      refine ⟨nul_not_mem_fields ?_, v2⟩
      simp [nul_not_mem_mode, nul_not_mem_sub, nul_not_mem_letter, nul_not_mem_oid]
    have ht := takeEntry_nul hn rest
    generalize hg : GitEntry.text (.unmerged x y sub m1 m2 m3 mW h1 h2 h3 path) = t at *
    obtain ⟨s, rfl⟩ : ∃ s, t = 'u' :: s := ⟨_, hg.symm⟩
    rw [List.cons_append] at ht ⊢
    simp only [parseStatus, ht]
    simp [hl]
    rfl

theorem parse_output {k : CharClasses} {es : List GitEntry} (hv : ∀ e ∈ es, e.Valid)
    (hp : ∀ e ∈ es, e.Plain k) (fuel : Nat) (rest : Text) :
    parseStatus k (es.length + fuel) (statusOutput es ++ rest) =
      match parseStatus k fuel rest with
      | none => none
      | some (.error err) => some (.error err)
      | some (.ok more) => some (.ok (es.map GitEntry.expected ++ more)) := by
  induction es with
  | nil =>
    simp only [List.length_nil, Nat.zero_add, statusOutput, List.flatMap_nil, List.nil_append, List.map_nil]
    cases parseStatus k fuel rest with
    | none => rfl
    | some r => cases r <;> rfl
  | cons e es ih =>
    have hs : statusOutput (e :: es) ++ rest = e.text ++ '\x00' :: (statusOutput es ++ rest) := by
      simp [statusOutput]
    rw [hs, show (e :: es).length + fuel = (es.length + fuel) + 1 by simp; omega,
      parse_entry (hv e (by simp)) (hp e (by simp)),
      ih (fun e he => hv e (by simp [he])) (fun e he => hp e (by simp [he]))]
    cases parseStatus k fuel rest with
    | none => rfl
    | some r => cases r <;> rfl

/-- C36 (partial: paths of ordinary and unmerged entries must not start like another column, and no
entry may be a type change; see `ordinary_read_iff` and `type_change_not_a_change`). Whatever git
writes is read back exactly, including renames, in order. -/
theorem status_exact_partial (k : CharClasses) (es : List GitEntry) (hv : ∀ e ∈ es, e.Valid)
    (hp : ∀ e ∈ es, e.Plain k) :
    parseStatus k (es.length + 1) (statusOutput es) = some (.ok (es.map GitEntry.expected)) := by
  have := parse_output hv hp 1 []
  rw [List.append_nil] at this
  rw [this]
  simp [parseStatus]

/-- C36: an unknown kind of line is an error, whatever was read before. -/
theorem unknown_line_is_error (k : CharClasses) (es : List GitEntry) (hv : ∀ e ∈ es, e.Valid)
    (hp : ∀ e ∈ es, e.Plain k) (c : Char) (rest : Text) (h1 : c ≠ '1') (h2 : c ≠ '2') (hu : c ≠ 'u')
    (hh : c ≠ '#') :
    parseStatus k (es.length + 1) (statusOutput es ++ c :: rest) = some (.error (.unknownPrefix c)) := by
  rw [parse_output hv hp 1]
  simp [parseStatus, h1, h2, hu, hh]

/-- C36, negative result: at a header line the loop never ends. -/
theorem header_line_hangs (k : CharClasses) (es : List GitEntry) (hv : ∀ e ∈ es, e.Valid)
    (hp : ∀ e ∈ es, e.Plain k) (rest : Text) (fuel : Nat) :
    parseStatus k fuel (statusOutput es ++ '#' :: rest) = none := by
  have h0 : ∀ fuel, parseStatus k fuel ('#' :: rest) = none := by
    intro fuel
    induction fuel with
    | zero => rfl
    | succ fuel ih => simpa [parseStatus] using ih
  by_cases hf : es.length ≤ fuel
  · obtain ⟨f, rfl⟩ : ∃ f, fuel = es.length + f := ⟨fuel - es.length, by omega⟩
    rw [parse_output hv hp f, h0]
  · have : ∀ (n : Nat) (es : List GitEntry), (∀ e ∈ es, e.Valid) → (∀ e ∈ es, e.Plain k) → n < es.length →
        parseStatus k n (statusOutput es ++ '#' :: rest) = none := by
      intro n
      induction n with
      | zero => intros; rfl
      | succ n ih =>
        intro es hv hp hn
        cases es with
        | nil => simp at hn
        | cons e es =>
          have hs : statusOutput (e :: es) ++ '#' :: rest
              = e.text ++ '\x00' :: (statusOutput es ++ '#' :: rest) := by simp [statusOutput]
          rw [hs, parse_entry (hv e (by simp)) (hp e (by simp)),
            ih es (fun e he => hv e (by simp [he])) (fun e he => hp e (by simp [he])) (by simpa using hn)]
    exact this fuel es hv hp (by omega)

/-- C36: reading ends on every text in which no line starts with `#` (here: which contains no `#` at
all). -/
theorem status_terminates (k : CharClasses) (s : Text) (h : '#' ∉ s) :
    (parseStatus k (s.length + 1) s).isSome := by
  suffices H : ∀ n s, '#' ∉ s → s.length < n → (parseStatus k n s).isSome from H _ s h (by omega)
  have htake : ∀ s : Text, (takeEntry s).2.length ≤ s.length - 1 ∧ ∀ c ∈ (takeEntry s).2, c ∈ s := by
    intro s
    constructor
    · have := (List.dropWhile_sublist notNul (l := s)).length_le
      simp only [takeEntry, List.length_drop]; omega
    · intro c hc
      exact (List.dropWhile_sublist notNul).subset (List.mem_of_mem_drop hc)
  intro n
  induction n with
  | zero => intro s _ h; omega
  | succ n ih =>
    intro s hs hl
    cases s with
    | nil => rfl
    | cons c s =>
      have hc : c ≠ '#' := fun e => hs (by simp [e])
      simp only [parseStatus, if_neg hc]
      split
      · have hrest : (if c = '2' then (takeEntry (takeEntry (c :: s)).2).2 else (takeEntry (c :: s)).2).length
            < n ∧ '#' ∉ (if c = '2' then (takeEntry (takeEntry (c :: s)).2).2 else (takeEntry (c :: s)).2) := by
          have a := htake (c :: s)
          have b := htake (takeEntry (c :: s)).2
          simp only [List.length_cons] at a hl
          split
          · exact ⟨by omega, fun h => hs (a.2 _ (b.2 _ h))⟩
          · exact ⟨by omega, fun h => hs (a.2 _ h)⟩
        split
        · rfl
        · obtain ⟨r, hr⟩ := Option.isSome_iff_exists.1 (ih _ hrest.2 hrest.1)
          rw [hr]
          cases r <;> rfl
      · rfl

/-- C36: exactly which ordinary entries are read correctly. -/
theorem ordinary_read_iff (k : CharClasses) (x y : Letter) (sub : Submodule) (mH mI mW : FileMode)
    (hH hI : MaybeZero) (path : Text) (hx : x ≠ .typeChanged) (hy : y ≠ .typeChanged)
    (hv : (GitEntry.ordinary x y sub mH mI mW hH hI path).Valid) :
    StatusEntry.ofLine k (GitEntry.ordinary x y sub mH mI mW hH hI path).text
        = some (GitEntry.ordinary x y sub mH mI mW hH hI path).expected
      ↔ ¬ LooksLikeScore k path ∧ ¬ LooksLikeId k path := by
  refine ⟨fun h => ?_, fun ⟨h1, h2⟩ => ofLine_text hv ⟨hx, hy, h1, h2⟩⟩
  obtain ⟨v1, v2⟩ := hv
  -- a preferred match whose path is too short contradicts `h`
  have key : ∀ p : Text × Option Text, p.1.length < path.length →
      ¬ Rx.First (rxTail k) (hH.toText ++ ' ' :: (hI.toText ++ ' ' :: path)) p [] := by
    intro p hp hf
    have := first_rxStatus k (.inl rfl) x y sub (first_modes_three k mH mI mW hH _ hf)
    have ht : GitEntry.text (.ordinary x y sub mH mI mW hH hI path) = '1' :: ' ' :: x.char :: y.char :: ' ' ::
        (sub.text ++ ' ' :: (mH.toText ++ ' ' :: (mI.toText ++ ' ' :: (mW.toText ++ ' ' ::
        (hH.toText ++ ' ' :: (hI.toText ++ ' ' :: path)))))) := by simp [GitEntry.text, fields]
    rw [ht, ofLine_of_first this rfl] at h
    simp only [GitEntry.expected, Option.some.injEq, StatusEntry.mk.injEq] at h
    rw [h.2.2.2.1] at hp
    omega
  have hpaths : ∀ s : Text, ∀ z ∈ rxPaths s, z.1.1.length ≤ s.length ∧ z.2 = [] := by
    intro s z hz
    simp only [rxPaths, Rx.mem_bind, Rx.mem_plus] at hz
    obtain ⟨a, ⟨ha, _⟩, b, _, c, hc, hz⟩ := hz
    simp only [Rx.pure, List.mem_singleton] at hz
    subst hz
    have hc' : c.2 = [] := by
      unfold Rx.eos at hc
      split at hc
      · rename_i he
        simp only [List.mem_singleton] at hc
        rw [hc]; simpa using he
      · simp at hc
    exact ⟨by rw [ha]; simp, hc'⟩
  have hopt : ∀ s : Text, s ≠ [] → '\x00' ∉ s → ∃ p : Text × Option Text, p.1.length ≤ s.length ∧
      Rx.First ((Rx.opt (rxScore k)).bind fun _ => rxPaths) s p [] := by
    intro s hs1 hs2
    cases hl : ((Rx.opt (rxScore k)).bind fun _ => rxPaths) s with
    | nil =>
      exfalso
      have hm : ((s, none), []) ∈ ((Rx.opt (rxScore k)).bind fun _ => rxPaths) s := by
        rw [Rx.mem_bind]
        refine ⟨(none, s), by simp [Rx.opt, Rx.or, Rx.pure], ?_⟩
        obtain ⟨o, e⟩ := first_rxPaths_one hs1 hs2
        simp [e]
      rw [hl] at hm; simp at hm
    | cons z o =>
      have hm : z ∈ ((Rx.opt (rxScore k)).bind fun _ => rxPaths) s := by rw [hl]; simp
      rw [Rx.mem_bind] at hm
      obtain ⟨a, ha, hz⟩ := hm
      obtain ⟨l1, l2⟩ := hpaths _ _ hz
      have hal : a.2.length ≤ s.length := by
        simp only [Rx.opt, Rx.or, List.mem_append, Rx.mem_bind, Rx.pure, List.mem_singleton] at ha
        rcases ha with ⟨b, hb, rfl⟩ | rfl
        · obtain ⟨c, ds, e, _⟩ := mem_rxScore hb
          rw [e]; simp; omega
        · simp
      exact ⟨z.1, by omega, ⟨o, by rw [hl, ← l2]⟩⟩
  refine ⟨?_, ?_⟩
  · intro hs
    by_cases hid : LooksLikeId k path
    · obtain ⟨w, rest, rfl, e1, e2, e3⟩ := hid
      obtain ⟨p, hp, hf⟩ := hopt rest e3 (fun hm => v2 (by simp [hm]))
      exact key p (by simp; omega) (Rx.first_bind (first_twoOrThree_three (first_oid k _ _) (first_oid k _ _)
        (first_rxField e1 e2 (hex_space k))) hf)
    · obtain ⟨c, ds, rest, rfl, e1, e2, e3, e4, e5⟩ := hs
      have hr : '\x00' ∉ rest := fun hm => v2 (by simp [hm])
      refine key (rest, none) (by simp; omega) ?_
      refine first_twoOrThree_two ?_ (first_oid k _ _) (first_oid k _ _)
        (Rx.first_bind (Rx.first_or_left (Rx.first_bind (first_rxScore k e1 e2 e3 e4 _) (Rx.first_pure _ _)))
          (first_rxPaths_one e5 hr))
      refine eq_nil_of_no_mem fun z hz => ?_
      rw [Rx.mem_bind] at hz
      simp only [Rx.mem_bind (f := fun _ => Rx.bind _ _), Rx.mem_bind (f := fun _ => Rx.pure ())] at hz
      obtain ⟨y', ⟨a, ha, b, hb, c', hc, hy'⟩, hz⟩ := hz
      have g1 := mem_rxField ha
      have g2 := mem_rxField hb
      have g3 := mem_rxField hc
      have f1 := hex_word_split k (oid_hex k hH) g1.2.2 g1.1
      rw [← f1] at g2
      have f2 := hex_word_split k (oid_hex k hI) g2.2.2 g2.1
      rw [← f2] at g3
      simp only [Rx.pure, List.mem_singleton] at hy'
      subst hy'
      by_cases hr' : c'.2 = []
      · simp only [hr'] at hz
        rw [optScore_paths_nil] at hz; simp at hz
      · exact hid ⟨c'.1, c'.2, g3.1, g3.2.1, g3.2.2, hr'⟩
  · rintro ⟨w, rest, rfl, e1, e2, e3⟩
    obtain ⟨p, hp, hf⟩ := hopt rest e3 (fun hm => v2 (by simp [hm]))
    exact key p (by simp; omega) (Rx.first_bind (first_twoOrThree_three (first_oid k _ _) (first_oid k _ _)
      (first_rxField e1 e2 (hex_space k))) hf)

/-- The ASCII character classes, for examples. -/
def asciiClasses : CharClasses where
  digit c := '0' ≤ c && c ≤ '9'
  word c := ('0' ≤ c && c ≤ '9') || (('a' ≤ c && c ≤ 'z') || (('A' ≤ c && c ≤ 'Z') || c == '_'))
  digit_ascii c _ := by simp
  word_ascii c _ := by simp

/-- C36, negative result: a file `dead beef.txt` is reported as `beef.txt`. -/
theorem path_cut : StatusEntry.ofLine asciiClasses
    (GitEntry.ordinary .modified .unmodified .no .blob .blob .blob .zero .zero t!"dead beef.txt").text
    = some ⟨.modified, .unmodified, .blob, t!"beef.txt", none⟩ := by decide +kernel

/-- C36, negative result: a type change (such as a file replaced by a symbolic link) is read as
untracked, and so does not count as a change. -/
theorem type_change_not_a_change (k : CharClasses) (sub : Submodule) (mH mI mW : FileMode)
    (hH hI : MaybeZero) (path : Text) (h1 : path ≠ []) (h2 : '\x00' ∉ path)
    (h3 : ¬ LooksLikeScore k path) (h4 : ¬ LooksLikeId k path) :
    ∃ e, StatusEntry.ofLine k
        (GitEntry.ordinary .typeChanged .unmodified sub mH mI mW hH hI path).text = some e ∧
      e.path = path ∧ e.indexStatus.isChanged = false ∧ e.workingCopyStatus.isChanged = false := by
  have := first_rxStatus k (.inl rfl) .typeChanged .unmodified sub
    (first_modes_three k mH mI mW hH _ (first_tail_ordinary hH hI h1 h2 h3 h4))
  have ht : GitEntry.text (.ordinary .typeChanged .unmodified sub mH mI mW hH hI path) =
      '1' :: ' ' :: Letter.typeChanged.char :: Letter.unmodified.char :: ' ' ::
      (sub.text ++ ' ' :: (mH.toText ++ ' ' :: (mI.toText ++ ' ' :: (mW.toText ++ ' ' ::
      (hH.toText ++ ' ' :: (hI.toText ++ ' ' :: path)))))) := by simp [GitEntry.text, fields]
  rw [ht, ofLine_of_first this rfl]
  exact ⟨_, rfl, rfl, rfl, rfl⟩

/-- Non-vacuity: an output with the three kinds of entries. -/
example : let es : List GitEntry :=
      [.ordinary .modified .unmodified .no .blob .blob .blob .zero .zero t!"x y",
       .renamed .renamed .unmodified .no .blob .blob .blobExecutable .zero .zero false 87 t!"dead beef" t!"c",
       .unmerged .unmerged .unmerged .no .blob .blob .blob .link .zero .zero .zero t!"x"]
    (∀ e ∈ es, e.Valid) ∧ parseStatus asciiClasses 4 (statusOutput es) = some (.ok
      [⟨.modified, .unmodified, .blob, t!"x y", none⟩,
       ⟨.renamed, .unmodified, .blobExecutable, t!"dead beef", some t!"c"⟩,
       ⟨.unmerged, .unmerged, .link, t!"x", none⟩]) := by
  refine ⟨by simp [GitEntry.Valid], by decide +kernel⟩

/-! ## C49 -/

/-- C49: the textual form of a file mode and the mode determine each other. -/
theorem file_mode_text_iff (s : Text) (m : FileMode) : FileMode.parse s = some m ↔ s = m.toText := by
  constructor
  · intro h
    unfold FileMode.parse at h
    repeat' split at h
    all_goals first | (cases h; assumption) | simp at h
  · rintro rfl; exact FileMode.parse_toText m

/-- C49 (partial: fails for one mode). The numeric form of a file mode is read back, except for
group-writable files, which become unreadable ones. -/
theorem file_mode_number_partial (m : FileMode) :
    FileMode.ofI32 m.toI32 = m ↔ m ≠ .blobGroupWritable := by cases m <;> decide

/-- C49, negative result. -/
theorem group_writable_lost : FileMode.ofI32 (FileMode.toI32 .blobGroupWritable) = .unreadable := by decide

/-- C49: numbers which are no mode of a readable object are read as unreadable, nothing else is
confused. -/
theorem file_mode_of_number (i : Int) (h : FileMode.ofI32 i ≠ .unreadable) :
    (FileMode.ofI32 i).toI32 = i := by
  unfold FileMode.ofI32 at h ⊢
  repeat' split
  all_goals first | (symm; assumption) | simp_all

/-- C49: the conversion to unsigned numbers never panics, and distinguishes the modes. -/
theorem file_mode_unsigned (m m' : FileMode) : (∃ n : Nat, m.toU32 = some n ∧ (n : Int) = m.toI32) ∧
    (m.toU32 = m'.toU32 → m = m') := by
  constructor
  · cases m <;> exact ⟨_, rfl, rfl⟩
  · cases m <;> cases m' <;> decide

theorem stripPrefix?_iff (p s t : Text) : stripPrefix? p s = some t ↔ s = p ++ t := by
  induction p generalizing s with
  | nil => simp [stripPrefix?, eq_comm]
  | cons a p ih =>
    cases s with
    | nil => simp [stripPrefix?]
    | cons b s =>
      simp only [stripPrefix?, List.cons_append, List.cons.injEq]
      split
      · rename_i h; rw [ih]; simp [h]
      · rename_i h; simp [Ne.symm h]

/-- C49: a reference name is a local branch iff it is in `refs/heads/`, a remote branch iff it is in
`refs/remotes/`; rendering a categorised name gives the name back; the short form after the prefix of
the category is the full name; and the description tells category and short form. -/
theorem categorize_exact (name : Text) :
    ((∃ n, categorize name = .localBranch n) ↔ t!"refs/heads/" <+: name) ∧
    ((∃ n, categorize name = .remoteBranch n) ↔ t!"refs/remotes/" <+: name) ∧
    (categorize name).renderFull = name ∧
    (categorize name).pfx ++ (categorize name).renderSuffix = name ∧
    (categorize name).friendlyDescribe =
      (if t!"refs/heads/" <+: name then t!"branch " else if t!"refs/remotes/" <+: name then t!"remote branch "
        else t!"ref ") ++ (categorize name).renderSuffix := by
  have hdisj : t!"refs/heads/" <+: name → ¬ t!"refs/remotes/" <+: name := by
    rintro ⟨a, rfl⟩ ⟨b, hb⟩
    simp at hb
  unfold categorize
  simp only [List.isPrefixOf_iff_prefix]
  split
  · rename_i h
    obtain ⟨t, rfl⟩ := h
    have hn := hdisj ⟨t, rfl⟩
    refine ⟨by simp, by simpa using hn, rfl, ?_, ?_⟩
    · simp only [RefCategory.renderSuffix, RefCategory.pfx, RefCategory.renderFull]
      rw [(stripPrefix?_iff _ _ t).2 rfl]; rfl
    · rfl
  · split
    · rename_i h0 h
      obtain ⟨t, rfl⟩ := h
      refine ⟨by simpa using h0, by simp, rfl, ?_, ?_⟩
      · simp only [RefCategory.renderSuffix, RefCategory.pfx, RefCategory.renderFull]
        rw [(stripPrefix?_iff _ _ t).2 rfl]; rfl
      · rfl
    · rename_i h0 h1
      exact ⟨by simpa using h0, by simpa using h1, rfl, rfl, rfl⟩

/-- C49: short forms within a category are unambiguous. -/
theorem render_suffix_injective (a b : Text) (hp : (categorize a).pfx = (categorize b).pfx)
    (hs : (categorize a).renderSuffix = (categorize b).renderSuffix) : a = b := by
  have h1 := (categorize_exact a).2.2.2.1
  have h2 := (categorize_exact b).2.2.2.1
  rw [← h1, ← h2, hp, hs]

example : (categorize t!"refs/heads/feature").friendlyDescribe = t!"branch feature" := by decide

end Verif.Props
