import Verif.Lemmas.SmartlogText
import Verif.Props.Smartlog
import Verif.Props.Status
import Verif.Props.Evolve
import Verif.Props.Cursor

/-!
C80: what the smartlog prints can be read back.
-/

namespace Verif.Props

open Verif Verif.Spec

/-- C80: if the smartlogs of two repositories (or of one at two times) are printed as the same text, then their lines
are the same: the same lines at the left, the same symbols and numbers, and the same commits, provided that the
short hashes are those of different commits. -/
theorem smartlog_readable {pretty : Bool} {g : Glyphs} (hg : g = if pretty then Glyphs.pretty else Glyphs.text)
    {env env' : SmartlogCommandEnv} {e e' : Option Int} {reverse exact exact' : Bool} {text : List Text}
    {refs refs' : Replayer.RefsSnapshot} {lines lines' : List SmartlogLine}
    (hl : smartlogLines env (Replayer.fromEvents env.main.mainBranchName env.events) e exact = .ok (some (refs, lines)))
    (hl' : smartlogLines env' (Replayer.fromEvents env'.main.mainBranchName env'.events) e' exact' =
      .ok (some (refs', lines')))
    (h : smartlogCommand env g e reverse exact = .ok (some text))
    (h' : smartlogCommand env' g e' reverse exact' = .ok (some text))
    (commits : List Oid) (hc : ∀ l ∈ lines ++ lines', ∀ o, itemOid l.2 = some o → o ∈ commits)
    (hshort : ∀ o ∈ commits, ' ' ∉ shortOid (smartlogDescribe env refs) o ∧
      ' ' ∉ shortOid (smartlogDescribe env' refs') o)
    (hinj : ∀ o ∈ commits, ∀ o' ∈ commits,
      shortOid (smartlogDescribe env refs) o = shortOid (smartlogDescribe env' refs') o' → o = o') :
    List.Forall₂ (fun (l l' : SmartlogLine) => l.1 = l'.1 ∧ SameItem pretty l.2 l'.2) lines lines' := by
  have hk : KnownGlyphs pretty (g.reverseOrder reverse) := by
    subst hg
    cases pretty with
    | true => exact .pretty reverse
    | false => exact .text reverse
  unfold smartlogCommand at h h'
  dsimp only at h h'
  rw [hl] at h
  rw [hl'] at h'
  dsimp only at h h'
  cases hx : linesText (g.reverseOrder reverse) (describeNode (smartlogDescribe env refs)
      (g.reverseOrder reverse).branchArrow (Replayer.fromEvents env.main.mainBranchName env.events)
      (Replayer.fromEvents env.main.mainBranchName env.events).makeDefaultCursor) .disabled lines with
  | none => rw [hx] at h; exact nomatch h
  | some x =>
    cases hx' : linesText (g.reverseOrder reverse) (describeNode (smartlogDescribe env' refs')
        (g.reverseOrder reverse).branchArrow (Replayer.fromEvents env'.main.mainBranchName env'.events)
        (Replayer.fromEvents env'.main.mainBranchName env'.events).makeDefaultCursor) .disabled lines' with
    | none => rw [hx'] at h'; exact nomatch h'
    | some x' =>
      rw [hx] at h
      rw [hx'] at h'
      have he : x.1 = x'.1 := by
        have h1 := Option.some.inj (Except.ok.inj h)
        have h2 := Option.some.inj (Except.ok.inj h')
        rw [← h2] at h1
        cases reverse with
        | false => exact h1
        | true => exact List.reverse_injective h1
      refine linesText_read hk (· ∈ commits) ?_ (fun l hl o ho => hc l (List.mem_append_left _ hl) o ho)
        (fun l hl o ho => hc l (List.mem_append_right _ hl) o ho) hx hx' he
      intro r r' o o' y y' ho ho' hy hy' hyy
      obtain ⟨t, ht⟩ := describeNode_starts hy
      obtain ⟨t', ht'⟩ := describeNode_starts hy'
      rw [ht, ht'] at hyy
      exact hinj o ho o' ho' (space_cut (hshort o ho).1 (hshort o' ho').2 hyy).1

/-! ### branches -/

/-- C80: the names of the references at a commit can be read from the text, and which of them is checked out: two
sets of names with the same text are the same. (Names of references have no spaces.) -/
theorem branches_readable {pretty : Bool} {arrow : Text} (ha : arrow = if pretty then t!"ᐅ" else t!">")
    {env env' : DescribeEnv} (hb : env.showBranches = true) (hb' : env'.showBranches = true) {o o' : Oid}
    {names names' : List Text}
    (hn : env.branchNames.get? o = some names) (hn' : env'.branchNames.get? o' = some names')
    (hs : ∀ n ∈ names, ' ' ∉ n) (hs' : ∀ n ∈ names', ' ' ∉ n)
    (h : (describeBranches env arrow .disabled o).1 = (describeBranches env' arrow .disabled o').1) :
    ∀ n, (n ∈ names ↔ n ∈ names') ∧ (n ∈ names → (env.headName = some n ↔ env'.headName = some n)) := by
  obtain ⟨a, rfl, ha1, ha2, ha3, ha4⟩ : ∃ a, arrow = [a] ∧ a ≠ ' ' ∧ a ≠ ',' ∧ a ≠ 'r' ∧ (t!"ᐅ" = [a] ∨ t!">" = [a]) := by
    cases pretty with
    | true => exact ⟨'ᐅ', ha, by decide, by decide, by decide, .inl rfl⟩
    | false => exact ⟨'>', ha, by decide, by decide, by decide, .inr rfl⟩
  have hpar : ∀ {x y : List Text}, x ≠ [] → y ≠ [] → (∀ t ∈ x, hasSep t = false) → (∀ t ∈ y, hasSep t = false) →
      t!"(" ++ joinTexts t!", " x ++ t!")" = t!"(" ++ joinTexts t!", " y ++ t!")" → x = y := by
    intro x y hx hy hsx hsy hxy
    exact joinTexts_read hx hy hsx hsy (List.append_cancel_left (List.append_cancel_right hxy))
  have hred : ∀ ns : List Text, Redactor.refNames .disabled ns = (ns, .disabled) := by
    intro ns
    induction ns with
    | nil => rfl
    | cons n ns ih => simp only [Redactor.refNames, Redactor.refName]; rw [ih]
  unfold describeBranches at h
  rw [hb, hb', hn, hn'] at h
  simp only [Bool.not_true, Bool.false_eq_true, if_false, Option.getD_some, hred] at h
  have hempty : ∀ ns : List Text, ns.dedup.isEmpty = true ↔ ns = [] := by
    intro ns
    rw [List.isEmpty_iff]
    constructor
    · intro hd
      rcases ns with - | ⟨m, ns⟩
      · rfl
      · have : m ∈ (m :: ns).dedup := List.mem_dedup.2 List.mem_cons_self
        rw [hd] at this
        exact nomatch this
    · rintro rfl; rfl
  by_cases h0 : names = []
  · rw [if_pos ((hempty names).2 h0)] at h
    by_cases h0' : names' = []
    · intro n; simp [h0, h0']
    · rw [if_neg (fun hh => h0' ((hempty names').1 hh))] at h
      exact nomatch h
  · rw [if_neg (fun hh => h0 ((hempty names).1 hh))] at h
    by_cases h0' : names' = []
    · rw [if_pos ((hempty names').2 h0')] at h
      exact nomatch h
    · rw [if_neg (fun hh => h0' ((hempty names').1 hh))] at h
      have hne : ∀ {ns : List Text} (f : Text → Text), ns ≠ [] →
          (ns.dedup.map f).insertionSort (· ≤ ·) ≠ [] := by
        intro ns f hns hh
        have := congrArg List.length hh
        rw [List.length_insertionSort, List.length_map] at this
        exact hns ((hempty ns).1 (List.isEmpty_iff.2 (List.length_eq_zero_iff.1 this)))
      have hmem : ∀ (ns : List Text) (f : Text → Text) (t : Text),
          t ∈ (ns.dedup.map f).insertionSort (· ≤ ·) ↔ ∃ n ∈ ns, f n = t := by
        intro ns f t
        rw [(List.perm_insertionSort _ _).mem_iff, List.mem_map]
        simp only [List.mem_dedup]
      have hno : ∀ (ns : List Text) (hd : Option Text), (∀ n ∈ ns, ' ' ∉ n) →
          ∀ t ∈ (ns.dedup.map (describeBranch [a] hd)).insertionSort (· ≤ ·), hasSep t = false := by
        intro ns hd hns t ht
        obtain ⟨n, hn1, rfl⟩ := (hmem _ _ _).1 ht
        exact describeBranch_noSep ha1 ha2 hd (hns n hn1)
      have heq := hpar (hne _ h0) (hne _ h0') (hno _ _ hs) (hno _ _ hs') (Option.some.inj h)
      have hiff : ∀ t, (∃ n ∈ names, describeBranch [a] env.headName n = t) ↔
          ∃ n ∈ names', describeBranch [a] env'.headName n = t := by
        intro t
        rw [← hmem, ← hmem, heq]
      have one : ∀ n ∈ names, n ∈ names' ∧ (env.headName = some n ↔ env'.headName = some n) := by
        intro n hn1
        obtain ⟨m, hm, hmt⟩ := (hiff _).1 ⟨n, hn1, rfl⟩
        obtain ⟨rfl, h2⟩ := describeBranch_read ha1 ha3 (hs n hn1) (hs' m hm) hmt.symm
        exact ⟨hm, h2⟩
      have two : ∀ n ∈ names', n ∈ names := by
        intro n hn1
        obtain ⟨m, hm, hmt⟩ := (hiff _).2 ⟨n, hn1, rfl⟩
        obtain ⟨rfl, _⟩ := describeBranch_read ha1 ha3 (hs m hm) (hs' n hn1) hmt
        exact hm
      intro n
      exact ⟨⟨fun hh => (one n hh).1, two n⟩, fun hh => (one n hh).2⟩

/-- Non-vacuity, and C80, a defect: the message of a commit can look like a branch. -/
theorem branch_imitated :
    let env : DescribeEnv := ⟨fun _ => some ⟨t!"e1", t!"(master) fix", t!"", 0⟩, false, true, false, 0, none, []⟩
    let env' : DescribeEnv := ⟨fun _ => some ⟨t!"e1", t!"fix", t!"", 0⟩, false, true, false, 0, none,
      [(oidN 1, [t!"refs/heads/master"])]⟩
    (describeNode env t!">" (Replayer.fromEvents t!"refs/heads/main" []) ⟨0⟩ .disabled (oidN 1)).map Prod.fst =
      some t!"e1 (master) fix" ∧
    (describeNode env' t!">" (Replayer.fromEvents t!"refs/heads/main" []) ⟨0⟩ .disabled (oidN 1)).map Prod.fst =
      some t!"e1 (master) fix" := by
  decide +kernel

example : (describeBranches ⟨fun _ => none, false, true, false, 0, some t!"refs/heads/topic",
    [(oidN 1, [t!"refs/remotes/origin/topic", t!"refs/heads/topic", t!"refs/tags/v1"])]⟩ t!">" .disabled (oidN 1)).1 =
    some t!"(> topic, ref refs/tags/v1, remote origin/topic)" := by
  decide +kernel

/-! ### times -/

/-- C80: the age of a commit which was made before now is the number of the largest unit which fits, rounded down:
so the interval in which the commit was made is read from the text. -/
theorem relative_time {now previous : Int} (h : previous < now) :
    ∃ letter secs limit, (letter, secs, limit) ∈ timeUnits ∧
      ∃ n : Nat, describeTimeDelta now previous = natToText n ++ [letter] ∧
        (n * secs : Int) * 1000000000 ≤ now - previous ∧ now - previous < ((n + 1) * secs : Int) * 1000000000 ∧
        (∀ l, limit = some l → n < l) ∧ (n = 0 → letter = 's') := by
  obtain ⟨d, hd⟩ : ∃ d : Nat, (now - previous) / 1000000000 = d :=
    ⟨((now - previous) / 1000000000).toNat, by omega⟩
  have h1 : (d : Int) * 1000000000 ≤ now - previous := by omega
  have h2 : now - previous < (d + 1 : Int) * 1000000000 := by omega
  have pos : ∀ n : Nat, intToText n = natToText n := by
    intro n
    unfold intToText
    rw [if_neg (by omega), Int.natAbs_natCast]
  unfold describeTimeDelta timeUnits
  rw [if_pos h, hd]
  dsimp only
  by_cases c1 : (d : Int) < 60
  · rw [if_pos c1, pos]
    exact ⟨'s', 1, some 60, by simp, d, rfl, by omega, by omega, by intro l hl; cases hl; omega, fun _ => rfl⟩
  · rw [if_neg c1]
    obtain ⟨m, hm⟩ : ∃ m : Nat, (d : Int) / 60 = m := ⟨d / 60, by omega⟩
    rw [hm]
    by_cases c2 : (m : Int) < 60
    · rw [if_pos c2, pos]
      exact ⟨'m', 60, some 60, by simp, m, rfl, by omega, by omega, by intro l hl; cases hl; omega, by omega⟩
    · rw [if_neg c2]
      obtain ⟨k, hk⟩ : ∃ k : Nat, (m : Int) / 60 = k := ⟨m / 60, by omega⟩
      rw [hk]
      by_cases c3 : (k : Int) < 24
      · rw [if_pos c3, pos]
        exact ⟨'h', 3600, some 24, by simp, k, rfl, by omega, by omega, by intro l hl; cases hl; omega, by omega⟩
      · rw [if_neg c3]
        obtain ⟨j, hj⟩ : ∃ j : Nat, (k : Int) / 24 = j := ⟨k / 24, by omega⟩
        rw [hj]
        by_cases c4 : (j : Int) < 365
        · rw [if_pos c4, pos]
          exact ⟨'d', 86400, some 365, by simp, j, rfl, by omega, by omega, by intro l hl; cases hl; omega, by omega⟩
        · rw [if_neg c4]
          obtain ⟨y, hy⟩ : ∃ y : Nat, (j : Int) / 365 = y := ⟨j / 365, by omega⟩
          rw [hy, pos]
          exact ⟨'y', 31536000, none, by simp, y, rfl, by omega, by omega, nofun, by omega⟩

/-- C80: for a commit whose time is in the future, the seconds until then are shown with a minus sign, however many
they are. -/
theorem future_time {now previous : Int} (h : now ≤ previous) :
    ∃ n : Nat, describeTimeDelta now previous = (if n = 0 then [] else t!"-") ++ natToText n ++ t!"s" ∧
      (n : Int) * 1000000000 ≤ previous - now ∧ previous - now < (n + 1 : Int) * 1000000000 := by
  obtain ⟨d, hd⟩ : ∃ d : Nat, (previous - now) / 1000000000 = d :=
    ⟨((previous - now) / 1000000000).toNat, by omega⟩
  refine ⟨d, ?_, by omega, by omega⟩
  unfold describeTimeDelta
  rw [if_neg (show ¬ previous < now by omega), hd]
  dsimp only
  rw [if_pos (show -(d : Int) < 60 by omega)]
  unfold intToText
  by_cases h0 : d = 0
  · subst h0; rfl
  · rw [if_pos (by omega), if_neg h0, Int.natAbs_neg, Int.natAbs_natCast]; rfl

example : describeTimeDelta (100 * 86400 * 1000000000) 0 = t!"100d" ∧
    describeTimeDelta 0 (100 * 86400 * 1000000000) = t!"-8640000s" := by decide +kernel

/-- The commits mentioned have times after 1970, or times are not shown. -/
theorem linesText_isSome {g : Glyphs} {env : DescribeEnv} {arrow : Text} {rep : Replayer} {c : Cursor} (r : Redactor)
    (lines : List SmartlogLine) :
    (linesText g (describeNode env arrow rep c) r lines).isSome ↔
      ∀ l ∈ lines, ∀ o, itemOid l.2 = some o → env.showTime = true →
        ∀ t, env.commit o = some t → 0 ≤ t.seconds := by
  have node : ∀ (r : Redactor) (o : Oid), (describeNode env arrow rep c r o).isSome ↔
      (env.showTime = true → ∀ t, env.commit o = some t → 0 ≤ t.seconds) := by
    intro r o
    unfold describeNode describeTime
    cases env.showTime with
    | false => simp
    | true =>
      cases env.commit o with
      | none => simp
      | some t =>
        by_cases ht : t.seconds < 0
        · simp [ht]
        · simp [ht]; omega
  have item : ∀ (r : Redactor) (i : LineItem), (itemText g (describeNode env arrow rep c) r i).isSome ↔
      ∀ o, itemOid i = some o → env.showTime = true → ∀ t, env.commit o = some t → 0 ≤ t.seconds := by
    intro r i
    cases i <;> simp [itemText, itemOid, node]
  induction lines generalizing r with
  | nil => simp [linesText]
  | cons l ls ih =>
    have hi := item r l.2
    simp only [List.forall_mem_cons]
    rw [← hi]
    unfold linesText
    cases hx : itemText g (describeNode env arrow rep c) r l.2 with
    | none => simp
    | some x =>
      have := ih (r := x.2)
      simp only [← this]
      cases linesText g (describeNode env arrow rep c) x.2 ls <;> simp

/-- C80, exactly when the smartlog is shown: a single commit from before 1970 is enough for it to fail. -/
theorem smartlog_shown_iff {env : SmartlogCommandEnv} {g : Glyphs} {e : Option Int} {reverse exact : Bool}
    {refs : Replayer.RefsSnapshot} {lines : List SmartlogLine}
    (hl : smartlogLines env (Replayer.fromEvents env.main.mainBranchName env.events) e exact = .ok (some (refs, lines))) :
    (∃ text, smartlogCommand env g e reverse exact = .ok (some text)) ↔
      ∀ l ∈ lines, ∀ o, itemOid l.2 = some o → env.showTime = true →
        ∀ t, env.commit o = some t → 0 ≤ t.seconds := by
  have := linesText_isSome (g := g.reverseOrder reverse) (env := smartlogDescribe env refs)
    (arrow := (g.reverseOrder reverse).branchArrow) (rep := Replayer.fromEvents env.main.mainBranchName env.events)
    (c := (Replayer.fromEvents env.main.mainBranchName env.events).makeDefaultCursor) .disabled lines
  refine Iff.trans ?_ this
  unfold smartlogCommand
  dsimp only
  rw [hl]
  dsimp only
  cases linesText (g.reverseOrder reverse) (describeNode (smartlogDescribe env refs)
      (g.reverseOrder reverse).branchArrow (Replayer.fromEvents env.main.mainBranchName env.events)
      (Replayer.fromEvents env.main.mainBranchName env.events).makeDefaultCursor) .disabled lines with
  | none => simp
  | some x => simp

/-! ### revisions -/

theorem isDiffNumber_iff (d : Text) : isDiffNumber d = true ↔ IsRevision d := by
  have digit : ∀ c : Char, (48 ≤ c.toNat && c.toNat ≤ 57) = true ↔ c ∈ "0123456789".toList := by
    intro c
    simp only [Bool.and_eq_true, decide_eq_true_eq]
    constructor
    · rintro ⟨h1, h2⟩
      have hc : c = Char.ofNat c.toNat := (Char.ofNat_toNat c).symm
      rw [hc]
      generalize c.toNat = n at h1 h2
      have : n = 48 ∨ n = 49 ∨ n = 50 ∨ n = 51 ∨ n = 52 ∨ n = 53 ∨ n = 54 ∨ n = 55 ∨ n = 56 ∨ n = 57 := by omega
      rcases this with rfl | rfl | rfl | rfl | rfl | rfl | rfl | rfl | rfl | rfl <;> decide
    · intro h
      have h' : c ∈ ['0', '1', '2', '3', '4', '5', '6', '7', '8', '9'] := h
      simp only [List.mem_cons, List.not_mem_nil, or_false] at h'
      rcases h' with rfl | rfl | rfl | rfl | rfl | rfl | rfl | rfl | rfl | rfl <;> decide
  unfold IsRevision
  constructor
  · intro h
    unfold isDiffNumber at h
    split at h
    · rename_i d ds
      exact ⟨d :: ds, by simp, fun c hc => (digit c).1 (List.all_eq_true.1 h c hc), rfl⟩
    · exact absurd h (by simp)
  · rintro ⟨ds, h1, h2, rfl⟩
    cases ds with
    | nil => exact absurd rfl h1
    | cons d ds =>
      unfold isDiffNumber
      exact List.all_eq_true.2 fun c hc => (digit c).2 (h2 c hc)

theorem afterLastSlash_iff (s t : Text) (ht : '/' ∉ t) :
    afterLastSlash s = some t ↔ ∃ u, u ≠ [] ∧ s = u ++ t!"/" ++ t := by
  have hsp : ∀ (x y : Text), '/' ∉ x → (x ++ '/' :: y).span (· ≠ '/') = (x, '/' :: y) := by
    intro x y hx
    rw [List.span_eq_takeWhile_dropWhile]
    rw [List.takeWhile_append_of_pos (by intro c hc; simp; rintro rfl; exact hx hc),
      List.dropWhile_append_of_pos (by intro c hc; simp; rintro rfl; exact hx hc)]
    simp
  constructor
  · intro h
    unfold afterLastSlash at h
    rw [List.span_eq_takeWhile_dropWhile] at h
    have happ := List.takeWhile_append_dropWhile (p := (· ≠ '/')) (l := s.reverse)
    have hhead : ∀ c cs, s.reverse.dropWhile (· ≠ '/') = c :: cs → c = '/' := by
      intro c cs hc
      have := List.head?_dropWhile_not (· ≠ '/') s.reverse
      rw [hc] at this
      simpa using this
    generalize s.reverse.takeWhile (· ≠ '/') = a at h happ
    generalize s.reverse.dropWhile (· ≠ '/') = b at h happ hhead
    rcases b with - | ⟨c, - | ⟨c', cs⟩⟩
    · exact nomatch h
    · exact nomatch h
    · have hc := hhead c _ rfl
      subst hc
      refine ⟨(c' :: cs).reverse, by simp, ?_⟩
      have hr := congrArg List.reverse happ
      rw [List.reverse_reverse] at hr
      rw [← hr, ← Option.some.inj h]
      simp
  · rintro ⟨u, hu, rfl⟩
    unfold afterLastSlash
    have hr : (u ++ t!"/" ++ t).reverse = t.reverse ++ '/' :: u.reverse := by simp
    rw [hr, hsp _ _ (by simpa using ht)]
    cases hur : u.reverse with
    | nil => exact absurd (List.reverse_eq_nil_iff.1 hur) hu
    | cons a l => simp

theorem slash_of_revision {d : Text} (h : IsRevision d) : '/' ∉ d := by
  obtain ⟨ds, _, h2, rfl⟩ := h
  intro hh
  rcases List.mem_cons.1 hh with h3 | h3
  · exact absurd h3 (by decide)
  · exact absurd (h2 _ h3) (by decide)

/-- C80: the number of the revision is found in a line, exactly. -/
theorem revision_of_line (line d : Text) : diffNumberOfLine line = some d ↔ RevisionLine line d := by
  unfold diffNumberOfLine RevisionLine
  cases hp : stripPrefix? t!"Differential Revision: " line with
  | none =>
    constructor
    · intro h; exact nomatch h
    · rintro ⟨_, h | ⟨u, _, h⟩⟩
      · rw [(stripPrefix?_iff _ _ _).2 h] at hp; exact nomatch hp
      · rw [List.append_assoc, List.append_assoc] at h
        rw [(stripPrefix?_iff _ _ _).2 h] at hp; exact nomatch hp
  | some rest =>
    have hline := (stripPrefix?_iff _ _ _).1 hp
    subst hline
    dsimp only
    by_cases hr : isDiffNumber rest = true
    · rw [if_pos hr]
      have hrev := (isDiffNumber_iff _).1 hr
      constructor
      · intro h; obtain rfl := Option.some.inj h; exact ⟨hrev, .inl rfl⟩
      · rintro ⟨h1, h | ⟨u, hu, h⟩⟩
        · rw [List.append_cancel_left h]
        · rw [List.append_assoc, List.append_assoc] at h
          have := List.append_cancel_left h
          exact absurd (by rw [this]; simp) (slash_of_revision hrev)
    · rw [if_neg hr]
      have key : (match afterLastSlash rest with
          | some tail => if isDiffNumber tail = true then some tail else none
          | none => none) = some d ↔ IsRevision d ∧ afterLastSlash rest = some d := by
        cases afterLastSlash rest with
        | none => simp
        | some tail =>
          dsimp only
          by_cases ht : isDiffNumber tail = true
          · rw [if_pos ht]
            constructor
            · intro h; obtain rfl := Option.some.inj h; exact ⟨(isDiffNumber_iff _).1 ht, rfl⟩
            · exact fun h => h.2
          · rw [if_neg ht]
            constructor
            · intro h; exact nomatch h
            · rintro ⟨h1, h2⟩; obtain rfl := Option.some.inj h2; exact absurd ((isDiffNumber_iff _).2 h1) ht
      refine key.trans (and_congr_right fun hd => ?_)
      rw [afterLastSlash_iff _ _ (slash_of_revision hd)]
      constructor
      · rintro ⟨u, hu, rfl⟩
        exact .inr ⟨u, hu, by simp⟩
      · rintro (h | ⟨u, hu, h⟩)
        · rw [List.append_cancel_left h] at hr
          exact absurd ((isDiffNumber_iff _).2 hd) hr
        · rw [List.append_assoc, List.append_assoc] at h
          exact ⟨u, hu, by rw [List.append_cancel_left h, List.append_assoc]⟩

/-- C80: the number of the revision which is shown is that of the first line of the message which gives one. -/
theorem revision_exact (message d : Text) :
    extractDiffNumber message = some d ↔ ∃ before line after, splitChar '\n' message = before ++ line :: after ∧
      RevisionLine line d ∧ ∀ l ∈ before, ∀ d', ¬ RevisionLine l d' := by
  unfold extractDiffNumber
  rw [List.findSome?_eq_some_iff]
  constructor
  · rintro ⟨a, l, b, h1, h2, h3⟩
    exact ⟨a, l, b, h1, (revision_of_line _ _).1 h2, fun x hx d' hd' => by
      have := h3 x hx
      rw [(revision_of_line _ _).2 hd'] at this
      exact nomatch this⟩
  · rintro ⟨a, l, b, h1, h2, h3⟩
    refine ⟨a, l, b, h1, (revision_of_line _ _).2 h2, fun x hx => ?_⟩
    cases hd : diffNumberOfLine x with
    | none => rfl
    | some d' => exact absurd ((revision_of_line _ _).1 hd) (h3 x hx d')

example : extractDiffNumber t!"fix it\n\nDifferential Revision: https://p.org/D12\nDifferential Revision: D7" =
    some t!"D12" ∧ extractDiffNumber t!"Differential Revision: /D7 " = none := by
  decide +kernel

/-! ### why a commit is obsolete -/

/-- C80: what is said about an obsolete commit: if the newest event about it is that it was rewritten, the end of the
chain of rewrites; if the newest event is that it was hidden, that; otherwise nothing. -/
theorem obsolescence_explained (mb : Text) (es : List Event) (c : Nat) (oid : Oid) :
    (∀ m, Newest (before mb es c) oid m → describeObsolescence (Replayer.fromEvents mb es) ⟨c⟩ oid =
      some (t!"(rewritten as " ++ m.toText.take 8 ++ t!")")) ∧
    (∀ ts tx o, (lastEffect oid (before mb es c)).map Prod.fst = some (.obsolete ts tx o) →
      describeObsolescence (Replayer.fromEvents mb es) ⟨c⟩ oid = some t!"(manually hidden)") ∧
    ((∀ m, ¬ RewrittenTo (before mb es c) oid m) →
      (∀ ts tx o, (lastEffect oid (before mb es c)).map Prod.fst ≠ some (.obsolete ts tx o)) →
      describeObsolescence (Replayer.fromEvents mb es) ⟨c⟩ oid = none) := by
  have hlatest : (Replayer.fromEvents mb es).latestEvent ⟨c⟩ oid = (lastEffect oid (before mb es c)).map Prod.fst :=
    latest_event_exact mb es c oid
  refine ⟨?_, ?_, ?_⟩
  · intro m hm
    have hf := (find_rewrite_target_exact mb es c oid m).2 hm
    have hr : ∃ b, RewrittenTo (before mb es c) oid b := by
      cases hm with
      | dropped h => exact ⟨_, h⟩
      | last h => exact ⟨_, h⟩
      | step h => exact ⟨_, h⟩
    obtain ⟨b, ts, tx, h1, _⟩ := hr
    unfold describeObsolescence
    rw [hlatest, h1, hf]
    rfl
  · intro ts tx o h
    unfold describeObsolescence
    rw [hlatest, h]
  · intro h1 h2
    have hf := (find_rewrite_target_none mb es c oid).2 h1
    unfold describeObsolescence
    rw [hlatest]
    cases he : (lastEffect oid (before mb es c)).map Prod.fst with
    | none => rfl
    | some e =>
      cases e with
      | rewrite => dsimp only; rw [hf]; rfl
      | obsolete ts tx o => exact absurd he (h2 ts tx o)
      | _ => rfl

/-- Non-vacuity, and C80, a defect: a commit which was dropped is described as rewritten as commit 00000000. -/
theorem dropped_described :
    describeObsolescence (Replayer.fromEvents t!"refs/heads/main" [.rewrite 1 (.id 1) (.nonZero (oidN 1)) .zero]) ⟨1⟩
      (oidN 1) = some t!"(rewritten as 00000000)" := by
  decide +kernel

/-! ### the hint -/

/-- C80: the hint counts the commits which are not obsolete and whose parents are shown, obsolete and rewritten. -/
theorem abandoned_exact {dag : Dag} (hg : WFGraph dag.graph) (mb : Text) (es : List Event) (c : Nat)
    (graph : SmartlogGraph) (o : Oid) :
    o ∈ abandonedInGraph dag (Replayer.fromEvents mb es) ⟨c⟩ graph ↔
      o ∉ dag.obsoleteCommits ∧ ∃ p n, (p, n) ∈ graph ∧ n.isObsolete = true ∧ IsParent dag.graph p o ∧
        ∃ m, Newest (before mb es c) p m := by
  unfold abandonedInGraph
  rw [mem_diff, mem_children hg]
  simp only [List.mem_map, List.mem_filter, Bool.and_eq_true, Option.isSome_iff_exists, find_rewrite_target_exact]
  constructor
  · rintro ⟨⟨p, ⟨⟨p', n⟩, ⟨h1, h2, m, h3⟩, rfl⟩, h4⟩, h5⟩
    exact ⟨h5, p', n, h1, h2, h4, m, h3⟩
  · rintro ⟨h5, p, n, h1, h2, h4, m, h3⟩
    exact ⟨⟨p, ⟨(p, n), ⟨h1, h2, m, h3⟩, rfl⟩, h4⟩, h5⟩

/-! ### the smartlog of an earlier time -/

theorem events_prefix (mb : Text) (es es' : List Event) :
    (Replayer.fromEvents mb es).events <+: (Replayer.fromEvents mb (es ++ es')).events := by
  unfold Replayer.fromEvents
  rw [List.foldl_append]
  generalize es.foldl Replayer.processEvent (Replayer.new mb) = r
  induction es' generalizing r with
  | nil => exact List.prefix_refl _
  | cons e es' ih =>
    refine List.IsPrefix.trans ?_ (ih (r.processEvent e))
    rcases processEvent_events r e with h | ⟨e', _, h⟩
    · rw [h]
    · rw [h]; exact List.prefix_append _ _

/-- C80: with `--event-id`, a number counts the events from the beginning, a negative one from the end; and the
references, the known and the obsolete commits are those of the time when the later events had not happened. -/
theorem smartlog_at_event (env : SmartlogCommandEnv) (earlier later : List Event)
    (he : env.events = earlier ++ later) :
    let rep := Replayer.fromEvents env.main.mainBranchName env.events
    let then_ := Replayer.fromEvents env.main.mainBranchName earlier
    let k := then_.events.length
    smartlogCursor rep (some (k : Int)) = ⟨k⟩ ∧
    (k < rep.events.length → smartlogCursor rep (some (k - rep.events.length : Int)) = ⟨k⟩) ∧
    rep.referencesSnapshot env.main ⟨k⟩ = then_.referencesSnapshot env.main then_.makeDefaultCursor ∧
    ∀ refs o,
      (o ∈ (Dag.openWithoutSyncing env.graph rep ⟨k⟩ refs).observedCommits ↔
        o ∈ (Dag.openWithoutSyncing env.graph then_ then_.makeDefaultCursor refs).observedCommits) ∧
      (o ∈ (Dag.openWithoutSyncing env.graph rep ⟨k⟩ refs).obsoleteCommits ↔
        o ∈ (Dag.openWithoutSyncing env.graph then_ then_.makeDefaultCursor refs).obsoleteCommits) := by
  intro rep then_ k
  have hpre : then_.events <+: rep.events := by
    show (Replayer.fromEvents _ _).events <+: (Replayer.fromEvents _ env.events).events
    rw [he]
    exact events_prefix _ _ _
  have hk : k ≤ rep.events.length := hpre.length_le
  have hdef : then_.makeDefaultCursor = ⟨k⟩ := by
    have := (cursor_moves_exactly then_ ⟨0⟩ 0).2.2
    generalize then_.makeDefaultCursor = c at this
    obtain ⟨c⟩ := c
    exact congrArg Cursor.mk this
  have htake : rep.events.take k = then_.events.take k := by
    rw [List.take_length]
    exact (List.prefix_iff_eq_take.1 hpre).symm
  have hup : rep.eventsUpTo ⟨k⟩ = then_.eventsUpTo ⟨k⟩ := by
    rw [eventsUpTo_ok rep hk, eventsUpTo_ok then_ (le_refl k), htake]
  have hmb : rep.mainBranch = then_.mainBranch := by
    show (Replayer.fromEvents _ _).mainBranch = (Replayer.fromEvents _ _).mainBranch
    rw [fromEvents_mainBranch, fromEvents_mainBranch]
  have hstatus : ∀ o, rep.activityStatus ⟨k⟩ o = then_.activityStatus ⟨k⟩ o := by
    intro o
    have h1 := activity_status_exact env.main.mainBranchName env.events k o
    have h2 := activity_status_exact env.main.mainBranchName earlier k o
    dsimp only at h1 h2
    rw [show (Replayer.fromEvents env.main.mainBranchName env.events).events.take k = _ from htake] at h1
    exact h1.trans h2.symm
  have hobs : ∀ o, o ∈ rep.cursorOids ⟨k⟩ ↔ o ∈ then_.cursorOids ⟨k⟩ := by
    intro o
    have h1 := cursor_oids_exact env.main.mainBranchName env.events k o
    have h2 := cursor_oids_exact env.main.mainBranchName earlier k o
    dsimp only at h1 h2
    rw [show (Replayer.fromEvents env.main.mainBranchName env.events).activityStatus ⟨k⟩ o = _ from hstatus o] at h1
    exact h1.trans h2.symm
  refine ⟨?_, ?_, ?_, ?_⟩
  · have := (cursor_moves_exactly rep ⟨0⟩ (k : Int)).1
    unfold smartlogCursor
    dsimp only
    rw [if_neg (by omega)]
    generalize rep.makeCursor k = c at this
    obtain ⟨c⟩ := c
    exact congrArg Cursor.mk (this.trans (by omega))
  · intro hlt
    have h0 := (cursor_moves_exactly rep ⟨0⟩ 0).2.2
    have := (cursor_moves_exactly rep rep.makeDefaultCursor (k - rep.events.length : Int)).2.1
    unfold smartlogCursor
    dsimp only
    rw [if_pos (by omega)]
    generalize rep.advanceCursor rep.makeDefaultCursor (k - rep.events.length : Int) = c at this
    obtain ⟨c⟩ := c
    exact congrArg Cursor.mk (this.trans (by omega))
  · rw [hdef]
    unfold Replayer.referencesSnapshot Replayer.cursorBranchOidToNames Replayer.cursorMainBranchOid
      Replayer.cursorBranchOid Replayer.cursorHeadOid
    rw [hup, hmb]
  · intro refs o
    rw [hdef]
    refine ⟨hobs o, ?_⟩
    unfold Dag.openWithoutSyncing
    simp only [List.mem_filter, hobs o, hstatus o]

end Verif.Props
