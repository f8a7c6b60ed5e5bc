import Verif.Spec.GithubClient
import Verif.Props.Github
import Verif.Lemmas.EditMessage
import Verif.Lemmas.SmartlogText

/-!
# C101: what is asked of `gh`
-/

namespace Verif.Props

open Verif Verif.Spec

/-! ### requests -/

/-- C101: `gh` understands the request to make a pull request as it is meant, whatever the title, the text and the name of the branch
are: also if the title is like an option. -/
theorem create_request (others : List PullRequest) (files : AMap Text Text) (tmp : Text) (w : ForgeWorld)
    (head title body : Text) (draft : Bool) :
    clientCreate others files tmp w head title body draft =
      (w.createPr head title body draft).map fun w' => (w', trim (w.urlOf w.next ++ t!"\n")) := by
  have h : gh others (files.insert tmp body) w (createArgs head title tmp draft) =
      (w.createPr head title body draft).map fun w' => (w', .text (w.urlOf w.next ++ t!"\n")) := by
    have h1 : (files.insert tmp body).get? tmp = some body := by simp
    have h2 : gh others (files.insert tmp body) w (createArgs head title tmp draft) =
        ghCreate (files.insert tmp body) w ((createArgs head title tmp draft).drop 2) := by cases draft <;> rfl
    have h3 : parseFlags ⟨[t!"--head", t!"--title", t!"--body-file"], [t!"--draft"]⟩
        ((createArgs head title tmp draft).drop 2) =
        some ([(t!"--head", head), (t!"--title", title), (t!"--body-file", tmp)] ++
          (if draft then [(t!"--draft", t!"true")] else []), []) := by cases draft <;> rfl
    rw [h2]
    unfold ghCreate
    rw [h3]
    cases draft
    · simp [AMap.get?, h1]
    · simp [AMap.get?, h1]
  unfold clientCreate
  rw [h]
  cases w.createPr head title body draft <;> rfl

/-- The URL which is returned is the one of the new pull request. -/
theorem created_url {others : List PullRequest} {files : AMap Text Text} {tmp : Text} {w w' : ForgeWorld}
    {head title body url : Text} {draft : Bool} (hs : ∀ c ∈ w.urlOf w.next, isSpace c = false)
    (h : clientCreate others files tmp w head title body draft = some (w', url)) :
    ∃ p, w'.prs = w.prs ++ [p] ∧ p.head = head ∧ p.title = title ∧ p.body = body ∧ p.url = url := by
  rw [create_request] at h
  unfold ForgeWorld.createPr at h
  simp only at h
  split at h
  · simp only [Option.map_some, Option.some.injEq, Prod.mk.injEq] at h
    obtain ⟨rfl, rfl⟩ := h
    refine ⟨_, rfl, rfl, rfl, rfl, ?_⟩
    have h1 : trimStart (w.urlOf w.next ++ t!"\n") = w.urlOf w.next ++ t!"\n" ∨ w.urlOf w.next = [] := by
      cases hu : w.urlOf w.next with
      | nil => exact .inr rfl
      | cons c t =>
        left
        unfold trimStart
        rw [List.cons_append, List.dropWhile_cons_of_neg]
        rw [hs c (by rw [hu]; exact List.mem_cons_self ..)]
        simp
    show w.urlOf w.next = trim _
    rcases h1 with h1 | h1
    · unfold trim
      rw [h1, trimEnd_break fun c hc => hs c (List.mem_of_getLast? hc)]
    · rw [h1]
      decide +kernel
  · cases h

/-- C101: the same for editing a pull request. -/
theorem edit_request (others : List PullRequest) (files : AMap Text Text) (tmp : Text) (w : ForgeWorld)
    (number : Nat) (base title body : Text) :
    clientUpdate others files tmp w number base title body = w.editPr number base title body := by
  have h1 : (files.insert tmp body).get? tmp = some body := by simp
  have hdash : '-' ∉ natToText number := by
    intro h
    have := mem_natToText h
    revert this
    decide
  obtain ⟨c, t, hct⟩ : ∃ c t, natToText number = c :: t := by
    cases h : natToText number with
    | nil => exact absurd h (natToText_ne_nil number)
    | cons c t => exact ⟨c, t, rfl⟩
  have hc : c ≠ '-' := by
    rintro rfl
    exact hdash (by rw [hct]; exact List.mem_cons_self ..)
  have h2 : gh others (files.insert tmp body) w (editArgs number base title tmp) =
      ghEdit (files.insert tmp body) w ((editArgs number base title tmp).drop 2) := rfl
  have h3 : parseFlags ⟨[t!"--base", t!"--title", t!"--body-file"], []⟩ ((editArgs number base title tmp).drop 2) =
      some ([(t!"--base", base), (t!"--title", title), (t!"--body-file", tmp)], [natToText number]) := by
    have h4 : parseFlags ⟨[t!"--base", t!"--title", t!"--body-file"], []⟩
        [t!"--base", base, t!"--title", title, t!"--body-file", tmp] =
        some ([(t!"--base", base), (t!"--title", title), (t!"--body-file", tmp)], []) := rfl
    show parseFlags _ (natToText number :: [t!"--base", base, t!"--title", title, t!"--body-file", tmp]) = _
    unfold parseFlags
    rw [h4, hct]
    simp [hc, Ne.symm hc]
  unfold clientUpdate
  rw [h2]
  unfold ghEdit
  rw [h3]
  simp only
  cases hf : w.prs.find? fun p => natToText p.number = natToText number with
  | none =>
    have h5 : w.editPr number base title body = none := by
      unfold ForgeWorld.editPr
      rw [if_neg]
      rw [Bool.and_eq_true, Bool.and_eq_true, List.any_eq_true]
      rintro ⟨⟨-, q, hq, hn⟩, -⟩
      have := List.find?_eq_none.1 hf q hq
      simp only [decide_eq_true_eq] at this hn
      exact this (by rw [hn])
    rw [h5]
    rfl
  | some p =>
    have h5 : p.number = number := natToText_inj (by simpa using List.find?_some hf)
    have h6 : (AMap.get? [(t!"--base", base), (t!"--title", title), (t!"--body-file", tmp)] t!"--body-file") = some tmp :=
      rfl
    simp only [h6, h1, Option.bind_some, h5]
    show Option.map Prod.fst (Option.map _ (w.editPr number base title body)) = _
    cases w.editPr number base title body <;> rfl

/-! ### what is listed -/

theorem mem_take_desc {l : List PullRequest} (hl : l.Pairwise fun p q => q.number < p.number) (p : PullRequest) :
    ∀ k, p ∈ l.take k ↔ p ∈ l ∧ (newer l p).length < k := by
  induction l with
  | nil => simp
  | cons a t ih =>
    intro k
    obtain ⟨h1, h2⟩ := List.pairwise_cons.1 hl
    cases k with
    | zero => simp
    | succ k =>
      rw [List.take_succ_cons, List.mem_cons, List.mem_cons, ih h2]
      by_cases hp : p = a
      · subst hp
        have : newer (p :: t) p = [] := by
          unfold newer
          rw [List.filter_eq_nil_iff]
          intro q hq
          rcases List.mem_cons.1 hq with rfl | hq
          · simp
          · have := h1 q hq
            simp; omega
        rw [this]; simp
      · have h3 : p ∈ t → (newer (a :: t) p).length = (newer t p).length + 1 := by
          intro hm
          unfold newer
          rw [List.filter_cons_of_pos (by simpa using h1 p hm)]
          rfl
        constructor
        · rintro (rfl | ⟨hm, hk⟩)
          · exact absurd rfl hp
          · exact ⟨.inr hm, by rw [h3 hm]; omega⟩
        · rintro ⟨rfl | hm, hk⟩
          · exact absurd rfl hp
          · rw [h3 hm] at hk
            exact .inr ⟨hm, by omega⟩

theorem mem_listed {prs : List PullRequest} (ho : MadeInOrder prs) (p : PullRequest) :
    p ∈ prs.reverse.take 30 ↔ Recent prs p := by
  rw [mem_take_desc (List.pairwise_reverse.2 ho)]
  unfold Recent newer
  rw [List.mem_reverse, List.filter_reverse, List.length_reverse]

theorem prMap_get (prs : List PullRequest) (name : Text) :
    (prMap prs).get? name = prs.reverse.find? fun p => p.head = name := by
  induction prs using List.reverseRecOn with
  | nil => rfl
  | append_singleton l a ih =>
    unfold prMap at ih ⊢
    rw [List.foldl_append, List.foldl_cons, List.foldl_nil, List.reverse_append]
    simp only [List.reverse_cons, List.reverse_nil, List.nil_append, List.cons_append, List.find?_cons]
    by_cases h : a.head = name
    · subst h
      simp
    · rw [AMap.get?_insert, if_neg h, ih]
      simp [h]

theorem clientInfos_eq (others : List PullRequest) (files : AMap Text Text) (w : ForgeWorld) :
    clientInfos others files w = some (prMap (w.prs.reverse.take 30)) := by
  unfold clientInfos
  have h : gh others files w listArgs = some (w, .rows prFields (w.prs.reverse.take 30)) := rfl
  rw [h]
  rfl

/-- C101: the pull requests which the command knows, for all pull requests of the user and of others: those of the user which are
among the 30 latest. If several have the same branch, the oldest of these counts. -/
theorem known_prs (others : List PullRequest) (files : AMap Text Text) (w : ForgeWorld) (ho : MadeInOrder w.prs) :
    ∃ infos, clientInfos others files w = some infos ∧ ∀ name p,
      infos.get? name = some p ↔ Recent w.prs p ∧ p.head = name ∧
        ∀ q, Recent w.prs q → q.head = name → p.number ≤ q.number := by
  refine ⟨_, clientInfos_eq others files w, fun name p => ?_⟩
  rw [prMap_get]
  have hL : ((w.prs.reverse.take 30).reverse).Pairwise fun p q => p.number < q.number := by
    rw [List.pairwise_reverse]
    exact (List.pairwise_reverse.2 ho).sublist (List.take_sublist ..)
  have hm : ∀ q, q ∈ (w.prs.reverse.take 30).reverse ↔ Recent w.prs q := fun q => by
    rw [List.mem_reverse, mem_listed ho]
  generalize (w.prs.reverse.take 30).reverse = L at hL hm
  have key : ∀ p, L.find? (fun p => p.head = name) = some p → Recent w.prs p ∧ p.head = name ∧
      ∀ q, Recent w.prs q → q.head = name → p.number ≤ q.number := by
    intro p h
    obtain ⟨h1, as, bs, h2, h3⟩ := List.find?_eq_some_iff_append.1 h
    subst h2
    refine ⟨(hm p).1 (by simp), by simpa using h1, fun q hq hn => ?_⟩
    rcases List.mem_append.1 ((hm q).2 hq) with h4 | h4
    · have := h3 q h4
      simp [hn] at this
    · rcases List.mem_cons.1 h4 with rfl | h4
      · exact Nat.le_refl _
      · exact Nat.le_of_lt ((List.pairwise_cons.1 (List.pairwise_append.1 hL).2.1).1 q h4)
  refine ⟨key p, fun ⟨h1, h2, h3⟩ => ?_⟩
  cases hf : L.find? fun p => p.head = name with
  | none =>
    have := List.find?_eq_none.1 hf p ((hm p).2 h1)
    simp [h2] at this
  | some p' =>
    obtain ⟨k1, k2, k3⟩ := key p' hf
    have h4 : p'.number = p.number := Nat.le_antisymm (k3 p h1 h2) (h3 p' k1 k2)
    have h5 : ∀ a ∈ L, ∀ b ∈ L, a.number = b.number → a = b := by
      intro a ha b hb hab
      by_contra hne
      rcases List.Pairwise.forall_of_forall_of_flip (R := fun a b : PullRequest => a = b ∨ a.number ≠ b.number)
        (fun _ _ => .inl rfl) (hL.imp fun h => .inr (Nat.ne_of_lt h))
        (hL.imp fun h => .inr (Nat.ne_of_gt h)) ha hb with h | h
      · exact hne h
      · exact h hab
    rw [h5 p' ((hm _).2 k1) p ((hm _).2 h1) h4]

/-- C101, for a user with at most 30 open pull requests: all of them are known, as C74 to C77 assume. -/
theorem all_prs_known_partial (others : List PullRequest) (files : AMap Text Text) (w : ForgeWorld)
    (hn : w.prs.length ≤ 30) (hh : ∀ p ∈ w.prs, ∀ q ∈ w.prs, p.head = q.head → p = q) :
    ∃ infos, clientInfos others files w = some infos ∧ ∀ name, infos.get? name = prOf w.prs name := by
  refine ⟨_, clientInfos_eq others files w, fun name => ?_⟩
  rw [prMap_get, List.take_of_length_le (by simpa using hn), List.reverse_reverse]
  rfl

theorem recent_of_few {prs : List PullRequest} (h : prs.length ≤ 30) {p : PullRequest} (hp : p ∈ prs) : Recent prs p := by
  refine ⟨hp, Nat.lt_of_lt_of_le ?_ h⟩
  unfold newer
  rw [List.length_filter_lt_length_iff_exists]
  exact ⟨p, hp, by simp⟩

/-- What the command would do if the pull requests were those which are listed. -/
theorem usual_asListed {env : ForgeEnv} {w : ForgeWorld} (hu : UsualForge env w) : UsualForge env w.asListed := by
  have hm : ∀ p ∈ w.asListed.prs, p ∈ w.prs := fun p h => List.mem_reverse.1 (List.mem_of_mem_take h)
  exact
    { graph := hu.graph
      refs := hu.refs
      notSelf := hu.notSelf
      upstream := hu.upstream
      push := hu.push
      heads := fun p hp q hq => hu.heads p (hm p hp) q (hm q hq)
      numbers := fun p hp q hq => hu.numbers p (hm p hp) q (hm q hq)
      open_ := fun p hp => hu.open_ p (hm p hp)
      refl := hu.refl
      ancestor := hu.ancestor }

theorem prOf_asListed {w : ForgeWorld} (hn : w.prs.length ≤ 30)
    (hh : ∀ p ∈ w.prs, ∀ q ∈ w.prs, p.head = q.head → p = q) : prOf w.asListed.prs = prOf w.prs := by
  funext name
  show (w.prs.reverse.take 30).find? _ = w.prs.find? _
  rw [List.take_of_length_le (by simpa using hn)]
  cases h : w.prs.find? fun p => p.head = name with
  | none =>
    rw [List.find?_eq_none] at h ⊢
    exact fun q hq => h q (List.mem_reverse.1 hq)
  | some p =>
    have h1 : p.head = name := by simpa using List.find?_some h
    cases h' : w.prs.reverse.find? fun p => p.head = name with
    | none =>
      have := List.find?_eq_none.1 h' p (List.mem_reverse.2 (List.mem_of_find?_eq_some h))
      simp [h1] at this
    | some q =>
      have h2 : q.head = name := by simpa using List.find?_some h'
      rw [hh q (List.mem_reverse.1 (List.mem_of_find?_eq_some h')) p (List.mem_of_find?_eq_some h) (by rw [h1, h2])]

/-- C101, for a user with at most 30 open pull requests: the status of every commit is the one which it has with all of them. -/
theorem few_prs_status_partial {env : ForgeEnv} {w : ForgeWorld} (hn : w.prs.length ≤ 30)
    (hh : ∀ p ∈ w.prs, ∀ q ∈ w.prs, p.head = q.head → p = q) (set : List Oid) :
    queryPrStatus env w.asListed set = queryPrStatus env w set := by
  have h := prOf_asListed hn hh
  have hat : prAt w.repo w.asListed.prs = prAt w.repo w.prs := by
    funext o
    unfold prAt
    rw [h]
  have hd : ∀ o, desiredPr env w.repo w.asListed.prs o = desiredPr env w.repo w.prs o := by
    intro o
    unfold desiredPr prBase stackLoop
    rw [hat]
  have hb : ∀ b o, branchPrStatus env w.asListed b o = branchPrStatus env w b o := by
    intro b o
    unfold branchPrStatus
    rw [h]
    show PrStatus.mk _ _ = _
    simp only [show w.asListed.repo = w.repo from rfl, hd]
    rfl
  unfold queryPrStatus
  simp only [hb]
  rfl

/-- Violation of C101: if the user has 30 later pull requests, then a pull request is not known, and its commit is said not to be
submitted, whether or not the pull request is as it should be. -/
theorem old_pr_unknown {env : ForgeEnv} {w : ForgeWorld} (hu : UsualForge env w) (ho : MadeInOrder w.prs) {set : List Oid}
    {o : Oid} (hs : o ∈ set) {p : PullRequest} (hp : HasPr w o p) (hc : Counts w p.head o)
    (hold : 30 ≤ (newer w.prs p).length) (others : List PullRequest) (files : AMap Text Text) :
    (∃ infos, clientInfos others files w = some infos ∧ infos.get? p.head = none) ∧
    ∃ s, (queryPrStatus env w.asListed set).get? o = some s ∧ s.status = .unsubmitted := by
  have hnot : ∀ q, Recent w.prs q → q.head ≠ p.head := by
    intro q hq he
    have := hu.heads q hq.1 p hp.mem he
    subst this
    have := hq.2
    omega
  constructor
  · obtain ⟨infos, h1, h2⟩ := known_prs others files w ho
    refine ⟨infos, h1, ?_⟩
    cases h : infos.get? p.head with
    | none => rfl
    | some q =>
      obtain ⟨h3, h4, -⟩ := (h2 _ _).1 h
      exact absurd h4 (hnot q h3)
  · obtain ⟨s, h1, h2⟩ := pr_status (usual_asListed hu) hs
    refine ⟨s, h1, ?_⟩
    have hw : ∀ b, Counts w.asListed b o → b = p.head := by
      intro b hb
      exact counts_unique (w := w) hu.refs hb hc
    have hno : ∀ b q, Counts w.asListed b o → HasPr w.asListed o q → q.head ≠ b := by
      intro b q hb hq he
      rw [hw b hb] at he
      exact hnot q ((mem_listed ho q).1 hq.mem) he
    rcases h2 with h2 | ⟨_, b, ⟨h3, q, h4, h5, -⟩, -⟩ | ⟨_, b, ⟨h3, q, h4, h5, -⟩, -⟩
    · exact h2.1
    · exact absurd h5 (hno b q h3 h4)
    · exact absurd h5 (hno b q h3 h4)

/-- C101: then a pull request for the same branch is asked for with `--create`, which fails. -/
theorem duplicate_refused {env : ForgeEnv} {w : ForgeWorld} {p : PullRequest} (hp : p ∈ w.prs) (o : Oid)
    (rest : List (Oid × Text)) (draft : Bool) :
    createPrLoop env draft w ((o, p.head) :: rest) =
      (w, [.createPr p.head (env.summary o) (env.message o) draft], false) := by
  have h : w.createPr p.head (env.summary o) (env.message o) draft = none := by
    unfold ForgeWorld.createPr
    have : (w.prs.any fun q => q.head = p.head) = true := List.any_eq_true.2 ⟨p, hp, by simp⟩
    simp [this]
  unfold createPrLoop
  rw [h]

/-! ### which forge -/

/-- C101: pull requests are used only if this is asked for; and Phabricator if it is asked for, or if nothing is and the working copy
has the file `.arcconfig`. -/
theorem forge_used (explicit : Option ForgeKind) (arcconfig : Option Bool) (githubRemote : Option Text) :
    (selectForge explicit arcconfig githubRemote = .github ↔ explicit = some .github) ∧
    (selectForge explicit arcconfig githubRemote = .phabricator ↔
      explicit = some .phabricator ∨ explicit = none ∧ arcconfig = some true) ∧
    (selectForge explicit arcconfig githubRemote = .branch ↔
      explicit = some .branch ∨ explicit = none ∧ arcconfig ≠ some true) := by
  rcases explicit with _ | k
  · rcases arcconfig with _ | b
    · simp [selectForge]
    · cases b <;> simp [selectForge]
  · cases k <;> simp [selectForge]

/-- C101: the remote for pull requests is the first one which `gh repo set-default` has set. -/
theorem push_remote_first (config : Text → Option Text) (remotes : List Text) (r : Text) :
    githubPushRemote config remotes = some r ↔ ∃ before after, remotes = before ++ r :: after ∧
      config (t!"remote." ++ r ++ t!".gh-resolved") = some t!"base" ∧
      ∀ x ∈ before, config (t!"remote." ++ x ++ t!".gh-resolved") ≠ some t!"base" := by
  induction remotes with
  | nil => simp [githubPushRemote]
  | cons a t ih =>
    unfold githubPushRemote
    split
    · rename_i h
      constructor
      · intro h1
        cases h1
        exact ⟨[], t, rfl, h, by simp⟩
      · rintro ⟨before, after, h1, h2, h3⟩
        cases before with
        | nil => cases h1; rfl
        | cons b before =>
          cases h1
          exact absurd h (h3 a (List.mem_cons_self ..))
    · rename_i h
      rw [ih]
      constructor
      · rintro ⟨before, after, rfl, h2, h3⟩
        refine ⟨a :: before, after, rfl, h2, ?_⟩
        intro x hx
        rcases List.mem_cons.1 hx with rfl | hx
        · exact h
        · exact h3 x hx
      · rintro ⟨before, after, h1, h2, h3⟩
        cases before with
        | nil => cases h1; exact absurd h2 h
        | cons b before =>
          cases h1
          exact ⟨before, after, rfl, h2, fun x hx => h3 x (List.mem_cons_of_mem _ hx)⟩

end Verif.Props
