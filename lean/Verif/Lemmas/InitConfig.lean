import Verif.Spec.InitConfig

/-! Lemmas on configuration files. -/

namespace Verif

open Verif.Spec

theorem getValue_nil (k : Text) : getValue [] k = none := rfl

theorem getValue_append (a b : ConfigFile) (k : Text) : getValue (a ++ b) k = (getValue b k).or (getValue a k) := by
  unfold getValue
  rw [List.reverse_append, List.find?_append]
  cases b.reverse.find? (·.1 = k) <;> simp

theorem getValue_one (e : Text × Text) (k : Text) : getValue [e] k = if e.1 = k then some e.2 else none := by
  unfold getValue
  by_cases h : e.1 = k <;> simp [h]

theorem getValue_cons (e : Text × Text) (c : ConfigFile) (k : Text) :
    getValue (e :: c) k = (getValue c k).or (if e.1 = k then some e.2 else none) := by
  rw [show e :: c = [e] ++ c from rfl, getValue_append, getValue_one]

theorem getValue_none {c : ConfigFile} {k : Text} : getValue c k = none ↔ Unset c k := by
  unfold getValue Unset
  simp

theorem getValue_some {c : ConfigFile} {k v : Text} : getValue c k = some v ↔ ValueOf c k v := by
  constructor
  · intro h
    induction c with
    | nil => simp [getValue] at h
    | cons e c ih =>
      rw [getValue_cons] at h
      cases hc : getValue c k with
      | some w =>
        rw [hc] at h ih
        obtain ⟨a, b, rfl, hb⟩ := ih h
        exact ⟨e :: a, b, rfl, hb⟩
      | none =>
        rw [hc] at h
        by_cases he : e.1 = k
        · simp only [Option.none_or, he, if_true, Option.some.injEq] at h
          refine ⟨[], c, ?_, getValue_none.1 hc⟩
          rw [← he, ← h]
          rfl
        · simp [he] at h
  · rintro ⟨a, b, rfl, hb⟩
    rw [getValue_append, getValue_cons, getValue_none.2 hb]
    simp

theorem ValueOf.eq {c : ConfigFile} {k v w : Text} (h : ValueOf c k v) (h' : ValueOf c k w) : v = w := by
  rw [← getValue_some] at h h'
  exact Option.some.inj (h.symm.trans h')

theorem valueOf_congr {c d : ConfigFile} {k : Text} (h : getValue c k = getValue d k) (v : Text) :
    ValueOf c k v ↔ ValueOf d k v := by rw [← getValue_some, ← getValue_some, h]

theorem countKey_zero {c : ConfigFile} {k : Text} : countKey c k = 0 ↔ Unset c k := by
  unfold countKey Unset
  rw [List.countP_eq_zero]
  simp

theorem countKey_le {c : ConfigFile} (h : UniqueKeys c) (k : Text) : countKey c k ≤ 1 := by
  have := List.nodup_iff_count_le_one.1 h k
  unfold countKey
  rw [List.count, List.countP_map] at this
  refine le_of_eq_of_le ?_ this
  congr 1
  funext e
  by_cases he : e.1 = k <;> simp [he]

theorem getValue_map (c : ConfigFile) (k v k' : Text) :
    getValue (c.map fun e => if e.1 = k then (k, v) else e) k' =
      if k = k' then (getValue c k').map fun _ => v else getValue c k' := by
  induction c with
  | nil => by_cases h : k = k' <;> simp [getValue_nil, h]
  | cons e c ih =>
    rw [List.map_cons, getValue_cons, getValue_cons, ih]
    by_cases h : k = k'
    · subst h
      by_cases he : e.1 = k <;> simp [he] <;> cases getValue c k <;> simp
    · by_cases he : e.1 = k
      · have : e.1 ≠ k' := fun h' => h (he.symm.trans h')
        simp [h, he]
      · simp [h, he]

theorem setValue_value {c d : ConfigFile} {k v : Text} (h : setValue c k v = some d) (k' : Text) :
    getValue d k' = if k = k' then some v else getValue c k' := by
  unfold setValue at h
  by_cases h1 : 1 < countKey c k
  · rw [if_pos h1] at h
    cases h
  · rw [if_neg h1] at h
    by_cases h2 : countKey c k = 1
    · rw [if_pos h2] at h
      cases h
      rw [getValue_map]
      by_cases hk : k = k'
      · subst hk
        have : getValue c k ≠ none := by
          rw [Ne, getValue_none, ← countKey_zero]
          omega
        obtain ⟨w, hw⟩ := Option.ne_none_iff_exists'.1 this
        simp [hw]
      · simp [hk]
    · rw [if_neg h2] at h
      cases h
      rw [getValue_append, getValue_one]
      by_cases hk : k = k' <;> simp [hk]

theorem keys_map (c : ConfigFile) (k v : Text) :
    (c.map fun e => if e.1 = k then (k, v) else e).map Prod.fst = c.map Prod.fst := by
  rw [List.map_map]
  apply List.map_congr_left
  intro e _
  by_cases h : e.1 = k <;> simp [h]

theorem setValue_unique {c d : ConfigFile} {k v : Text} (h : setValue c k v = some d) (hu : UniqueKeys c) :
    UniqueKeys d := by
  unfold setValue at h
  rw [if_neg (by have := countKey_le hu k; omega)] at h
  by_cases h2 : countKey c k = 1
  · rw [if_pos h2] at h
    cases h
    unfold UniqueKeys
    rw [keys_map]
    exact hu
  · rw [if_neg h2] at h
    cases h
    have h0 : countKey c k = 0 := by have := countKey_le hu k; omega
    rw [countKey_zero] at h0
    unfold UniqueKeys at hu ⊢
    rw [List.map_append, List.nodup_append]
    refine ⟨hu, by simp, ?_⟩
    intro a ha b hb
    obtain ⟨e, he, rfl⟩ := List.mem_map.1 ha
    simp only [List.map_cons, List.map_nil, List.mem_singleton] at hb
    rw [hb]
    exact h0 e he

theorem setValue_total {c : ConfigFile} (hu : UniqueKeys c) (k v : Text) : ∃ d, setValue c k v = some d := by
  unfold setValue
  rw [if_neg (by have := countKey_le hu k; omega)]
  split <;> exact ⟨_, rfl⟩

theorem setValue_failed {c : ConfigFile} {k v : Text} (h : setValue c k v = none) : ¬UniqueKeys c := by
  intro hu
  obtain ⟨d, hd⟩ := setValue_total hu k v
  rw [h] at hd
  cases hd

theorem getValue_filter (c : ConfigFile) (k k' : Text) :
    getValue (c.filter (·.1 ≠ k)) k' = if k = k' then none else getValue c k' := by
  induction c with
  | nil => by_cases h : k = k' <;> simp [getValue_nil, h]
  | cons e c ih =>
    by_cases he : e.1 = k
    · rw [List.filter_cons_of_neg (by simp [he]), ih, getValue_cons]
      by_cases h : k = k'
      · simp [h]
      · simp [h, he]
    · rw [List.filter_cons_of_pos (by simp [he]), getValue_cons, ih, getValue_cons]
      by_cases h : k = k'
      · subst h
        simp [he]
      · simp [h]

theorem removeValue_value {c d : ConfigFile} {k : Text} (h : removeValue c k = some d) (k' : Text) :
    getValue d k' = if k = k' then none else getValue c k' := by
  unfold removeValue at h
  by_cases h1 : countKey c k = 1
  · rw [if_pos h1] at h
    cases h
    exact getValue_filter c k k'
  · rw [if_neg h1] at h
    cases h

theorem removeValue_unique {c d : ConfigFile} {k : Text} (h : removeValue c k = some d) (hu : UniqueKeys c) :
    UniqueKeys d := by
  unfold removeValue at h
  split at h
  · cases h
    exact hu.sublist (List.filter_sublist.map _)
  · cases h

theorem removeValue_total {c : ConfigFile} (hu : UniqueKeys c) {k : Text} (h : (getValue c k).isSome) :
    ∃ d, removeValue c k = some d := by
  unfold removeValue
  rw [if_pos]
  · exact ⟨_, rfl⟩
  · have := countKey_le hu k
    have h0 : countKey c k ≠ 0 := by
      rw [Ne, countKey_zero, ← getValue_none]
      intro hn
      rw [hn] at h
      cases h
    omega

/-! ### several values -/

theorem setValues_value {c d : ConfigFile} {kvs : List (Text × Text)} (h : setValues c kvs = (d, true))
    (k : Text) : getValue d k = (getValue kvs k).or (getValue c k) := by
  induction kvs generalizing c with
  | nil =>
    simp only [setValues, Prod.mk.injEq] at h
    rw [h.1]
    rfl
  | cons kv kvs ih =>
    obtain ⟨k1, v1⟩ := kv
    simp only [setValues] at h
    cases hs : setValue c k1 v1 with
    | none => simp [hs] at h
    | some c1 =>
      rw [hs] at h
      rw [ih h, setValue_value hs, getValue_cons]
      by_cases hk : k1 = k
      · simp [hk]
      · simp [hk]

theorem setValues_unique {c d : ConfigFile} {kvs : List (Text × Text)} (hu : UniqueKeys c)
    (h : (setValues c kvs).1 = d) : UniqueKeys d := by
  induction kvs generalizing c with
  | nil => exact h ▸ hu
  | cons kv kvs ih =>
    obtain ⟨k1, v1⟩ := kv
    simp only [setValues] at h
    cases hs : setValue c k1 v1 with
    | none =>
      rw [hs] at h
      exact h ▸ hu
    | some c1 =>
      rw [hs] at h
      exact ih (setValue_unique hs hu) h

theorem setValues_total {c : ConfigFile} (kvs : List (Text × Text)) (hu : UniqueKeys c) :
    (setValues c kvs).2 = true := by
  induction kvs generalizing c with
  | nil => rfl
  | cons kv kvs ih =>
    obtain ⟨k1, v1⟩ := kv
    obtain ⟨d, hd⟩ := setValue_total hu k1 v1
    simp only [setValues, hd]
    exact ih (setValue_unique hd hu)

/-! ### aliases -/

/-- The key of an alias. -/
def aliasKey (a : Text × Text) : Text := t!"alias." ++ a.1

theorem installAlias_eq (defaults c : ConfigFile) (a : Text × Text) :
    installAlias defaults c a =
      match (if (getValue c (aliasKey a)).isSome then removeValue c (aliasKey a) else some c) with
      | none => (c, false)
      | some c =>
        if (getValue defaults (aliasKey a)).isSome then (c, true)
        else match setValue c (aliasKey a) (t!"branchless " ++ a.2) with
          | none => (c, false)
          | some c => (c, true) := rfl

theorem removed_value {c d : ConfigFile} {k : Text}
    (h : (if (getValue c k).isSome then removeValue c k else some c) = some d) (k' : Text) :
    getValue d k' = if k = k' then none else getValue c k' := by
  by_cases hg : (getValue c k).isSome
  · rw [if_pos hg] at h
    exact removeValue_value h k'
  · rw [if_neg hg] at h
    cases h
    by_cases hk : k = k'
    · subst hk
      rw [if_pos rfl]
      simpa using hg
    · simp [hk]

theorem installAlias_value {defaults c d : ConfigFile} {a : Text × Text}
    (h : installAlias defaults c a = (d, true)) (k : Text) :
    getValue d k =
      if aliasKey a = k then (if (getValue defaults k).isSome then none else some (t!"branchless " ++ a.2))
      else getValue c k := by
  rw [installAlias_eq] at h
  cases hr : (if (getValue c (aliasKey a)).isSome then removeValue c (aliasKey a) else some c) with
  | none =>
    rw [hr] at h
    simp at h
  | some c1 =>
    rw [hr] at h
    have h1 := removed_value hr
    simp only at h
    by_cases hd : (getValue defaults (aliasKey a)).isSome
    · rw [if_pos hd] at h
      cases h
      rw [h1]
      by_cases hk : aliasKey a = k
      · subst hk
        simp [hd]
      · simp [hk]
    · rw [if_neg hd] at h
      cases hs : setValue c1 (aliasKey a) (t!"branchless " ++ a.2) with
      | none =>
        rw [hs] at h
        simp at h
      | some c2 =>
        rw [hs] at h
        cases h
        rw [setValue_value hs, h1]
        by_cases hk : aliasKey a = k
        · subst hk
          simp [hd]
        · simp [hk]

theorem installAlias_unique {defaults c d : ConfigFile} {a : Text × Text} (hu : UniqueKeys c)
    (h : (installAlias defaults c a).1 = d) : UniqueKeys d := by
  rw [installAlias_eq] at h
  cases hr : (if (getValue c (aliasKey a)).isSome then removeValue c (aliasKey a) else some c) with
  | none =>
    rw [hr] at h
    exact h ▸ hu
  | some c1 =>
    have hu1 : UniqueKeys c1 := by
      by_cases hg : (getValue c (aliasKey a)).isSome
      · rw [if_pos hg] at hr
        exact removeValue_unique hr hu
      · rw [if_neg hg] at hr
        cases hr
        exact hu
    rw [hr] at h
    simp only at h
    by_cases hd : (getValue defaults (aliasKey a)).isSome
    · rw [if_pos hd] at h
      exact h ▸ hu1
    · rw [if_neg hd] at h
      cases hs : setValue c1 (aliasKey a) (t!"branchless " ++ a.2) with
      | none =>
        rw [hs] at h
        exact h ▸ hu1
      | some c2 =>
        rw [hs] at h
        exact h ▸ setValue_unique hs hu1

theorem installAlias_total {c : ConfigFile} (defaults : ConfigFile) (a : Text × Text) (hu : UniqueKeys c) :
    (installAlias defaults c a).2 = true := by
  rw [installAlias_eq]
  have hr : ∃ d, (if (getValue c (aliasKey a)).isSome then removeValue c (aliasKey a) else some c) = some d ∧
      UniqueKeys d := by
    by_cases hg : (getValue c (aliasKey a)).isSome
    · obtain ⟨d, hd⟩ := removeValue_total hu hg
      exact ⟨d, by rw [if_pos hg, hd], removeValue_unique hd hu⟩
    · exact ⟨c, by rw [if_neg hg], hu⟩
  obtain ⟨d, hd, hud⟩ := hr
  rw [hd]
  simp only
  by_cases hx : (getValue defaults (aliasKey a)).isSome
  · rw [if_pos hx]
  · rw [if_neg hx]
    obtain ⟨e, he⟩ := setValue_total hud (aliasKey a) (t!"branchless " ++ a.2)
    rw [he]

theorem aliases_other {defaults c d : ConfigFile} {as : List (Text × Text)}
    (h : installAliasesLoop defaults c as = (d, true)) {k : Text} (hk : ∀ a ∈ as, aliasKey a ≠ k) :
    getValue d k = getValue c k := by
  induction as generalizing c with
  | nil =>
    simp only [installAliasesLoop, Prod.mk.injEq] at h
    rw [h.1]
  | cons a as ih =>
    simp only [installAliasesLoop] at h
    cases hi : installAlias defaults c a with
    | mk c1 ok =>
      rw [hi] at h
      cases ok with
      | false => simp at h
      | true =>
        simp only at h
        rw [ih h fun b hb => hk b (by simp [hb]), installAlias_value hi, if_neg (hk a (by simp))]

theorem aliases_value {defaults c d : ConfigFile} {as : List (Text × Text)}
    (h : installAliasesLoop defaults c as = (d, true)) (hn : (as.map Prod.fst).Nodup) {a : Text × Text}
    (ha : a ∈ as) :
    getValue d (aliasKey a) =
      if (getValue defaults (aliasKey a)).isSome then none else some (t!"branchless " ++ a.2) := by
  induction as generalizing c with
  | nil => cases ha
  | cons b as ih =>
    simp only [installAliasesLoop] at h
    rw [List.map_cons, List.nodup_cons] at hn
    cases hi : installAlias defaults c b with
    | mk c1 ok =>
      rw [hi] at h
      cases ok with
      | false => simp at h
      | true =>
        simp only at h
        rcases List.mem_cons.1 ha with rfl | ha
        · rw [aliases_other h, installAlias_value hi, if_pos rfl]
          intro x hx he
          have : x.1 = a.1 := List.append_cancel_left he
          exact hn.1 (this ▸ List.mem_map.2 ⟨x, hx, rfl⟩)
        · exact ih h hn.2 ha

theorem aliases_total {c : ConfigFile} (defaults : ConfigFile) (as : List (Text × Text)) (hu : UniqueKeys c) :
    (installAliasesLoop defaults c as).2 = true := by
  induction as generalizing c with
  | nil => rfl
  | cons a as ih =>
    simp only [installAliasesLoop]
    have h1 := installAlias_total defaults a hu
    cases hi : installAlias defaults c a with
    | mk c1 ok =>
      rw [hi] at h1
      cases h1
      exact ih (installAlias_unique hu (by rw [hi]))

theorem allAliases_nodup : (allAliases.map Prod.fst).Nodup := by decide +kernel

/-! ### the include -/

theorem isOurInclude_iff {e : Text × Text} : isOurInclude e = true ↔ OurInclude e := by
  unfold isOurInclude OurInclude includeMatches includeKey
  rw [Bool.and_eq_true, decide_eq_true_eq, List.isPrefixOf_iff_prefix]
  constructor
  · rintro ⟨h, r, hr⟩
    exact ⟨h, r, hr.symm⟩
  · rintro ⟨h, r, hr⟩
    exact ⟨h, r, hr.symm⟩

theorem ours_isolated : OurInclude (includeKey, isolatedPath) := ⟨rfl, t!"config", rfl⟩

theorem removeInclude_eq (c : ConfigFile) : removeInclude c = ownEntries c := by
  unfold removeInclude ownEntries
  apply List.filter_congr
  intro e _
  by_cases h : isOurInclude e = true
  · simp [h, isOurInclude_iff.1 h]
  · have : ¬OurInclude e := fun h' => h (isOurInclude_iff.2 h')
    simp [h, this]

theorem own_setInclude (c : ConfigFile) : ownEntries (setInclude c) = ownEntries c := by
  unfold setInclude
  by_cases h : c.any isOurInclude = true
  · rw [if_pos h]
    clear h
    unfold ownEntries
    induction c with
    | nil => rfl
    | cons e c ih =>
      rw [List.map_cons]
      by_cases he : isOurInclude e = true
      · rw [if_pos he, List.filter_cons_of_neg (by simpa using ours_isolated),
          List.filter_cons_of_neg (by simpa using isOurInclude_iff.1 he), ih]
      · have : ¬OurInclude e := fun h' => he (isOurInclude_iff.2 h')
        rw [if_neg he, List.filter_cons_of_pos (by simpa using this),
          List.filter_cons_of_pos (by simpa using this), ih]
  · rw [if_neg h]
    unfold ownEntries
    rw [List.filter_append, List.filter_cons_of_neg (by simpa using ours_isolated)]
    simp

theorem own_own (c : ConfigFile) : ownEntries (ownEntries c) = ownEntries c := by
  unfold ownEntries
  rw [List.filter_filter]
  simp

theorem own_of_none {c : ConfigFile} (h : ∀ e ∈ c, ¬OurInclude e) : ownEntries c = c := by
  unfold ownEntries
  rw [List.filter_eq_self]
  intro e he
  simpa using h e he

theorem setInclude_fresh {c : ConfigFile} (h : ∀ e ∈ c, ¬OurInclude e) :
    setInclude c = c ++ [(includeKey, isolatedPath)] := by
  unfold setInclude
  rw [if_neg]
  intro ha
  obtain ⟨e, he, ho⟩ := List.any_eq_true.1 ha
  exact h e he (isOurInclude_iff.1 ho)

theorem setInclude_idem (c : ConfigFile) : setInclude (setInclude c) = setInclude c := by
  have key : ∀ d : ConfigFile, (∀ e ∈ d, OurInclude e → e = (includeKey, isolatedPath)) →
      d.map (fun e => if isOurInclude e then (includeKey, isolatedPath) else e) = d := by
    intro d hd
    conv_rhs => rw [← List.map_id d]
    apply List.map_congr_left
    intro e he
    by_cases h : isOurInclude e = true
    · rw [if_pos h]
      exact (hd e he (isOurInclude_iff.1 h)).symm
    · rw [if_neg h]
      rfl
  have hall : ∀ e ∈ setInclude c, OurInclude e → e = (includeKey, isolatedPath) := by
    intro e he ho
    unfold setInclude at he
    by_cases h : c.any isOurInclude = true
    · rw [if_pos h] at he
      obtain ⟨x, _, rfl⟩ := List.mem_map.1 he
      by_cases hx : isOurInclude x = true
      · rw [if_pos hx]
      · rw [if_neg hx] at ho
        exact absurd (isOurInclude_iff.2 ho) hx
    · rw [if_neg h] at he
      rcases List.mem_append.1 he with he | he
      · exact absurd (List.any_eq_true.2 ⟨e, he, isOurInclude_iff.2 ho⟩) h
      · simpa using he
  have hany : (setInclude c).any isOurInclude = true := by
    have hi : isOurInclude (includeKey, isolatedPath) = true := isOurInclude_iff.2 ours_isolated
    unfold setInclude
    by_cases h : c.any isOurInclude = true
    · rw [if_pos h]
      obtain ⟨x, hx, ho⟩ := List.any_eq_true.1 h
      exact List.any_eq_true.2 ⟨_, List.mem_map.2 ⟨x, hx, rfl⟩, by rw [if_pos ho]; exact hi⟩
    · rw [if_neg h]
      exact List.any_eq_true.2 ⟨_, List.mem_append_right _ List.mem_cons_self, hi⟩
  rw [show setInclude (setInclude c) = if (setInclude c).any isOurInclude then
    (setInclude c).map (fun e => if isOurInclude e then (includeKey, isolatedPath) else e)
    else setInclude c ++ [(includeKey, isolatedPath)] from rfl, if_pos hany]
  exact key _ hall

/-! ### the main branch -/

theorem firstBranch_some {env : InitCommandEnv} {ns : List Text} {r : Option Text}
    (h : firstBranch env ns = some r) :
    (∀ name, r = some name → ∃ a b, ns = a ++ name :: b ∧ (∀ n ∈ a, env.findBranch n = some false) ∧
      env.findBranch name = some true) ∧
    (r = none → ∀ n ∈ ns, env.findBranch n = some false) := by
  induction ns with
  | nil =>
    simp only [firstBranch, Option.some.injEq] at h
    subst h
    exact ⟨by simp, by simp⟩
  | cons n ns ih =>
    simp only [firstBranch] at h
    cases hf : env.findBranch n with
    | none => simp [hf] at h
    | some b =>
      rw [hf] at h
      cases b with
      | true =>
        simp only [Option.some.injEq] at h
        subst h
        refine ⟨?_, by simp⟩
        rintro name he
        cases he
        exact ⟨[], ns, rfl, by simp, hf⟩
      | false =>
        obtain ⟨h1, h2⟩ := ih h
        refine ⟨?_, ?_⟩
        · intro name hn
          obtain ⟨a, b, rfl, ha, hb⟩ := h1 name hn
          refine ⟨n :: a, b, rfl, ?_, hb⟩
          intro m hm
          rcases List.mem_cons.1 hm with rfl | hm
          · exact hf
          · exact ha m hm
        · intro hr m hm
          rcases List.mem_cons.1 hm with rfl | hm
          · exact hf
          · exact h2 hr m hm

theorem firstBranch_none {env : InitCommandEnv} {ns : List Text} (h : firstBranch env ns = none) :
    ∃ n ∈ ns, env.findBranch n = none := by
  induction ns with
  | nil => simp [firstBranch] at h
  | cons n ns ih =>
    simp only [firstBranch] at h
    cases hf : env.findBranch n with
    | none => exact ⟨n, by simp, hf⟩
    | some b =>
      rw [hf] at h
      cases b with
      | true => simp at h
      | false =>
        obtain ⟨m, hm, he⟩ := ih h
        exact ⟨m, by simp [hm], he⟩

end Verif
