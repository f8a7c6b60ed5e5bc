import Verif.Lemmas.MoveExact
import Verif.Props.MoveExample

/-! C62: `move` with `--exact`. -/

namespace Verif.Props

open Verif Verif.Spec

/-- C62: a rebase in memory moves exactly the selected commits: those whose parent is not selected are put
on the nearest selected ancestor, or on the destination, and the others stay on top of their parents. What
was on top of the selected commits is put below them, on the nearest ancestor which is not selected. If
there are several nearest selected ancestors (because of a merge commit between), it is one of them.
Missing: merge commits among the selected ones and their children. -/
theorem move_exact_in_memory_partial (graph : CommitGraph Oid) (hg : WFGraph graph) (main : Text)
    (w : RepoWorld) (hw : AMap.WF w.git.refs) (es : List Event) (he : w.db.getEvents = some es)
    (r : Replayer) (d : Dag) (h : openRepoDag graph main w = some (r, d)) (env : MoveCmdEnv)
    (hc : SetContract env) (X : List Oid) (hn : ∀ x ∈ X, x ∈ graph.nodes)
    (hX : ∀ x ∈ X, (graph.parentsOf x).length ≤ 1)
    (hch : ∀ c x, c ∉ X → Seen graph main w.git es c → x ∈ X → IsParent graph x c →
      (graph.parentsOf c).length ≤ 1)
    (comps : AMap Oid (List Oid)) (hcomps : exactComponents env d X = .ok (.ok comps)) (dest : Oid)
    (plan : RebasePlan) (hp : movePlan env d false false [] comps dest = .ok (.ok (some plan)))
    (hnc : NoCollisions env.exec) (head : Option Oid) (s : ExecState) (newHead : Option Oid)
    (hx : env.exec.rebaseInMemory head plan = .ok (s, newHead)) :
    let request := ExactRequest graph (Seen graph main w.git es) (· ∈ X) dest
    ∃ place : Oid → Oid, (∀ p c, request p c → request (place c) c) ∧
      let moves := Carried graph (Seen graph main w.git es) (fun p c => request p c ∧ p = place c)
      Relocated env.exec moves (fun c => env.detectDuplicateCommitsViaPatchId = true ∧
        AppliedUpstream graph env.patchId moves c) s head newHead := by
  intro request
  obtain ⟨hgr, -⟩ := graph_opened he h
  have hs : ∀ o, Seen graph main w.git es o ↔ o ∈ d.graph.nodes ∧
      ∃ x ∈ d.visibleHeads, Anc d.graph o x := by rw [hgr]; exact seen_opened hg hw he h
  have hv := mem_filterVisible_opened hg hw he h
  subst hgr
  have hC := exactComponents_ok hc hg hcomps
  obtain ⟨perms, cs, _, _, hcs, _⟩ := movePlan_some hp
  obtain ⟨rs, rfl, h1, h2, h4, h5⟩ := exact_requests_right hc hg hC hn hX hv hch hcs
  have h3 : ∀ p c, request p c → ∃ q, (c, q) ∈ rs := by
    rintro p c (⟨ht, _⟩ | ⟨h6, h7, ⟨x, hx, hxc⟩, _⟩)
    · exact h4 c ht
    · exact h5 c x h6 h7 hx hxc
  have hex : ∀ c, ∃ p, ((∃ q, request q c) → (c, p) ∈ rs) := by
    intro c
    by_cases hq : ∃ q, request q c
    · obtain ⟨q, hq⟩ := hq
      obtain ⟨p, hp⟩ := h3 q c hq
      exact ⟨p, fun _ => hp⟩
    · exact ⟨c, fun h => absurd h hq⟩
  choose place hplace using hex
  refine ⟨place, fun p c hpc => h1 _ _ (hplace c ⟨p, hpc⟩), ?_⟩
  refine movePlan_relocated hg hp hcs ?_ hs ?_ ?_ hnc hx
  · intro p c hpc
    rcases h1 p c hpc with ⟨ht, _⟩ | ⟨h4, h5, ⟨x, hx, hxc⟩, _⟩
    · exact hX c ht.1
    · exact hch c x h4 h5 hx hxc
  · intro p c
    constructor
    · intro hpc
      exact ⟨h1 p c hpc, h2 _ _ _ hpc (hplace c ⟨p, h1 p c hpc⟩)⟩
    · rintro ⟨hpc, rfl⟩
      exact hplace c ⟨_, hpc⟩
  · rintro p q c ⟨_, rfl⟩ ⟨_, rfl⟩
    rfl

/-! ### when it is refused -/

/-- The selected commits from which one can go up, through selected commits, to a commit. -/
inductive UpTo (graph : CommitGraph Oid) (X : List Oid) : Oid → Oid → Prop
  | root {r} : Topmost graph (· ∈ X) r → UpTo graph X r r
  | step {r a b} : UpTo graph X a r → IsParent graph a b → b ∈ X → UpTo graph X b r

theorem UpTo.mem {g : CommitGraph Oid} {X : List Oid} {x r : Oid} (h : UpTo g X x r) : x ∈ X := by
  cases h with
  | root h => exact h.1
  | step _ _ h => exact h

theorem upTo_exists {g : CommitGraph Oid} (hg : WFGraph g) {X : List Oid} {x : Oid} (hx : x ∈ X) :
    ∃ r, UpTo g X x r ∧ Topmost g (· ∈ X) r := by
  have key : ∀ n x, x ∈ X → ageOf g.entries x = n → ∃ r, UpTo g X x r ∧ Topmost g (· ∈ X) r := by
    intro n
    induction n using Nat.strongRecOn with
    | _ n ih =>
      intro x hx hn
      by_cases ht : Topmost g (· ∈ X) x
      · exact ⟨x, .root ht, ht⟩
      · unfold Topmost at ht
        push Not at ht
        obtain ⟨p, hp, hpX⟩ := ht hx
        obtain ⟨r, hr, hr'⟩ := ih _ (hn ▸ age_lt hg hp) p hpX rfl
        exact ⟨r, .step hr hp hx, hr'⟩
  exact key _ x hx rfl

theorem upTo_linked {g : CommitGraph Oid} (hg : WFGraph g) {X : List Oid}
    (hX : ∀ x ∈ X, (g.parentsOf x).length ≤ 1) {a b r : Oid} (hab : Linked g X a b) (h : UpTo g X a r) :
    UpTo g X b r := by
  obtain ⟨ha, hb, hp | hp⟩ := hab
  · exact .step h hp hb
  · cases h with
    | root ht => exact absurd hb (ht.2 b hp)
    | @step r a' _ h' hp' _ =>
      rw [parent_unique hg (hX a ha) hp hp']
      exact h'

theorem upTo_unique {g : CommitGraph Oid} {X : List Oid} {a r : Oid} (h : UpTo g X a r)
    (ha : Topmost g (· ∈ X) a) : a = r := by
  cases h with
  | root _ => rfl
  | step h hp _ => exact absurd h.mem (ha.2 _ hp)

theorem mapM_except_ok {α β ε : Type} {f : α → Except ε β} {l : List α} (h : ∀ a ∈ l, ∃ b, f a = .ok b) :
    ∃ ys, l.mapM f = .ok ys := by
  induction l with
  | nil => exact ⟨[], rfl⟩
  | cons a l ih =>
    obtain ⟨b, hb⟩ := h a (by simp)
    obtain ⟨ys, hys⟩ := ih fun a ha => h a (List.mem_cons_of_mem _ ha)
    refine ⟨b :: ys, ?_⟩
    rw [List.mapM_cons, hb, hys]
    rfl

theorem mapM_except_error {α β ε : Type} {f : α → Except ε β} {l : List α} {e : ε}
    (h : ∀ a ∈ l, (∃ b, f a = .ok b) ∨ f a = .error e) (he : ∃ a ∈ l, f a = .error e) :
    l.mapM f = .error e := by
  induction l with
  | nil => simp at he
  | cons a l ih =>
    rw [List.mapM_cons]
    rcases h a (by simp) with ⟨b, hb⟩ | ha
    · obtain ⟨x, hx, hxe⟩ := he
      rcases List.mem_cons.1 hx with rfl | hx
      · rw [hb] at hxe; simp at hxe
      · rw [hb, ih (fun a ha => h a (List.mem_cons_of_mem _ ha)) ⟨x, hx, hxe⟩]
        rfl
    · rw [ha]; rfl

/-- C62: if there are no merge commits among the selected ones, they are refused exactly if one of them has
no parent. -/
theorem exact_selection_ok_iff (env : MoveCmdEnv) (hc : SetContract env) (d : Dag) (hg : WFGraph d.graph)
    (X : List Oid) (hX : ∀ x ∈ X, (d.graph.parentsOf x).length ≤ 1) :
    ((∀ x ∈ X, ∃ p, IsParent d.graph p x) → ∃ comps, exactComponents env d X = .ok (.ok comps)) ∧
    ((∃ x ∈ X, ∀ p, ¬ IsParent d.graph p x) →
      exactComponents env d X = .ok (.error (.exactParents 0))) := by
  obtain ⟨ks, h1, hcov, hpw, hcon⟩ := components_partition d.graph hg X
  have hone : ∀ K ∈ ks, ∃ r, env.nav.toVec (d.graph.roots K) = [r] ∧ r ∈ K ∧ Topmost d.graph (· ∈ X) r ∧
      ∀ x ∈ K, Topmost d.graph (· ∈ X) x → x = r := by
    intro K hK
    obtain ⟨c, hcK, hall⟩ := hcon K hK
    have hKX : ∀ x ∈ K, x ∈ X := fun x hx => (hcov x).2 ⟨K, hK, hx⟩
    have hback : ∀ x r, UpTo d.graph X x r → Connected d.graph X c x → Connected d.graph X c r := by
      intro x r hx
      induction hx with
      | root _ => exact id
      | step h hp hb ih => exact fun hcx => ih (hcx.tail ⟨hb, h.mem, .inr hp⟩)
    obtain ⟨r, hr, hrt⟩ := upTo_exists hg (hKX c hcK)
    have hup : ∀ x ∈ K, UpTo d.graph X x r := by
      intro x hx
      have := (hall x).1 hx
      unfold Connected at this
      induction this with
      | refl => exact hr
      | @tail y z h1 h2 ih => exact upTo_linked hg hX h2 (ih ((hall y).2 h1))
    have hrK : r ∈ K := (hall r).2 (hback c r hr .refl)
    have hroots : ∀ x, x ∈ env.nav.toVec (d.graph.roots K) ↔ x = r := by
      intro x
      rw [hc.mem, mem_roots hg]
      constructor
      · rintro ⟨hxK, hxt⟩
        have ht : Topmost d.graph (· ∈ X) x := by
          refine ⟨hKX x hxK, fun p hp hpX => hxt p hp ?_⟩
          exact (hall p).2 (((hall x).1 hxK).tail ⟨hKX x hxK, hpX, .inr hp⟩)
        exact upTo_unique (hup x hxK) ht
      · rintro rfl
        exact ⟨hrK, fun p hp hpK => hrt.2 p hp (hKX p hpK)⟩
    refine ⟨r, (toVec_singleton hc).2 fun y => ?_, hrK, hrt, ?_⟩
    · rw [← hc.mem]; exact hroots y
    · intro x hxK hx
      exact upTo_unique (hup x hxK) hx
  have hcomp : ∀ K ∈ ks, ∃ r ∈ K, Topmost d.graph (· ∈ X) r ∧ (∀ x ∈ K, Topmost d.graph (· ∈ X) x → x = r) ∧
      ((∃ p, IsParent d.graph p r) → exactComponent env d K = .ok (r, K)) ∧
      ((∀ p, ¬ IsParent d.graph p r) → exactComponent env d K = .error (.exactParents 0)) := by
    intro K hK
    obtain ⟨r, h2, h3, h4, h5⟩ := hone K hK
    have hrX := h4.1
    refine ⟨r, h3, h4, h5, ?_, ?_⟩
    · rintro ⟨p, hp⟩
      have : CommitGraph.count (d.graph.parents [r]) = 1 := by
        rw [count_singleton_iff]
        refine ⟨p, fun q => ?_⟩
        rw [mem_parents hg]
        simp only [List.mem_singleton, exists_eq_left]
        exact ⟨fun hq => parent_unique hg (hX r hrX) hq hp, fun e => e ▸ hp⟩
      unfold exactComponent
      rw [h2]
      simp [this]
    · intro hno
      have : d.graph.parents [r] = [] := by
        rw [List.eq_nil_iff_forall_not_mem]
        intro p hp
        rw [mem_parents hg] at hp
        simp only [List.mem_singleton, exists_eq_left] at hp
        exact hno p hp
      unfold exactComponent
      rw [h2]
      simp [this, CommitGraph.count]
  unfold exactComponents
  rw [h1]
  simp only
  constructor
  · intro hall
    obtain ⟨ys, hys⟩ := mapM_except_ok (f := exactComponent env d) (l := ks) (fun K hK => by
      obtain ⟨r, h3, h4, _, h6, _⟩ := hcomp K hK
      exact ⟨_, h6 (hall r h4.1)⟩)
    exact ⟨ys, by rw [hys]⟩
  · rintro ⟨x, hx, hno⟩
    have hxt : Topmost d.graph (· ∈ X) x := ⟨hx, fun p hp => absurd hp (hno p)⟩
    obtain ⟨K, hK, hxK⟩ := (hcov x).1 hx
    rw [mapM_except_error (f := exactComponent env d) (e := .exactParents 0)]
    · intro K hK
      obtain ⟨r, h3, h4, _, h6, h7⟩ := hcomp K hK
      by_cases hp : ∃ p, IsParent d.graph p r
      · exact .inl ⟨_, h6 hp⟩
      · exact .inr (h7 (not_exists.1 hp))
    · refine ⟨K, hK, ?_⟩
      obtain ⟨r, h3, h4, h5, _, h7⟩ := hcomp K hK
      have := h5 x hxK hxt
      subst this
      exact h7 hno

theorem nearestOutside_below {g : CommitGraph Oid} (hg : WFGraph g) {X : Oid → Prop} {p c : Oid}
    (h : NearestOutside g X p c) : ¬ X p ∧ Anc g p c ∧ ageOf g.entries p < ageOf g.entries c := by
  induction h with
  | parent h1 h2 => exact ⟨h2, .of_parent h1, age_lt hg h1⟩
  | skip h1 _ _ ih => exact ⟨ih.1, ih.2.1.trans (.of_parent h1), ih.2.2.trans (age_lt hg h1)⟩

/-- A component can go to several places. -/
def Fork (graph : CommitGraph Oid) (X : List Oid) : Prop :=
  ∃ a b c, Topmost graph (· ∈ X) a ∧ Topmost graph (· ∈ X) b ∧ Topmost graph (· ∈ X) c ∧ a ≠ c ∧ b ≠ c ∧
    Anc graph a c ∧ Anc graph b c ∧ ¬ Anc graph a b ∧ ¬ Anc graph b a

theorem exact_fork {env : MoveCmdEnv} (hc : SetContract env) {d : Dag} (hg : WFGraph d.graph) {X : List Oid}
    {comps : AMap Oid (List Oid)} (hC : Components d.graph X comps) (hn : ∀ x ∈ X, x ∈ d.graph.nodes)
    (hsort : SortContract env.nav.sortBy)
    (hord : Orderly d.graph env.nav.time (Topmost d.graph (· ∈ X))) (dest : Oid) :
    (Fork d.graph X → ∃ c, moveRequests env d false false [] comps dest = .ok (.error (.severalDestinations c))) ∧
    (¬ Fork d.graph X → ∃ cs, moveRequests env d false false [] comps dest = .ok (.ok cs)) := by
  have hkeys : ∀ x, x ∈ comps.keys ↔ Topmost d.graph (· ∈ X) x := by
    intro x
    rw [hC.topmost_iff]
    simp [AMap.keys]
  obtain ⟨_, hr, hsd⟩ := sorted_commit_set_sorted env.nav hsort (fun l => ⟨hc.nodup l, hc.mem l⟩) d hg comps.keys
    (fun x hx => hn x ((hkeys x).1 hx).1)
  simp only [hc.exist, and_true, hkeys] at hr hsd
  have hsd := hsd hord
  unfold moveRequests
  simp only
  generalize sortedCommitSet env.nav d comps.keys = roots at hr hsd
  have hr' : ∀ x, x ∈ roots ↔ x ∈ comps.keys := fun x => (hr x).trans (hkeys x).symm
  have hmem : ∀ c, Topmost d.graph (· ∈ X) c → ∀ x, x ∈ possibleDestinations d comps roots c ↔
      Topmost d.graph (· ∈ X) x ∧ x ≠ c ∧ Anc d.graph x c := by
    intro c ht x
    obtain ⟨K, hK⟩ := hC.topmost_iff.1 ht
    rw [mem_possible hg hC hn hr' hK, hC.topmost_iff]
  have hone : ∀ c, Topmost d.graph (· ∈ X) c →
      ((∃ a b, Topmost d.graph (· ∈ X) a ∧ Topmost d.graph (· ∈ X) b ∧ a ≠ c ∧ b ≠ c ∧
        Anc d.graph a c ∧ Anc d.graph b c ∧ ¬ Anc d.graph a b ∧ ¬ Anc d.graph b a) →
        componentRequests env d false false comps roots dest c = .ok (.error (.severalDestinations c))) ∧
      ((¬ ∃ a b, Topmost d.graph (· ∈ X) a ∧ Topmost d.graph (· ∈ X) b ∧ a ≠ c ∧ b ≠ c ∧
        Anc d.graph a c ∧ Anc d.graph b c ∧ ¬ Anc d.graph a b ∧ ¬ Anc d.graph b a) →
        ∃ cs, componentRequests env d false false comps roots dest c = .ok (.ok cs)) := by
    intro c ht
    obtain ⟨K, hK⟩ := hC.topmost_iff.1 ht
    have hl : ∀ x ∈ possibleDestinations d comps roots c, x ∈ d.graph.nodes := fun x hx =>
      hn x (((hmem c ht x).1 hx).1.1)
    have hsd' : (possibleDestinations d comps roots c).Pairwise (Earlier d.graph env.nav.time) :=
      hsd.sublist List.filter_sublist
    constructor
    · rintro ⟨a, b, h1, h2, h3, h4, h5, h6, h7, h8⟩
      have ha := (hmem c ht a).2 ⟨h1, h3, h5⟩
      have hb := (hmem c ht b).2 ⟨h2, h4, h6⟩
      have hbr : (lineageBreak d (possibleDestinations d comps roots c)).isSome = true := by
        rw [Option.isSome_iff_ne_none]
        intro hno
        rw [lineageBreak_none_iff hg hl] at hno
        by_cases hab : a = b
        · subst hab; exact h7 .refl
        · rcases pairwise_either hno ha hb hab with h | h
          · exact h7 h
          · exact h8 h
      unfold componentRequests
      rw [hC.get? hK]
      simp only
      have hcd : componentDest env d comps roots dest c = .error (.severalDestinations c) := by
        unfold componentDest
        simp only
        cases hgl : (possibleDestinations d comps roots c).getLast? with
        | none =>
          rw [List.getLast?_eq_none_iff] at hgl
          rw [hgl] at ha
          simp at ha
        | some nearest =>
          simp only
          rw [if_pos hbr]
      rw [hcd]
    · intro hno
      have hbr : lineageBreak d (possibleDestinations d comps roots c) = none := by
        rw [lineageBreak_none_iff hg hl]
        refine hsd'.imp_of_mem ?_
        intro a b ha hb hab
        obtain ⟨a1, a2, a3⟩ := (hmem c ht a).1 ha
        obtain ⟨b1, b2, b3⟩ := (hmem c ht b).1 hb
        by_contra hnab
        rcases hab.2 with h | ⟨h, _⟩
        · exact hnab h
        · exact hno ⟨a, b, a1, b1, a2, b2, a3, b3, hnab, h⟩
      obtain ⟨p, hp, -, -⟩ := component_parent hc hg hC hK
      have hcd : ∃ q, componentDest env d comps roots dest c = .ok q := by
        unfold componentDest
        simp only
        cases (possibleDestinations d comps roots c).getLast? with
        | none => exact ⟨_, rfl⟩
        | some nearest =>
          simp only
          rw [hbr]
          exact ⟨_, rfl⟩
      obtain ⟨q, hq⟩ := hcd
      unfold componentRequests
      rw [hC.get? hK]
      simp only
      rw [hq]
      simp only
      rw [hp]
      exact ⟨_, rfl⟩
  constructor
  · rintro ⟨a, b, c, h1, h2, h3, h4⟩
    obtain ⟨_, ⟨c', rfl⟩, hc'⟩ := componentsRequests_error (one := componentRequests env d false false comps roots dest)
      (l := roots) (E := fun e => ∃ c, e = .severalDestinations c) (by
        intro x hx
        have hx := (hr x).1 hx
        by_cases hf : ∃ a b, Topmost d.graph (· ∈ X) a ∧ Topmost d.graph (· ∈ X) b ∧ a ≠ x ∧ b ≠ x ∧
            Anc d.graph a x ∧ Anc d.graph b x ∧ ¬ Anc d.graph a b ∧ ¬ Anc d.graph b a
        · exact .inr ⟨_, ⟨x, rfl⟩, (hone x hx).1 hf⟩
        · exact .inl ((hone x hx).2 hf)) ⟨c, (hr c).2 h3, _, ⟨c, rfl⟩, (hone c h3).1 ⟨a, b, h1, h2, h4⟩⟩
    refine ⟨c', ?_⟩
    rw [hc']
  · intro hno
    obtain ⟨cs, hcs⟩ := componentsRequests_all (one := componentRequests env d false false comps roots dest)
      (l := roots) (by
        intro x hx
        have hx := (hr x).1 hx
        exact (hone x hx).2 fun ⟨a, b, h1, h2, h4⟩ => hno ⟨a, b, x, h1, h2, hx, h4⟩)
    rw [hcs]
    exact ⟨_, rfl⟩

/-- The selected commits come one on top of the other, and the rest stays in order: there is a cycle
exactly if the destination is selected. -/
theorem exact_cycle_iff {g : CommitGraph Oid} (hg : WFGraph g) {seen : Oid → Prop} {X : List Oid}
    (hseen : ∀ x ∈ X, seen x) {dest : Oid} {req : Oid → Oid → Prop}
    (h1 : ∀ p c, req p c → ExactRequest g seen (· ∈ X) dest p c)
    (hX : ∀ x ∈ X, (g.parentsOf x).length ≤ 1)
    (h3 : ∀ c x, c ∉ X → seen c → x ∈ X → IsParent g x c → ∃ q, req q c)
    (h4 : ∀ c, Topmost g (· ∈ X) c → ∃ q, req q c) :
    (∃ c, Relation.TransGen (Carried g seen req) c c) ↔ dest ∈ X := by
  have hnot : ∀ {p c}, req p c → c ∈ X → Topmost g (· ∈ X) c := by
    intro p c h hc
    rcases h1 p c h with ⟨ht, _⟩ | ⟨h, _⟩
    · exact ht
    · exact absurd hc h
  constructor
  · rintro ⟨c, hc⟩
    by_contra hd
    have hout : ∀ {p c}, Carried g seen req p c → c ∉ X → p ∉ X ∧ ageOf g.entries p < ageOf g.entries c := by
      rintro p c (h | ⟨h, ⟨s, q, hq, hsc⟩, hv, hp⟩) hc
      · rcases h1 p c h with ⟨ht, _⟩ | ⟨_, _, _, h⟩
        · exact absurd ht.1 hc
        · obtain ⟨h5, _, h6⟩ := nearestOutside_below hg h
          exact ⟨h5, h6⟩
      · exact ⟨fun hpX => h (h3 c p hc hv hpX hp), age_lt hg hp⟩
    have hin : ∀ {p c}, Carried g seen req p c → c ∈ X →
        (p ∈ X ∧ ageOf g.entries p < ageOf g.entries c) ∨ p = dest := by
      rintro p c (h | ⟨h, ⟨s, q, hq, hsc⟩, hv, hp⟩) hc
      · rcases h1 p c h with ⟨_, ⟨h5, h6, h7, _⟩ | ⟨h5, _⟩⟩ | ⟨h5, _⟩
        · left
          refine ⟨h5, ?_⟩
          rcases anc_iff.1 h7 with h | ⟨y, hy, hpy⟩
          · exact absurd h h6
          · exact Nat.lt_of_le_of_lt (age_le hg hpy) (age_lt hg hy)
        · exact .inr h5
        · exact absurd hc h5
      · by_cases ht : Topmost g (· ∈ X) c
        · exact absurd (h4 c ht) h
        · left
          refine ⟨?_, age_lt hg hp⟩
          unfold Topmost at ht
          push Not at ht
          obtain ⟨p', hp', hpX⟩ := ht hc
          rwa [parent_unique hg (hX c hc) hp hp']
    have hout' : ∀ {a b}, Relation.TransGen (Carried g seen req) a b → b ∉ X →
        a ∉ X ∧ ageOf g.entries a < ageOf g.entries b := by
      intro a b h
      induction h with
      | single h => exact hout h
      | tail _ h ih =>
        intro hb
        obtain ⟨h5, h6⟩ := hout h hb
        exact ⟨(ih h5).1, (ih h5).2.trans h6⟩
    have hin' : ∀ {a b}, Relation.TransGen (Carried g seen req) a b → b ∈ X →
        (a ∈ X ∧ ageOf g.entries a < ageOf g.entries b) ∨ a ∉ X := by
      intro a b h
      induction h with
      | single h =>
        intro hb
        rcases hin h hb with h | h
        · exact .inl h
        · subst h; exact .inr hd
      | tail h' h ih =>
        intro hb
        rcases hin h hb with ⟨h5, h6⟩ | h
        · rcases ih h5 with ⟨h7, h8⟩ | h7
          · exact .inl ⟨h7, h8.trans h6⟩
          · exact .inr h7
        · subst h
          exact .inr (hout' h' hd).1
    by_cases hcX : c ∈ X
    · rcases hin' hc hcX with ⟨_, h⟩ | h
      · exact Nat.lt_irrefl _ h
      · exact h hcX
    · exact Nat.lt_irrefl _ (hout' hc hcX).2
  · intro hd
    have key : ∀ n c, ageOf g.entries c = n → c ∈ X → Relation.TransGen (Carried g seen req) dest c := by
      intro n
      induction n using Nat.strongRecOn with
      | _ n ih =>
        intro c hn hc
        by_cases ht : Topmost g (· ∈ X) c
        · obtain ⟨q, hq⟩ := h4 c ht
          rcases h1 q c hq with ⟨_, ⟨h5, h6, h7, _⟩ | ⟨h5, _⟩⟩ | ⟨h5, _⟩
          · refine .tail (ih _ (hn ▸ ?_) q rfl h5) (.inl hq)
            rcases anc_iff.1 h7 with h | ⟨y, hy, hpy⟩
            · exact absurd h h6
            · exact Nat.lt_of_le_of_lt (age_le hg hpy) (age_lt hg hy)
          · subst h5
            exact .single (.inl hq)
          · exact absurd hc h5
        · obtain ⟨r, hr, hrc⟩ := topmost_below hg hc .refl
          obtain ⟨q, hq⟩ := h4 r hr
          have ht' := ht
          unfold Topmost at ht'
          push Not at ht'
          obtain ⟨p, hp, hpX⟩ := ht' hc
          exact .tail (ih _ (hn ▸ age_lt hg hp) p rfl hpX)
            (.inr ⟨fun ⟨q, hq⟩ => ht (hnot hq hc), ⟨r, q, hq, hrc⟩, hseen c hc, hp⟩)
    exact ⟨dest, key _ dest rfl hd⟩

theorem exact_below {g : CommitGraph Oid} {seen : Oid → Prop} {X : List Oid} (hn : ∀ x ∈ X, x ∈ g.nodes)
    {dest : Oid} {req : Oid → Oid → Prop} (h1 : ∀ p c, req p c → ExactRequest g seen (· ∈ X) dest p c) (p c : Oid)
    (h : Carried g seen req p c) : c ∈ g.nodes ∧ ∃ x ∈ X, Anc g x c := by
  have hr : ∀ p c, req p c → c ∈ g.nodes ∧ ∃ x ∈ X, Anc g x c := by
    intro p c hpc
    rcases h1 p c hpc with ⟨ht, _⟩ | ⟨_, _, ⟨x, hx, hxc⟩, _⟩
    · exact ⟨hn c ht.1, c, ht.1, .refl⟩
    · exact ⟨hxc.child_mem, x, hx, .of_parent hxc⟩
  rcases h with hpc | ⟨_, ⟨s, q, hq, hsc⟩, _, hp⟩
  · exact hr p c hpc
  · obtain ⟨_, x, hx, hxs⟩ := hr q s hq
    exact ⟨hp.child_mem, x, hx, hxs.trans hsc⟩

/-- C62: when the selected commits are not moved, and why. It is refused if one of them or of their
descendants is on the main branch (unless forced), if there is no line through the groups of commits below
a selected one, or if the destination is selected itself. Otherwise there is a plan, unless there is
nothing to move. (`hord`: see `same_second_cycle` for when commits cannot be put in order.) -/
theorem move_exact_plan_partial (graph : CommitGraph Oid) (hg : WFGraph graph) (main : Text)
    (w : RepoWorld) (hw : AMap.WF w.git.refs) (es : List Event) (he : w.db.getEvents = some es)
    (r : Replayer) (d : Dag) (h : openRepoDag graph main w = some (r, d)) (env : MoveCmdEnv)
    (hc : SetContract env) (hsort : SortContract env.nav.sortBy) (X : List Oid)
    (hn : ∀ x ∈ X, x ∈ graph.nodes) (hseen : ∀ x ∈ X, Seen graph main w.git es x)
    (hX : ∀ x ∈ X, (graph.parentsOf x).length ≤ 1)
    (hch : ∀ c x, c ∉ X → Seen graph main w.git es c → x ∈ X → IsParent graph x c →
      (graph.parentsOf c).length ≤ 1)
    (hord : Orderly graph env.nav.time (Topmost graph (· ∈ X)))
    (comps : AMap Oid (List Oid)) (hcomps : exactComponents env d X = .ok (.ok comps)) (dest : Oid) :
    let onMain := env.forceRewritePublicCommits = false ∧
      ∃ x ∈ X, ∃ c, Anc graph x c ∧ OnMain graph main w.git c
    let plan := movePlan env d false false [] comps dest
    (onMain → ∃ l, plan = .ok (.error (.planner (.movePublicCommits l)))) ∧
    (¬ onMain → Fork graph X → ∃ c, plan = .ok (.error (.severalDestinations c))) ∧
    (¬ onMain → ¬ Fork graph X → dest ∈ X → ∃ l, plan = .ok (.error (.planner (.constraintCycle l)))) ∧
    (¬ onMain → ¬ Fork graph X → dest ∉ X → ∃ p, plan = .ok (.ok p) ∧ (p = none ↔ X = [])) := by
  intro onMain plan
  obtain ⟨hgr, -⟩ := graph_opened he h
  have hs : ∀ o, Seen graph main w.git es o ↔ o ∈ d.graph.nodes ∧
      ∃ x ∈ d.visibleHeads, Anc d.graph o x := by rw [hgr]; exact seen_opened hg hw he h
  have hpub := public_opened hw he h
  have hv := mem_filterVisible_opened hg hw he h
  subst hgr
  have hC := exactComponents_ok hc hg hcomps
  have hmv : ∀ x, x ∈ commitsToMove d false false [] comps dest ↔ x ∈ X := by
    intro x
    unfold commitsToMove
    simp only [Bool.or_self, Bool.false_eq_true, if_false, List.nil_append, List.append_nil, List.mem_flatMap,
      Prod.exists, hC.cover]
  have hon : (¬ ∃ p, verifyRewriteSet d env.forceRewritePublicCommits env.detectDuplicateCommitsViaPatchId
      (commitsToMove d false false [] comps dest) = .ok p) ↔ onMain := by
    rw [verify_rewrite_set_iff d hg, not_or, Bool.not_eq_true]
    refine and_congr_right fun _ => ?_
    push Not
    constructor
    · rintro ⟨s, h1, c, h2, h3, h4⟩; exact ⟨s, (hmv s).1 h1, c, h3, (hpub c).1 h4⟩
    · rintro ⟨s, h1, c, h3, h4⟩; exact ⟨s, (hmv s).2 h1, c, h3.mem_up (hn s h1), h3, (hpub c).2 h4⟩
  cases hv' : verifyRewriteSet d env.forceRewritePublicCommits env.detectDuplicateCommitsViaPatchId
      (commitsToMove d false false [] comps dest) with
  | error e =>
    have hon' : onMain := hon.1 (by rw [hv']; simp)
    exact ⟨fun _ => movePlan_public hv', fun h => absurd hon' h, fun h => absurd hon' h, fun h => absurd hon' h⟩
  | ok perms =>
    have hon' : ¬ onMain := fun h => (hon.2 h) ⟨perms, hv'⟩
    obtain ⟨hf1, hf2⟩ := exact_fork hc hg hC hn hsort hord dest
    refine ⟨fun h => absurd h hon', fun _ hf => ?_, fun _ hf hd => ?_, fun _ hf hd => ?_⟩
    · obtain ⟨c, hcs⟩ := hf1 hf
      exact ⟨c, movePlan_refused hv' hcs⟩
    · obtain ⟨cs, hcs⟩ := hf2 hf
      obtain ⟨rs, rfl, h1, h2, h4, h5⟩ := exact_requests_right hc hg hC hn hX hv hch hcs
      exact movePlan_cycle hv' hcs (amountTo_subtrees hg hs (req := fun p c => (c, p) ∈ rs) (fun p c => Iff.rfl) h2)
        ((exact_cycle_iff hg hseen h1 hX h5 h4).2 hd)
    · obtain ⟨cs, hcs⟩ := hf2 hf
      obtain ⟨rs, rfl, h1, h2, h4, h5⟩ := exact_requests_right hc hg hC hn hX hv hch hcs
      have hbelow := exact_below hn h1
      obtain ⟨p, hp1, hp2⟩ := movePlan_planned hv' hcs
        (amountTo_subtrees hg hs (req := fun p c => (c, p) ∈ rs) (fun p c => Iff.rfl) h2)
        (fun hcy => hd ((exact_cycle_iff hg hseen h1 hX h5 h4).1 hcy)) (by
          intro p c hpc
          rw [verify_rewrite_set_allows d hg _ _ _ _ hv']
          obtain ⟨h6, x, hx, hxc⟩ := hbelow p c hpc
          exact ⟨h6, x, (hmv x).2 hx, hxc⟩)
      refine ⟨p, hp1, hp2.trans ?_⟩
      constructor
      · intro hno
        rw [List.eq_nil_iff_forall_not_mem]
        intro x hx
        obtain ⟨r, hr, _⟩ := topmost_below hg hx (c := x) .refl
        obtain ⟨q, hq⟩ := h4 r hr
        exact hno ⟨q, r, .inl hq⟩
      · rintro rfl ⟨p, c, hpc⟩
        obtain ⟨_, x, hx, _⟩ := hbelow p c hpc
        simp at hx

/-- There is nothing to do only if nothing is selected. -/
theorem exact_plan_none {graph : CommitGraph Oid} (hg : WFGraph graph) {main : Text}
    {w : RepoWorld} (hw : AMap.WF w.git.refs) {es : List Event} (he : w.db.getEvents = some es)
    {r : Replayer} {d : Dag} (h : openRepoDag graph main w = some (r, d)) {env : MoveCmdEnv}
    (hc : SetContract env) {X : List Oid}
    (hn : ∀ x ∈ X, x ∈ graph.nodes) (hX : ∀ x ∈ X, (graph.parentsOf x).length ≤ 1)
    (hch : ∀ c x, c ∉ X → Seen graph main w.git es c → x ∈ X → IsParent graph x c →
      (graph.parentsOf c).length ≤ 1)
    {comps : AMap Oid (List Oid)} (hcomps : exactComponents env d X = .ok (.ok comps)) {dest : Oid}
    (hp : movePlan env d false false [] comps dest = .ok (.ok none)) : X = [] := by
  obtain ⟨hgr, -⟩ := graph_opened he h
  have hs : ∀ o, Seen graph main w.git es o ↔ o ∈ d.graph.nodes ∧
      ∃ x ∈ d.visibleHeads, Anc d.graph o x := by rw [hgr]; exact seen_opened hg hw he h
  have hv := mem_filterVisible_opened hg hw he h
  subst hgr
  have hC := exactComponents_ok hc hg hcomps
  obtain ⟨perms, cs, hv', _, hcs, _⟩ := movePlan_ok hp
  obtain ⟨rs, rfl, h1, h2, h4, h5⟩ := exact_requests_right hc hg hC hn hX hv hch hcs
  have hno := movePlan_none (M := Carried d.graph (Seen d.graph main w.git es) fun p c => (c, p) ∈ rs) (by
    intro perms' cs' hv'' hcs'
    rw [hcs] at hcs'
    simp only [Except.ok.injEq] at hcs'
    subst hcs'
    refine ⟨amountTo_subtrees hg hs (fun p c => Iff.rfl) h2, fun p c hpc => ?_⟩
    rw [verify_rewrite_set_allows d hg _ _ _ _ hv'']
    obtain ⟨h6, x, hx, hxc⟩ := exact_below hn h1 p c hpc
    refine ⟨h6, x, ?_, hxc⟩
    unfold commitsToMove
    simp only [Bool.or_self, Bool.false_eq_true, if_false, List.nil_append, List.append_nil, List.mem_flatMap,
      Prod.exists]
    exact (hC.cover x).1 hx) hp
  rw [List.eq_nil_iff_forall_not_mem]
  intro x hx
  obtain ⟨r, hr, _⟩ := topmost_below hg hx (c := x) .refl
  obtain ⟨q, hq⟩ := h4 r hr
  exact hno ⟨q, r, .inl hq⟩

/-! ### the command -/

/-- The arguments of `--exact`. -/
theorem moveInputs_exact_args {env : MoveCmdEnv} (hc : SetContract env) {d : Dag} {args : MoveArgs}
    (hs : args.sources = []) (hb : args.bases = []) (hp : args.provided = true) {sources : List Oid}
    {comps : AMap Oid (List Oid)} {dest : Oid} (h : moveInputs env d args = .ok (.ok (sources, comps, dest))) :
    exactComponents env d args.exacts = .ok (.ok comps) ∧ sources = [] ∧ IsDest args dest := by
  unfold moveInputs at h
  cases he : exactComponents env d args.exacts with
  | error e => rw [he] at h; simp at h
  | ok x =>
    rw [he] at h
    cases x with
    | error e => simp at h
    | ok c =>
      simp only at h
      cases hd : moveDest env args with
      | error e => rw [hd] at h; simp at h
      | ok dest' =>
        rw [hd] at h
        simp only at h
        cases hbs : moveBases env d args dest' with
        | error e => rw [hbs] at h; simp at h
        | ok bs =>
          rw [hbs] at h
          simp only [Except.ok.injEq, Prod.mk.injEq] at h
          obtain ⟨rfl, rfl, rfl⟩ := h
          refine ⟨rfl, ?_, (moveDest_iff hc).1 hd⟩
          rw [hs, List.nil_append, List.eq_nil_iff_forall_not_mem]
          intro x hx
          obtain ⟨y, ⟨_, hy⟩ | ⟨hy, _⟩, _⟩ := (moveBases_ok hc hbs x).1 hx
          · rw [hb] at hy; simp at hy
          · rw [hp] at hy; simp at hy

/-- C62: what the whole command does with `--exact`, if it succeeds in memory; see
`move_exact_in_memory_partial`. -/
theorem move_exact_command_partial (graph : CommitGraph Oid) (hg : WFGraph graph) (main : Text)
    (w : RepoWorld) (hw : AMap.WF w.git.refs) (es : List Event) (he : w.db.getEvents = some es)
    (env : MoveCmdEnv) (hc : SetContract env) (ho : InMemoryOnly env.options) (hnc : NoCollisions env.exec)
    (tx : Option Text) (args : MoveArgs) (hs : args.sources = []) (hb : args.bases = [])
    (hp : args.provided = true) (hfix : args.fixup = false) (hins : args.insert = false)
    (hn : ∀ x ∈ args.exacts, x ∈ graph.nodes) (hX : ∀ x ∈ args.exacts, (graph.parentsOf x).length ≤ 1)
    (hch : ∀ c x, c ∉ args.exacts → Seen graph main w.git es c → x ∈ args.exacts → IsParent graph x c →
      (graph.parentsOf c).length ≤ 1)
    (w' : RepoWorld) (h : moveCommits env main graph tx w args = (w', .done)) :
    ∃ dest, IsDest args dest ∧
      let request := ExactRequest graph (Seen graph main w.git es) (· ∈ args.exacts) dest
      let w0 := { w with db := (w.db.makeTransactionId tx t!"move").2 }
      (args.exacts = [] ∧ w' = w0) ∨
      ∃ place : Oid → Oid, (∀ p c, request p c → request (place c) c) ∧
        let moves := Carried graph (Seen graph main w.git es) (fun p c => request p c ∧ p = place c)
        ∃ s newHead ok, Relocated env.exec moves (fun c => env.detectDuplicateCommitsViaPatchId = true ∧
            AppliedUpstream graph env.patchId moves c) s w.git.headInfo.oid newHead ∧
          postRebaseInMemory (env.finish s.created) w0 s.rewritten newHead = (w', .ok ok) := by
  obtain ⟨r, d, sources, comps, dest, hd, hi, hx⟩ := moveCommits_cases h
  rw [hfix, hins] at hx
  obtain ⟨hcomps, rfl, hdest⟩ := moveInputs_exact_args hc hs hb hp hi
  refine ⟨dest, hdest, ?_⟩
  intro request w0
  rcases executeMove_done ho hx with ⟨hpl, rfl⟩ | ⟨plan, s, newHead, ok, hpl, h4, h5⟩
  · exact .inl ⟨exact_plan_none hg hw he hd hc hn hX hch hcomps hpl, rfl⟩
  · right
    obtain ⟨place, h6, h7⟩ := move_exact_in_memory_partial graph hg main w hw es he r d hd env hc args.exacts hn hX
      hch comps hcomps dest plan hpl hnc _ s newHead h4
    exact ⟨place, h6, s, newHead, ok, h7, h5⟩

/-! ### concrete cases -/

/-- A stack `1`, `2`, `3`, `4` on the main branch `0`, and the commit `5` there. -/
def exTallGraph : CommitGraph Oid :=
  ⟨[(oidN 5, [oidN 0]), (oidN 4, [oidN 3]), (oidN 3, [oidN 2]), (oidN 2, [oidN 1]), (oidN 1, [oidN 0]),
    (oidN 0, [])]⟩

theorem exTallGraph_wf : WFGraph exTallGraph := by
  unfold WFGraph exTallGraph
  repeat (first | exact .nil | refine .cons (by decide) (by decide) ?_)

def exTallEvents : List Event :=
  [.commit 1 (.id 1) (oidN 1), .commit 2 (.id 2) (oidN 2), .commit 3 (.id 3) (oidN 3), .commit 4 (.id 4) (oidN 4),
    .commit 5 (.id 5) (oidN 5)]

def exTallCommits : List (Oid × CommitData) :=
  [(oidN 0, exCommit [] 10 0), (oidN 1, exCommit [oidN 0] 11 1), (oidN 2, exCommit [oidN 1] 12 2),
    (oidN 3, exCommit [oidN 2] 13 3), (oidN 4, exCommit [oidN 3] 14 4), (oidN 5, exCommit [oidN 0] 15 5)]

/-- `2` is put on `5`, `4` on it, and `3` on `1`. -/
def exTallEnv : MoveCmdEnv :=
  exMoveEnv exTallCommits
    [(exNew [oidN 5] 22 2, oidN 8), (exNew [oidN 8] 24 4, oidN 9), (exNew [oidN 1] 23 3, oidN 10)]
    [((oidN 2, oidN 5), 22), ((oidN 4, oidN 8), 24), ((oidN 3, oidN 1), 23)] []

example : SetContract exTallEnv ∧ NoCollisions exTallEnv.exec ∧ InMemoryOnly exTallEnv.options :=
  ⟨exMoveEnv_set _ _ _ _,
    exExec_noCollisions (commits := exTallCommits)
      (new := [(exNew [oidN 5] 22 2, oidN 8), (exNew [oidN 8] 24 4, oidN 9), (exNew [oidN 1] 23 3, oidN 10)])
      (picks := [((oidN 2, oidN 5), 22), ((oidN 4, oidN 8), 24), ((oidN 3, oidN 1), 23)]) (amends := [])
      (by decide) (by decide),
    rfl, .inr rfl⟩

/-- Non-vacuity: `move -x 2+4 -d 5`. -/
example : ∃ w' es', moveCommits exTallEnv t!"refs/heads/main" exTallGraph none
      (exRestackWorld exTallEvents (oidN 4))
      ⟨[], [], [oidN 2, oidN 4], true, some [oidN 5], some (oidN 0), false, false⟩ = (w', .done) ∧
    w'.db.getEvents = some es' ∧
    findRewriteTarget (Replayer.fromEvents t!"refs/heads/main" es') ⟨es'.length⟩ (oidN 2) =
      some (.nonZero (oidN 8)) ∧
    findRewriteTarget (Replayer.fromEvents t!"refs/heads/main" es') ⟨es'.length⟩ (oidN 4) =
      some (.nonZero (oidN 9)) ∧
    findRewriteTarget (Replayer.fromEvents t!"refs/heads/main" es') ⟨es'.length⟩ (oidN 3) =
      some (.nonZero (oidN 10)) ∧
    w'.git.refs.get? t!"refs/heads/b" = some (oidN 9) := by
  refine ⟨_, _, rfl, rfl, ?_⟩
  decide +kernel

/-- Non-vacuity of `move_exact_plan_partial`, and of `exact_selection_ok_iff`: the destination is selected;
a commit without parents is selected. -/
example : ∃ r d comps, openRepoDag exTallGraph t!"refs/heads/main" (exRestackWorld exTallEvents (oidN 2)) =
      some (r, d) ∧ exactComponents exTallEnv d [oidN 2, oidN 4] = .ok (.ok comps) ∧
    movePlan exTallEnv d false false [] comps (oidN 4) =
      .ok (.error (.planner (.constraintCycle [oidN 2, oidN 4, oidN 2]))) ∧
    exactComponents exTallEnv d [oidN 0, oidN 4] = .ok (.error (.exactParents 0)) := by
  refine ⟨_, _, _, rfl, rfl, ?_⟩
  decide +kernel

example : Orderly exTallGraph (fun _ => 0) (Topmost exTallGraph (· ∈ [oidN 2, oidN 4])) := by
  have hsub : ∀ x, Topmost exTallGraph (· ∈ [oidN 2, oidN 4]) x → x = oidN 2 ∨ x = oidN 4 := by
    rintro x ⟨hx, _⟩
    simpa using hx
  have h24 : Anc exTallGraph (oidN 2) (oidN 4) := isAnc_of exTallGraph_wf (by decide +kernel)
  have hno : ¬ Earlier exTallGraph (fun _ => 0) (oidN 4) (oidN 2) := by
    rintro ⟨_, h | ⟨h, _⟩⟩
    · exact not_isAnc_of exTallGraph_wf (by decide) (by decide +kernel) h
    · exact h h24
  intro a b c ha hb hc hab hbc
  rcases hsub a ha with rfl | rfl <;> rcases hsub b hb with rfl | rfl <;> rcases hsub c hc with rfl | rfl
  · exact absurd rfl hab.1
  · exact absurd rfl hab.1
  · exact absurd hbc hno
  · exact absurd rfl hbc.1
  · exact absurd rfl hbc.1
  · exact absurd hab hno
  · exact absurd rfl hab.1
  · exact absurd rfl hab.1

/-- C62 fails for commits made in the same second (for example by a rebase): groups of commits on one line
are refused, as if they were not. The groups `5`, `2` and `7` are on one line, in this order; the order
`2`, `3`, `5`, `7` is found, because `3`, which is elsewhere, is after `2` and before `5` by its hash. -/
theorem same_second_refused :
    let graph : CommitGraph Oid := ⟨[(oidN 7, [oidN 9]), (oidN 9, [oidN 2]), (oidN 2, [oidN 8]),
      (oidN 8, [oidN 5]), (oidN 5, [oidN 0]), (oidN 3, [oidN 0]), (oidN 0, [])]⟩
    let es : List Event := [.commit 1 (.id 1) (oidN 7), .commit 2 (.id 2) (oidN 3)]
    let X := [oidN 2, oidN 3, oidN 5, oidN 7]
    WFGraph graph ∧ ¬ Fork graph X ∧
    ∃ r d comps, openRepoDag graph t!"refs/heads/main" (exRestackWorld es (oidN 0)) = some (r, d) ∧
      exactComponents exTallEnv d X = .ok (.ok comps) ∧
      movePlan exTallEnv d false false [] comps (oidN 0) = .ok (.error (.severalDestinations (oidN 7))) := by
  have hg : WFGraph (⟨[(oidN 7, [oidN 9]), (oidN 9, [oidN 2]), (oidN 2, [oidN 8]), (oidN 8, [oidN 5]),
      (oidN 5, [oidN 0]), (oidN 3, [oidN 0]), (oidN 0, [])]⟩ : CommitGraph Oid) := by
    unfold WFGraph
    repeat (first | exact .nil | refine .cons (by decide) (by decide) ?_)
  refine ⟨hg, ?_, _, _, _, rfl, rfl, ?_⟩
  · rintro ⟨a, b, c, ⟨ha, _⟩, ⟨hb, _⟩, ⟨hc, _⟩, h1, h2, h3, h4, h5, h6⟩
    have key : ∀ a ∈ [oidN 2, oidN 3, oidN 5, oidN 7], ∀ b ∈ [oidN 2, oidN 3, oidN 5, oidN 7],
        ∀ c ∈ [oidN 2, oidN 3, oidN 5, oidN 7], a ≠ c → b ≠ c →
        (⟨[(oidN 7, [oidN 9]), (oidN 9, [oidN 2]), (oidN 2, [oidN 8]), (oidN 8, [oidN 5]),
          (oidN 5, [oidN 0]), (oidN 3, [oidN 0]), (oidN 0, [])]⟩ : CommitGraph Oid).isAncestor a c = true →
        (⟨[(oidN 7, [oidN 9]), (oidN 9, [oidN 2]), (oidN 2, [oidN 8]), (oidN 8, [oidN 5]),
          (oidN 5, [oidN 0]), (oidN 3, [oidN 0]), (oidN 0, [])]⟩ : CommitGraph Oid).isAncestor b c = true →
        (⟨[(oidN 7, [oidN 9]), (oidN 9, [oidN 2]), (oidN 2, [oidN 8]), (oidN 8, [oidN 5]),
          (oidN 5, [oidN 0]), (oidN 3, [oidN 0]), (oidN 0, [])]⟩ : CommitGraph Oid).isAncestor a b = true ∨
        (⟨[(oidN 7, [oidN 9]), (oidN 9, [oidN 2]), (oidN 2, [oidN 8]), (oidN 8, [oidN 5]),
          (oidN 5, [oidN 0]), (oidN 3, [oidN 0]), (oidN 0, [])]⟩ : CommitGraph Oid).isAncestor b a = true := by
      decide +kernel
    have hmem : ∀ x ∈ [oidN 2, oidN 3, oidN 5, oidN 7], x ∈ (⟨[(oidN 7, [oidN 9]), (oidN 9, [oidN 2]),
        (oidN 2, [oidN 8]), (oidN 8, [oidN 5]), (oidN 5, [oidN 0]), (oidN 3, [oidN 0]), (oidN 0, [])]⟩ :
        CommitGraph Oid).nodes := by decide +kernel
    rcases key a ha b hb c hc h1 h2 ((isAncestor_iff hg).2 ⟨hmem a ha, h3⟩)
      ((isAncestor_iff hg).2 ⟨hmem b hb, h4⟩) with h | h
    · exact h5 ((isAncestor_iff hg).1 h).2
    · exact h6 ((isAncestor_iff hg).1 h).2
  · decide +kernel

/-- C62 fails for hidden commits: `1` and its hidden child `2` are selected, but only `1` is moved. -/
theorem hidden_selected_left :
    let es : List Event := [.commit 1 (.id 1) (oidN 1), .commit 2 (.id 2) (oidN 2), .obsolete 3 (.id 3) (oidN 2),
      .commit 4 (.id 4) (oidN 3)]
    ∃ w' es', moveCommits exStackEnv t!"refs/heads/main" exStackGraph none (exRestackWorld es (oidN 0))
        ⟨[], [], [oidN 1, oidN 2], true, some [oidN 3], some (oidN 0), false, false⟩ = (w', .done) ∧
      w'.db.getEvents = some es' ∧
      findRewriteTarget (Replayer.fromEvents t!"refs/heads/main" es') ⟨es'.length⟩ (oidN 1) =
        some (.nonZero (oidN 8)) ∧
      findRewriteTarget (Replayer.fromEvents t!"refs/heads/main" es') ⟨es'.length⟩ (oidN 2) = none := by
  refine ⟨_, _, rfl, rfl, ?_⟩
  decide +kernel

end Verif.Props
