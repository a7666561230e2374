/-
Edits of export pipelines: properties of Verif.Export.Pipeline.
-/
import Verif.Export.PipelineProps

namespace FF.Pipeline

variable {N : Type} [DecidableEq N]

set_option linter.unusedSectionVars false

/-! ## Lemmas -/

/-- What every edit keeps. -/
structure Good (p : Pipe N) : Prop where
  fresh : ∀ s ∈ p.stages, s < p.next
  captured : ∀ s ∈ p.captured, s ∈ p.stages
  nodup : p.stages.Nodup
  names : (p.stages.map p.name).Nodup
  known : ∀ s ∈ p.stages, ∀ d ∈ p.deps s, d ∈ p.stages
  once : ∀ s ∈ p.stages, (p.deps s).Nodup
  rank : ∃ rank : Nat → Nat, ∀ s ∈ p.stages, ∀ d ∈ p.deps s, rank d < rank s
  bound : ∀ s, ∀ d ∈ p.deps s, d < p.next

theorem Good.needs {p : Pipe N} (h : Good p) {rank : Nat → Nat}
    (hr : ∀ s ∈ p.stages, ∀ d ∈ p.deps s, rank d < rank s) {s d : Nat} (hs : s ∈ p.stages)
    (hn : Needs p s d) : d ∈ p.stages ∧ rank d < rank s := by
  induction hn with
  | single h1 => exact ⟨h.known s hs _ h1, hr s hs _ h1⟩
  | tail _ h1 ih =>
    have := hr _ ih.1 _ h1
    exact ⟨h.known _ ih.1 _ h1, by omega⟩

theorem Good.builds {p : Pipe N} (h : Good p) : ∃ order, build p none = .ok order := by
  cases hb : build p none with
  | ok order => exact ⟨order, rfl⟩
  | error e =>
    exfalso
    rcases (build_fails_iff p).1 ⟨e, hb⟩ with ⟨s, hs, d, hd, hn⟩ | ⟨s, hs, hn⟩
    · exact hn (h.known s hs d hd)
    · obtain ⟨rank, hr⟩ := h.rank
      have := (h.needs hr hs hn).2
      omega

theorem le_sum_map (f : Nat → Nat) : ∀ {l : List Nat} {x : Nat}, x ∈ l → f x ≤ (l.map f).sum
  | y :: l, x, h => by
    rw [List.map_cons, List.sum_cons]
    rcases List.mem_cons.1 h with rfl | h
    · omega
    · have := le_sum_map f h
      omega

theorem getStage_ok {p : Pipe N} {name : N} {s : Nat} (h : getStage p name = .ok s) :
    s ∈ p.stages ∧ p.name s = name := by
  unfold getStage at h
  cases hf : p.stages.find? (fun s => p.name s = name) with
  | none =>
    rw [hf] at h
    cases h
  | some x =>
    rw [hf] at h
    cases h
    exact ⟨List.mem_of_find?_eq_some hf, by simpa using List.find?_some hf⟩

theorem getStages_ok {p : Pipe N} : ∀ {names : List N} {ss : List Nat}, getStages p names = .ok ss →
    ∀ s ∈ ss, s ∈ p.stages
  | [], ss, h => by
    cases h
    simp
  | n :: ns, ss, h => by
    unfold getStages at h
    cases h1 : getStage p n with
    | error e =>
      rw [h1] at h
      cases h
    | ok s =>
      rw [h1] at h
      dsimp only at h
      cases h2 : getStages p ns with
      | error e =>
        rw [h2] at h
        cases h
      | ok ss' =>
        rw [h2] at h
        cases h
        intro x hx
        rcases List.mem_cons.1 hx with rfl | hx
        · exact (getStage_ok h1).1
        · exact getStages_ok h2 x hx

theorem mem_dependsOn {l ds : List Nat} {x : Nat} : x ∈ dependsOn l ds ↔ x ∈ l ∨ x ∈ ds := by
  unfold dependsOn
  induction ds generalizing l with
  | nil => simp
  | cons d ds ih =>
    rw [List.foldl_cons, ih]
    by_cases hd : d ∈ l
    · rw [if_pos hd]
      constructor
      · rintro (h | h)
        · exact Or.inl h
        · exact Or.inr (List.mem_cons_of_mem _ h)
      · rintro (h | h)
        · exact Or.inl h
        · rcases List.mem_cons.1 h with rfl | h
          · exact Or.inl hd
          · exact Or.inr h
    · rw [if_neg hd]
      simp only [List.mem_append, List.mem_cons, List.not_mem_nil, or_false]
      tauto

theorem nodup_dependsOn {l ds : List Nat} (h : l.Nodup) : (dependsOn l ds).Nodup := by
  unfold dependsOn
  induction ds generalizing l with
  | nil => exact h
  | cons d ds ih =>
    rw [List.foldl_cons]
    by_cases hd : d ∈ l
    · rw [if_pos hd]
      exact ih h
    · rw [if_neg hd]
      apply ih
      rw [List.nodup_append]
      refine ⟨h, by simp, ?_⟩
      intro a ha b hb hab
      rw [List.mem_singleton] at hb
      subst hb
      subst hab
      exact hd ha

theorem dependsOn_append {l ds : List Nat} (h : (l ++ ds).Nodup) : dependsOn l ds = l ++ ds := by
  unfold dependsOn
  induction ds generalizing l with
  | nil => simp
  | cons d ds ih =>
    rw [List.foldl_cons, if_neg]
    · rw [ih (by simpa using h)]
      simp
    · rw [List.nodup_append] at h
      intro hc
      exact h.2.2 d hc d List.mem_cons_self rfl

theorem rewire_spec (t n : Nat) : ∀ (ds : List Nat) (deps : Nat → List Nat), ds.Nodup →
    ∀ x, rewire deps t n ds x = if x ∈ ds then dependsOn ((deps x).erase t) [n] else deps x
  | [], deps, _, x => by simp [rewire]
  | d :: ds, deps, h, x => by
    rw [List.nodup_cons] at h
    show rewire (upd deps d (dependsOn ((deps d).erase t) [n])) t n ds x = _
    rw [rewire_spec t n ds _ h.2 x]
    unfold upd
    by_cases hx : x = d
    · subst hx
      rw [if_neg h.1, if_pos rfl, if_pos List.mem_cons_self]
    · by_cases hm : x ∈ ds
      · rw [if_pos hm, if_neg hx, if_pos (List.mem_cons_of_mem _ hm)]
      · rw [if_neg hm, if_neg hx, if_neg]
        rintro (_ | hc)
        · exact hx rfl
        · rename_i h'
          exact hm h'

theorem register_ok {p q : Pipe N} {name : N} {c : Bool} {n : Nat} (h : register p name c = .ok (q, n)) :
    name ∉ p.stages.map p.name ∧ n = p.next ∧ q.next = p.next + 1 ∧ q.stages = p.stages ++ [p.next] ∧
      q.name = upd p.name p.next name ∧ q.deps = upd p.deps p.next [] ∧
      q.captured = if c then p.captured ++ [p.next] else p.captured := by
  unfold register at h
  by_cases hn : name ∈ p.stages.map p.name
  · rw [if_pos hn] at h
    cases h
  · rw [if_neg hn] at h
    cases h
    exact ⟨hn, rfl, rfl, rfl, rfl, rfl, rfl⟩

/-- The parts of `Good` that do not depend on dependencies, after registering a stage and changing
dependencies arbitrarily. -/
theorem good_of_register {p q : Pipe N} {name : N} {c : Bool} {n : Nat} (hp1 : ∀ s ∈ p.stages, s < p.next)
    (hp2 : ∀ s ∈ p.captured, s ∈ p.stages) (hp3 : p.stages.Nodup) (hp4 : (p.stages.map p.name).Nodup)
    (h : register p name c = .ok (q, n)) {deps : Nat → List Nat}
    (known : ∀ s ∈ q.stages, ∀ d ∈ deps s, d ∈ q.stages)
    (once : ∀ s ∈ q.stages, (deps s).Nodup)
    (rank : ∃ rank : Nat → Nat, ∀ s ∈ q.stages, ∀ d ∈ deps s, rank d < rank s)
    (bound : ∀ s, ∀ d ∈ deps s, d < p.next + 1) :
    Good { q with deps := deps } := by
  obtain ⟨hn, _, hnext, hst, hname, _, hcap⟩ := register_ok h
  have hlt : p.next ∉ p.stages := fun hc => Nat.lt_irrefl _ (hp1 _ hc)
  refine ⟨?_, ?_, ?_, ?_, known, once, rank, fun s d hd => hnext ▸ bound s d hd⟩
  · intro s hs
    dsimp only at hs ⊢
    rw [hst] at hs
    rw [hnext]
    rcases List.mem_append.1 hs with hs | hs
    · exact Nat.lt_succ_of_lt (hp1 s hs)
    · rw [List.mem_singleton] at hs
      omega
  · intro s hs
    dsimp only at hs ⊢
    rw [hcap] at hs
    rw [hst]
    split at hs
    · rcases List.mem_append.1 hs with hs | hs
      · exact List.mem_append_left _ (hp2 s hs)
      · exact List.mem_append_right _ hs
    · exact List.mem_append_left _ (hp2 s hs)
  · dsimp only
    rw [hst, List.nodup_append]
    refine ⟨hp3, by simp, ?_⟩
    intro a ha b hb hab
    rw [List.mem_singleton] at hb
    subst hb
    subst hab
    exact hlt ha
  · dsimp only
    rw [hst, hname, List.map_append]
    have hsame : p.stages.map (upd p.name p.next name) = p.stages.map p.name := by
      apply List.map_congr_left
      intro s hs
      unfold upd
      rw [if_neg]
      rintro rfl
      exact hlt hs
    rw [hsame, List.nodup_append]
    refine ⟨hp4, by simp, ?_⟩
    intro a ha b hb hab
    simp only [List.map_cons, List.map_nil, List.mem_singleton, upd, if_true] at hb
    subst hb
    subst hab
    exact hn ha

theorem dependents_nodup {p : Pipe N} (h : p.stages.Nodup) (t : Nat) : (dependents p t).Nodup :=
  h.filter _

theorem mem_dependents {p : Pipe N} {t s : Nat} : s ∈ dependents p t ↔ s ∈ p.stages ∧ t ∈ p.deps s := by
  unfold dependents
  rw [List.mem_filter]
  simp

theorem good_register {p q : Pipe N} {name : N} {c : Bool} {n : Nat} (hg : Good p)
    (h : register p name c = .ok (q, n)) : Good q := by
  obtain ⟨_, rfl, _, hst, _, hdeps, _⟩ := register_ok h
  have := good_of_register hg.fresh hg.captured hg.nodup hg.names h (deps := q.deps) ?_ ?_ ?_ ?_
  · exact this
  · intro s hs d hd
    rw [hst] at hs ⊢
    rw [hdeps] at hd
    unfold upd at hd
    by_cases hsn : s = p.next
    · rw [if_pos hsn] at hd
      cases hd
    · rw [if_neg hsn] at hd
      rcases List.mem_append.1 hs with hs | hs
      · exact List.mem_append_left _ (hg.known s hs d hd)
      · rw [List.mem_singleton] at hs
        exact absurd hs hsn
  · intro s hs
    rw [hst] at hs
    rw [hdeps]
    unfold upd
    by_cases hsn : s = p.next
    · rw [if_pos hsn]
      exact List.nodup_nil
    · rw [if_neg hsn]
      rcases List.mem_append.1 hs with hs | hs
      · exact hg.once s hs
      · rw [List.mem_singleton] at hs
        exact absurd hs hsn
  · obtain ⟨rank, hr⟩ := hg.rank
    refine ⟨rank, ?_⟩
    intro s hs d hd
    rw [hst] at hs
    rw [hdeps] at hd
    unfold upd at hd
    by_cases hsn : s = p.next
    · rw [if_pos hsn] at hd
      cases hd
    · rw [if_neg hsn] at hd
      rcases List.mem_append.1 hs with hs | hs
      · exact hr s hs d hd
      · rw [List.mem_singleton] at hs
        exact absurd hs hsn
  · intro s d hd
    rw [hdeps] at hd
    unfold upd at hd
    split at hd
    · cases hd
    · exact Nat.lt_succ_of_lt (hg.bound s d hd)

/-- The dependencies after `insert_stage_before` without explicit ones. -/
theorem insertBefore_deps {p q : Pipe N} {name : N} {c : Bool} {n t : Nat} (hg : Good p) (ht : t ∈ p.stages)
    (h : register p name c = .ok (q, n)) (x : Nat) :
    upd (upd q.deps n (dependsOn (q.deps n) (p.deps t))) t [n] x =
      if x = t then [n] else if x = n then p.deps t else p.deps x := by
  obtain ⟨_, rfl, _, hst, _, hdeps, _⟩ := register_ok h
  have hnt : p.next ≠ t := fun hc => Nat.lt_irrefl _ (hc ▸ hg.fresh t ht)
  have h0 : upd p.deps p.next [] p.next = [] := by simp [upd]
  rw [hdeps, h0, dependsOn_append (by simpa using hg.once t ht)]
  simp only [upd, List.nil_append]
  by_cases h1 : x = t
  · rw [if_pos h1, if_pos h1]
  · rw [if_neg h1, if_neg h1]
    by_cases h2 : x = p.next
    · rw [if_pos h2, if_pos h2]
    · rw [if_neg h2, if_neg h2, if_neg h2]

theorem good_insertBefore {p q : Pipe N} {target name : N} {ex : Option (List N)} {c : Bool} (hg : Good p)
    (h : insertBefore p target name ex c = .ok q) : Good q := by
  unfold insertBefore at h
  cases ht : getStage p target with
  | error e =>
    rw [ht] at h
    cases h
  | ok t =>
    rw [ht] at h
    dsimp only at h
    obtain ⟨hts, _⟩ := getStage_ok ht
    obtain ⟨rank, hr⟩ := hg.rank
    cases ex with
    | none =>
      dsimp only at h
      cases hreg : register p name c with
      | error e =>
        rw [hreg] at h
        cases h
      | ok qn =>
        obtain ⟨q', n⟩ := qn
        rw [hreg] at h
        cases h
        have hdeps := insertBefore_deps hg hts hreg
        obtain ⟨_, hn, _, hst, _, _, _⟩ := register_ok hreg
        have hnt : n ≠ t := fun hc => Nat.lt_irrefl p.next (by
          have := hg.fresh t hts
          omega)
        have hns : ∀ s ∈ p.stages, s ≠ n := fun s hs hc => by
          have := hg.fresh s hs
          omega
        refine good_of_register hg.fresh hg.captured hg.nodup hg.names hreg ?_ ?_ ?_ ?_
        · intro s hs d hd
          rw [hdeps] at hd
          rw [hst] at hs ⊢
          by_cases h1 : s = t
          · rw [if_pos h1, List.mem_singleton] at hd
            rw [hd, hn]
            simp
          · rw [if_neg h1] at hd
            by_cases h2 : s = n
            · rw [if_pos h2] at hd
              exact List.mem_append_left _ (hg.known t hts d hd)
            · rw [if_neg h2] at hd
              rcases List.mem_append.1 hs with hs | hs
              · exact List.mem_append_left _ (hg.known s hs d hd)
              · rw [List.mem_singleton] at hs
                omega
        · intro s hs
          rw [hdeps]
          rw [hst] at hs
          by_cases h1 : s = t
          · rw [if_pos h1]
            simp
          · rw [if_neg h1]
            by_cases h2 : s = n
            · rw [if_pos h2]
              exact hg.once t hts
            · rw [if_neg h2]
              rcases List.mem_append.1 hs with hs | hs
              · exact hg.once s hs
              · rw [List.mem_singleton] at hs
                omega
        · refine ⟨fun s => if s = n then 2 * rank t else 2 * rank s + 1, ?_⟩
          intro s hs d hd
          rw [hdeps] at hd
          rw [hst] at hs
          dsimp only
          by_cases h1 : s = t
          · rw [if_pos h1, List.mem_singleton] at hd
            rw [if_pos hd, if_neg (by omega), h1]
            omega
          · rw [if_neg h1] at hd
            by_cases h2 : s = n
            · rw [if_pos h2] at hd
              rw [if_neg (hns d (hg.known t hts d hd)), if_pos h2]
              have := hr t hts d hd
              omega
            · rw [if_neg h2] at hd
              rcases List.mem_append.1 hs with hs | hs
              · rw [if_neg (hns d (hg.known s hs d hd)), if_neg h2]
                have := hr s hs d hd
                omega
              · rw [List.mem_singleton] at hs
                omega
        · intro s d hd
          rw [hdeps] at hd
          by_cases h1 : s = t
          · rw [if_pos h1, List.mem_singleton] at hd
            omega
          · rw [if_neg h1] at hd
            by_cases h2 : s = n
            · rw [if_pos h2] at hd
              exact Nat.lt_succ_of_lt (hg.bound t d hd)
            · rw [if_neg h2] at hd
              exact Nat.lt_succ_of_lt (hg.bound s d hd)
    | some names =>
      dsimp only at h
      cases hgs : getStages p names with
      | error e =>
        rw [hgs] at h
        cases h
      | ok ds =>
        rw [hgs] at h
        dsimp only at h
        cases hreg : register p name c with
        | error e =>
          rw [hreg] at h
          cases h
        | ok qn =>
          obtain ⟨q', n⟩ := qn
          rw [hreg] at h
          cases h
          have hds := getStages_ok hgs
          obtain ⟨_, hn, _, hst, _, hqd, _⟩ := register_ok hreg
          have hns : ∀ s ∈ p.stages, s ≠ n := fun s hs hc => by
            have := hg.fresh s hs
            omega
          have hdeps : ∀ x, upd q'.deps n (dependsOn (q'.deps n) ds) x =
              if x = n then dependsOn [] ds else p.deps x := by
            intro x
            rw [hqd]
            subst hn
            simp only [upd]
            by_cases hx : x = p.next
            · simp [hx]
            · simp [hx]
          refine good_of_register hg.fresh hg.captured hg.nodup hg.names hreg ?_ ?_ ?_ ?_
          · intro s hs d hd
            rw [hdeps] at hd
            rw [hst] at hs ⊢
            by_cases h1 : s = n
            · rw [if_pos h1, mem_dependsOn] at hd
              rcases hd with hd | hd
              · cases hd
              · exact List.mem_append_left _ (hds d hd)
            · rw [if_neg h1] at hd
              rcases List.mem_append.1 hs with hs | hs
              · exact List.mem_append_left _ (hg.known s hs d hd)
              · rw [List.mem_singleton] at hs
                omega
          · intro s hs
            rw [hdeps]
            rw [hst] at hs
            by_cases h1 : s = n
            · rw [if_pos h1]
              exact nodup_dependsOn List.nodup_nil
            · rw [if_neg h1]
              rcases List.mem_append.1 hs with hs | hs
              · exact hg.once s hs
              · rw [List.mem_singleton] at hs
                omega
          · refine ⟨fun s => if s = n then (ds.map rank).sum + 1 else rank s, ?_⟩
            intro s hs d hd
            rw [hdeps] at hd
            rw [hst] at hs
            dsimp only
            by_cases h1 : s = n
            · rw [if_pos h1, mem_dependsOn] at hd
              rcases hd with hd | hd
              · cases hd
              · rw [if_neg (hns d (hds d hd)), if_pos h1]
                have := le_sum_map rank hd
                omega
            · rw [if_neg h1] at hd
              rcases List.mem_append.1 hs with hs | hs
              · rw [if_neg (hns d (hg.known s hs d hd)), if_neg h1]
                exact hr s hs d hd
              · rw [List.mem_singleton] at hs
                omega
          · intro s d hd
            rw [hdeps] at hd
            by_cases h1 : s = n
            · rw [if_pos h1, mem_dependsOn] at hd
              rcases hd with hd | hd
              · cases hd
              · exact Nat.lt_succ_of_lt (hg.fresh d (hds d hd))
            · rw [if_neg h1] at hd
              exact Nat.lt_succ_of_lt (hg.bound s d hd)

/-- The dependencies after `insert_stage_after`. -/
theorem insertAfter_deps {p q : Pipe N} {name : N} {c : Bool} {n t : Nat} (hg : Good p)
    (h : register p name c = .ok (q, n)) (x : Nat) :
    rewire (upd q.deps n (dependsOn (q.deps n) [t])) t n (dependents p t) x =
      if x = n then [t] else if x ∈ dependents p t then (p.deps x).erase t ++ [n] else p.deps x := by
  obtain ⟨_, rfl, _, hst, _, hdeps, _⟩ := register_ok h
  rw [rewire_spec t p.next _ _ (dependents_nodup hg.nodup t), hdeps]
  have hnd : p.next ∉ dependents p t := fun hc =>
    Nat.lt_irrefl _ (hg.fresh _ (mem_dependents.1 hc).1)
  by_cases hx : x = p.next
  · subst hx
    rw [if_neg hnd, if_pos rfl]
    simp [upd, dependsOn]
  · rw [if_neg hx]
    simp only [upd, if_neg hx]
    by_cases hm : x ∈ dependents p t
    · rw [if_pos hm, if_pos hm]
      have hxs := (mem_dependents.1 hm).1
      apply dependsOn_append
      rw [List.nodup_append]
      refine ⟨(hg.once x hxs).erase t, by simp, ?_⟩
      intro a ha b hb hab
      rw [List.mem_singleton] at hb
      subst hb
      subst hab
      exact Nat.lt_irrefl _ (hg.fresh _ (hg.known x hxs _ (List.mem_of_mem_erase ha)))
    · rw [if_neg hm, if_neg hm]

theorem good_insertAfter {p q : Pipe N} {target name : N} {c : Bool} (hg : Good p)
    (h : insertAfter p target name c = .ok q) : Good q := by
  unfold insertAfter at h
  cases ht : getStage p target with
  | error e =>
    rw [ht] at h
    cases h
  | ok t =>
    rw [ht] at h
    dsimp only at h
    obtain ⟨hts, _⟩ := getStage_ok ht
    obtain ⟨rank, hr⟩ := hg.rank
    cases hreg : register p name c with
    | error e =>
      rw [hreg] at h
      cases h
    | ok qn =>
      obtain ⟨q', n⟩ := qn
      rw [hreg] at h
      cases h
      have hdeps := insertAfter_deps (t := t) hg hreg
      obtain ⟨_, hn, _, hst, _, _, _⟩ := register_ok hreg
      have hns : ∀ s ∈ p.stages, s ≠ n := fun s hs hc => by
        have := hg.fresh s hs
        omega
      refine good_of_register hg.fresh hg.captured hg.nodup hg.names hreg ?_ ?_ ?_ ?_
      · intro s hs d hd
        rw [hdeps] at hd
        rw [hst] at hs ⊢
        by_cases h1 : s = n
        · rw [if_pos h1, List.mem_singleton] at hd
          exact List.mem_append_left _ (hd ▸ hts)
        · rw [if_neg h1] at hd
          have hs' : s ∈ p.stages := by
            rcases List.mem_append.1 hs with hs | hs
            · exact hs
            · rw [List.mem_singleton] at hs
              omega
          by_cases h2 : s ∈ dependents p t
          · rw [if_pos h2] at hd
            rcases List.mem_append.1 hd with hd | hd
            · exact List.mem_append_left _ (hg.known s hs' d (List.mem_of_mem_erase hd))
            · rw [List.mem_singleton] at hd
              rw [hd, hn]
              simp
          · rw [if_neg h2] at hd
            exact List.mem_append_left _ (hg.known s hs' d hd)
      · intro s hs
        rw [hdeps]
        rw [hst] at hs
        by_cases h1 : s = n
        · rw [if_pos h1]
          simp
        · rw [if_neg h1]
          have hs' : s ∈ p.stages := by
            rcases List.mem_append.1 hs with hs | hs
            · exact hs
            · rw [List.mem_singleton] at hs
              omega
          by_cases h2 : s ∈ dependents p t
          · rw [if_pos h2, List.nodup_append]
            refine ⟨(hg.once s hs').erase t, by simp, ?_⟩
            intro a ha b hb hab
            rw [List.mem_singleton] at hb
            exact hns a (hg.known s hs' a (List.mem_of_mem_erase ha)) (hab.trans hb)
          · rw [if_neg h2]
            exact hg.once s hs'
      · refine ⟨fun s => if s = n then 2 * rank t + 1 else 2 * rank s, ?_⟩
        intro s hs d hd
        rw [hdeps] at hd
        rw [hst] at hs
        dsimp only
        by_cases h1 : s = n
        · rw [if_pos h1, List.mem_singleton] at hd
          rw [if_pos h1, if_neg (hd ▸ hns t hts), hd]
          omega
        · rw [if_neg h1] at hd
          have hs' : s ∈ p.stages := by
            rcases List.mem_append.1 hs with hs | hs
            · exact hs
            · rw [List.mem_singleton] at hs
              omega
          rw [if_neg h1]
          by_cases h2 : s ∈ dependents p t
          · rw [if_pos h2] at hd
            rcases List.mem_append.1 hd with hd | hd
            · have hd' := List.mem_of_mem_erase hd
              rw [if_neg (hns d (hg.known s hs' d hd'))]
              have := hr s hs' d hd'
              omega
            · rw [List.mem_singleton] at hd
              rw [if_pos hd]
              have := hr s hs' t (mem_dependents.1 h2).2
              omega
          · rw [if_neg h2] at hd
            rw [if_neg (hns d (hg.known s hs' d hd))]
            have := hr s hs' d hd
            omega
      · intro s d hd
        rw [hdeps] at hd
        by_cases h1 : s = n
        · rw [if_pos h1, List.mem_singleton] at hd
          rw [hd]
          exact Nat.lt_succ_of_lt (hg.fresh t hts)
        · rw [if_neg h1] at hd
          by_cases h2 : s ∈ dependents p t
          · rw [if_pos h2] at hd
            rcases List.mem_append.1 hd with hd | hd
            · exact Nat.lt_succ_of_lt (hg.bound s d (List.mem_of_mem_erase hd))
            · rw [List.mem_singleton] at hd
              omega
          · rw [if_neg h2] at hd
            exact Nat.lt_succ_of_lt (hg.bound s d hd)

/-- The dependencies after `replace_stage`. -/
theorem replace_deps {p q : Pipe N} {name : N} {c : Bool} {n t : Nat} (hg : Good p) (hts : t ∈ p.stages)
    (h : register (withoutStage p t) name c = .ok (q, n)) (x : Nat) :
    rewire (upd q.deps n (dependsOn (q.deps n) (p.deps t))) t n (dependents p t) x =
      if x = n then p.deps t else if x ∈ dependents p t then (p.deps x).erase t ++ [n] else p.deps x := by
  obtain ⟨_, hn, _, hst, _, hdeps, _⟩ := register_ok h
  have hn' : n = p.next := hn
  subst hn'
  rw [rewire_spec t p.next _ _ (dependents_nodup hg.nodup t), hdeps]
  have hnd : p.next ∉ dependents p t := fun hc =>
    Nat.lt_irrefl _ (hg.fresh _ (mem_dependents.1 hc).1)
  by_cases hx : x = p.next
  · subst hx
    rw [if_neg hnd, if_pos rfl]
    simp only [upd, withoutStage, if_true]
    exact dependsOn_append (by simpa using hg.once t hts)
  · rw [if_neg hx]
    simp only [upd, withoutStage, hx, if_false]
    by_cases hm : x ∈ dependents p t
    · rw [if_pos hm, if_pos hm]
      have hxs := (mem_dependents.1 hm).1
      apply dependsOn_append
      rw [List.nodup_append]
      refine ⟨(hg.once x hxs).erase t, by simp, ?_⟩
      intro a ha b hb hab
      rw [List.mem_singleton] at hb
      subst hb
      subst hab
      exact Nat.lt_irrefl _ (hg.fresh _ (hg.known x hxs _ (List.mem_of_mem_erase ha)))
    · rw [if_neg hm, if_neg hm]

theorem good_replace {p q : Pipe N} {target : N} {name : Option N} {c : Option Bool} (hg : Good p)
    (h : replace p target name c = .ok q) : Good q := by
  unfold replace at h
  cases ht : getStage p target with
  | error e =>
    rw [ht] at h
    cases h
  | ok t =>
    rw [ht] at h
    dsimp only at h
    obtain ⟨hts, _⟩ := getStage_ok ht
    obtain ⟨rank, hr⟩ := hg.rank
    split at h
    · cases h
    · cases hreg : register (withoutStage p t) (name.getD (p.name t)) (c.getD (decide (t ∈ p.captured))) with
      | error e =>
        rw [hreg] at h
        cases h
      | ok qn =>
        obtain ⟨q', n⟩ := qn
        rw [hreg] at h
        cases h
        have hdeps := replace_deps hg hts hreg
        obtain ⟨_, hn, _, hst, _, _, _⟩ := register_ok hreg
        have hn' : n = p.next := hn
        have hst' : q'.stages = p.stages.erase t ++ [p.next] := hst
        have hns : ∀ s ∈ p.stages, s ≠ n := fun s hs hc => by
          have := hg.fresh s hs
          omega
        have hold : ∀ s ∈ p.stages.erase t, s ∈ p.stages ∧ s ≠ t := fun s hs =>
          ⟨List.mem_of_mem_erase hs, fun hc => (hg.nodup.not_mem_erase (hc ▸ hs))⟩
        have htt : t ∉ p.deps t := fun hc => Nat.lt_irrefl _ (hr t hts t hc)
        have hmem : ∀ d, d ∈ p.stages → d ≠ t → d ∈ q'.stages := fun d hd hdt => by
          rw [hst']
          exact List.mem_append_left _ ((List.mem_erase_of_ne hdt).2 hd)
        have hsplit : ∀ s ∈ q'.stages, s = n ∨ (s ∈ p.stages ∧ s ≠ t ∧ s ≠ n) := by
          intro s hs
          rw [hst'] at hs
          rcases List.mem_append.1 hs with hs | hs
          · exact Or.inr ⟨(hold s hs).1, (hold s hs).2, hns s (hold s hs).1⟩
          · rw [List.mem_singleton] at hs
            exact Or.inl (hs.trans hn'.symm)
        refine good_of_register (p := withoutStage p t) ?_ ?_ ?_ ?_ hreg ?_ ?_ ?_ ?_
        · exact fun s hs => hg.fresh s (List.mem_of_mem_erase hs)
        · intro s hs
          obtain ⟨h1, h2⟩ := List.mem_filter.1 hs
          exact (List.mem_erase_of_ne (by simpa using h2)).2 (hg.captured s h1)
        · exact hg.nodup.erase t
        · exact hg.names.sublist (List.Sublist.map _ List.erase_sublist)
        · intro s hs d hd
          rw [hdeps] at hd
          rcases hsplit s hs with h1 | ⟨hs', hst1, h1⟩
          · rw [if_pos h1] at hd
            exact hmem d (hg.known t hts d hd) (fun hc => htt (hc ▸ hd))
          · rw [if_neg h1] at hd
            by_cases h2 : s ∈ dependents p t
            · rw [if_pos h2] at hd
              rcases List.mem_append.1 hd with hd | hd
              · exact hmem d (hg.known s hs' d (List.mem_of_mem_erase hd))
                  (fun hc => (hg.once s hs').not_mem_erase (hc ▸ hd))
              · rw [List.mem_singleton] at hd
                rw [hd, hn', hst']
                simp
            · rw [if_neg h2] at hd
              exact hmem d (hg.known s hs' d hd) (fun hc => h2 (mem_dependents.2 ⟨hs', hc ▸ hd⟩))
        · intro s hs
          rw [hdeps]
          rcases hsplit s hs with h1 | ⟨hs', hst1, h1⟩
          · rw [if_pos h1]
            exact hg.once t hts
          · rw [if_neg h1]
            by_cases h2 : s ∈ dependents p t
            · rw [if_pos h2, List.nodup_append]
              refine ⟨(hg.once s hs').erase t, by simp, ?_⟩
              intro a ha b hb hab
              rw [List.mem_singleton] at hb
              exact hns a (hg.known s hs' a (List.mem_of_mem_erase ha)) (hab.trans hb)
            · rw [if_neg h2]
              exact hg.once s hs'
        · refine ⟨fun s => if s = n then rank t else rank s, ?_⟩
          intro s hs d hd
          rw [hdeps] at hd
          dsimp only
          rcases hsplit s hs with h1 | ⟨hs', hst1, h1⟩
          · rw [if_pos h1] at hd
            rw [if_pos h1, if_neg (hns d (hg.known t hts d hd))]
            exact hr t hts d hd
          · rw [if_neg h1] at hd
            rw [if_neg h1]
            by_cases h2 : s ∈ dependents p t
            · rw [if_pos h2] at hd
              rcases List.mem_append.1 hd with hd | hd
              · have hd' := List.mem_of_mem_erase hd
                rw [if_neg (hns d (hg.known s hs' d hd'))]
                exact hr s hs' d hd'
              · rw [List.mem_singleton] at hd
                rw [if_pos hd]
                exact hr s hs' t (mem_dependents.1 h2).2
            · rw [if_neg h2] at hd
              rw [if_neg (hns d (hg.known s hs' d hd))]
              exact hr s hs' d hd
        · intro s d hd
          show d < p.next + 1
          rw [hdeps] at hd
          by_cases h1 : s = n
          · rw [if_pos h1] at hd
            exact Nat.lt_succ_of_lt (hg.bound t d hd)
          · rw [if_neg h1] at hd
            by_cases h2 : s ∈ dependents p t
            · rw [if_pos h2] at hd
              rcases List.mem_append.1 hd with hd | hd
              · exact Nat.lt_succ_of_lt (hg.bound s d (List.mem_of_mem_erase hd))
              · rw [List.mem_singleton] at hd
                omega
            · rw [if_neg h2] at hd
              exact Nat.lt_succ_of_lt (hg.bound s d hd)

/-! ### `_reaches` -/

/-- Total number of dependencies of stages not seen yet. -/
def pending (p : Pipe N) (seen : List Nat) : Nat :=
  ((p.stages.filter (fun s => s ∉ seen)).map (fun s => (p.deps s).length)).sum

theorem pending_cons {p : Pipe N} (hn : p.stages.Nodup) {seen : List Nat} {c : Nat} (hc : c ∈ p.stages)
    (hs : c ∉ seen) : pending p (c :: seen) + (p.deps c).length = pending p seen := by
  unfold pending
  have hperm : (p.stages.filter (fun s => s ∉ seen)).Perm
      (c :: p.stages.filter (fun s => s ∉ c :: seen)) := by
    refine (List.perm_ext_iff_of_nodup (hn.filter _) ?_).2 ?_
    · rw [List.nodup_cons]
      exact ⟨by simp, hn.filter _⟩
    · intro x
      simp only [List.mem_filter, decide_eq_true_eq, List.mem_cons, not_or]
      constructor
      · rintro ⟨h1, h2⟩
        by_cases hx : x = c
        · exact Or.inl hx
        · exact Or.inr ⟨h1, hx, h2⟩
      · rintro (rfl | ⟨h1, _, h2⟩)
        · exact ⟨hc, hs⟩
        · exact ⟨h1, h2⟩
  rw [(hperm.map _).sum_nat]
  simp only [List.map_cons, List.sum_cons]
  omega

theorem reachesLoop_spec {p : Pipe N} (hg : Good p) (dst : Nat) : ∀ (fuel : Nat) (stack seen : List Nat),
    stack.length + pending p seen < fuel → (∀ s ∈ stack, s ∈ p.stages) →
    (∀ s ∈ seen, s ≠ dst ∧ ∀ d ∈ p.deps s, d ∈ seen ∨ d ∈ stack) →
    (reachesLoop p.deps dst fuel stack seen = true ↔
      ∃ s ∈ stack, Relation.ReflTransGen (fun a b => b ∈ p.deps a) s dst)
  | 0, _, _, hf, _, _ => by omega
  | fuel + 1, [], seen, _, _, _ => by simp [reachesLoop]
  | fuel + 1, c :: stack, seen, hf, hst, hseen => by
    unfold reachesLoop
    by_cases h1 : c = dst
    · rw [if_pos h1]
      simp only [true_iff]
      exact ⟨c, List.mem_cons_self, h1 ▸ .refl⟩
    · rw [if_neg h1]
      by_cases h2 : c ∈ seen
      · rw [if_pos h2, reachesLoop_spec hg dst fuel stack seen (by simp at hf; omega)
          (fun s hs => hst s (List.mem_cons_of_mem _ hs))
          (fun s hs => ⟨(hseen s hs).1, fun d hd => by
            rcases (hseen s hs).2 d hd with h | h
            · exact Or.inl h
            · rcases List.mem_cons.1 h with rfl | h
              · exact Or.inl h2
              · exact Or.inr h⟩)]
        constructor
        · rintro ⟨s, hs, hr⟩
          exact ⟨s, List.mem_cons_of_mem _ hs, hr⟩
        · rintro ⟨s, hs, hr⟩
          -- a path from a seen stage leaves the seen stages through the stack
          have key : ∀ x, x ∈ seen ∨ x ∈ stack →
              Relation.ReflTransGen (fun a b => b ∈ p.deps a) x dst →
              ∃ s ∈ stack, Relation.ReflTransGen (fun a b => b ∈ p.deps a) s dst := by
            intro x hx hr
            induction hr using Relation.ReflTransGen.head_induction_on with
            | refl =>
              rcases hx with hx | hx
              · exact absurd rfl (hseen dst hx).1
              · exact ⟨dst, hx, .refl⟩
            | head hstep hrest ih =>
              rcases hx with hx | hx
              · apply ih
                rcases (hseen _ hx).2 _ hstep with h | h
                · exact Or.inl h
                · rcases List.mem_cons.1 h with rfl | h
                  · exact Or.inl h2
                  · exact Or.inr h
              · exact ⟨_, hx, .head hstep hrest⟩
          rcases List.mem_cons.1 hs with rfl | hs
          · exact key s (Or.inl h2) hr
          · exact key s (Or.inr hs) hr
      · have hcs := hst c List.mem_cons_self
        rw [if_neg h2, reachesLoop_spec hg dst fuel _ (c :: seen) ?_ ?_ ?_]
        · constructor
          · rintro ⟨s, hs, hr⟩
            rcases List.mem_append.1 hs with hs | hs
            · exact ⟨c, List.mem_cons_self, .head (List.mem_reverse.1 hs) hr⟩
            · exact ⟨s, List.mem_cons_of_mem _ hs, hr⟩
          · rintro ⟨s, hs, hr⟩
            rcases List.mem_cons.1 hs with rfl | hs
            · rcases Relation.ReflTransGen.cases_head hr with h | ⟨d, hd, hrd⟩
              · exact absurd h h1
              · exact ⟨d, List.mem_append_left _ (List.mem_reverse.2 hd), hrd⟩
            · exact ⟨s, List.mem_append_right _ hs, hr⟩
        · have := pending_cons hg.nodup hcs h2
          simp only [List.length_append, List.length_reverse, List.length_cons] at hf ⊢
          omega
        · intro s hs
          rcases List.mem_append.1 hs with hs | hs
          · exact hg.known c hcs s (List.mem_reverse.1 hs)
          · exact hst s (List.mem_cons_of_mem _ hs)
        · intro s hs
          rcases List.mem_cons.1 hs with rfl | hs
          · exact ⟨h1, fun d hd => Or.inr (List.mem_append_left _ (List.mem_reverse.2 hd))⟩
          · refine ⟨(hseen s hs).1, fun d hd => ?_⟩
            rcases (hseen s hs).2 d hd with h | h
            · exact Or.inl (List.mem_cons_of_mem _ h)
            · rcases List.mem_cons.1 h with rfl | h
              · exact Or.inl List.mem_cons_self
              · exact Or.inr (List.mem_append_right _ h)

theorem reaches_iff {p : Pipe N} (hg : Good p) {src dst : Nat} (hs : src ∈ p.stages) :
    reaches p src dst = true ↔ src = dst ∨ Needs p src dst := by
  unfold reaches
  rw [reachesLoop_spec hg dst _ [src] [] ?_ (by simpa using hs) (by simp)]
  · simp only [List.mem_singleton, exists_eq_left]
    rw [Relation.reflTransGen_iff_eq_or_transGen]
    constructor
    · rintro (h | h)
      · exact Or.inl h.symm
      · exact Or.inr h
    · rintro (h | h)
      · exact Or.inl h.symm
      · exact Or.inr h
  · unfold reachesFuel pending
    have : p.stages.filter (fun s => s ∉ ([] : List Nat)) = p.stages := by simp
    rw [this]
    simp only [List.length_singleton]
    omega

theorem good_addDependency {p q : Pipe N} {stage dependency : N} (hg : Good p)
    (h : addDependency p stage dependency = .ok q) : Good q := by
  unfold addDependency at h
  cases hs : getStage p stage with
  | error e =>
    rw [hs] at h
    cases h
  | ok s =>
    rw [hs] at h
    dsimp only at h
    cases hd : getStage p dependency with
    | error e =>
      rw [hd] at h
      cases h
    | ok d =>
      rw [hd] at h
      dsimp only at h
      obtain ⟨hss, _⟩ := getStage_ok hs
      obtain ⟨hds, _⟩ := getStage_ok hd
      split at h
      · cases h
      · rename_i hreach
        rw [reaches_iff hg hds] at hreach
        cases h
        obtain ⟨rank, hr⟩ := hg.rank
        refine ⟨hg.fresh, hg.captured, hg.nodup, hg.names, ?_, ?_, ?_, ?_⟩
        · intro x hx y hy
          dsimp only [upd] at hx hy ⊢
          split at hy
          · rename_i hxs
            rw [mem_dependsOn] at hy
            rcases hy with hy | hy
            · exact hg.known s hss y hy
            · rw [List.mem_singleton] at hy
              exact hy ▸ hds
          · exact hg.known x hx y hy
        · intro x hx
          dsimp only [upd] at hx ⊢
          split
          · exact nodup_dependsOn (hg.once s hss)
          · exact hg.once x hx
        · classical
          refine ⟨fun x => if x = s ∨ Needs p x s then rank x + rank d + 1 else rank x, ?_⟩
          intro x hx y hy
          dsimp only [upd] at hx hy ⊢
          have hstep : ∀ a b, b ∈ p.deps a → (b = s ∨ Needs p b s) → (a = s ∨ Needs p a s) := by
            intro a b hab hb
            rcases hb with rfl | hb
            · exact Or.inr (.single hab)
            · exact Or.inr (.head hab hb)
          have hold : ∀ a ∈ p.stages, ∀ b ∈ p.deps a,
              (if b = s ∨ Needs p b s then rank b + rank d + 1 else rank b) <
                if a = s ∨ Needs p a s then rank a + rank d + 1 else rank a := by
            intro a ha b hb
            have := hr a ha b hb
            by_cases h1 : b = s ∨ Needs p b s
            · rw [if_pos h1, if_pos (hstep a b hb h1)]
              omega
            · rw [if_neg h1]
              split <;> omega
          split at hy
          · rename_i hxs
            subst hxs
            rw [mem_dependsOn] at hy
            rcases hy with hy | hy
            · exact hold x hss y hy
            · rw [List.mem_singleton] at hy
              subst hy
              rw [if_neg hreach, if_pos (Or.inl rfl)]
              omega
          · exact hold x hx y hy
        · intro x y hy
          dsimp only [upd] at hy ⊢
          split at hy
          · rw [mem_dependsOn] at hy
            rcases hy with hy | hy
            · exact hg.bound s y hy
            · rw [List.mem_singleton] at hy
              exact hy ▸ hg.fresh d hds
          · exact hg.bound x y hy

theorem good_removeDependency {p q : Pipe N} {stage dependency : N} (hg : Good p)
    (h : removeDependency p stage dependency = .ok q) : Good q := by
  unfold removeDependency at h
  cases hs : getStage p stage with
  | error e =>
    rw [hs] at h
    cases h
  | ok s =>
    rw [hs] at h
    dsimp only at h
    cases hd : getStage p dependency with
    | error e =>
      rw [hd] at h
      cases h
    | ok d =>
      rw [hd] at h
      dsimp only at h
      obtain ⟨hss, _⟩ := getStage_ok hs
      split at h
      · cases h
      · cases h
        obtain ⟨rank, hr⟩ := hg.rank
        have hsub : ∀ x ∈ p.stages, ∀ y ∈ upd p.deps s ((p.deps s).erase d) x, y ∈ p.deps x := by
          intro x hx y hy
          dsimp only [upd] at hy
          split at hy
          · rename_i hxs
            subst hxs
            exact List.mem_of_mem_erase hy
          · exact hy
        refine ⟨hg.fresh, hg.captured, hg.nodup, hg.names, ?_, ?_, ⟨rank, ?_⟩, ?_⟩
        · exact fun x hx y hy => hg.known x hx y (hsub x hx y hy)
        · intro x hx
          dsimp only [upd] at hx ⊢
          split
          · exact (hg.once s hss).erase d
          · exact hg.once x hx
        · exact fun x hx y hy => hr x hx y (hsub x hx y hy)
        · intro x y hy
          dsimp only [upd] at hy ⊢
          split at hy
          · exact hg.bound s y (List.mem_of_mem_erase hy)
          · exact hg.bound x y hy

theorem good_edit {p q : Pipe N} (hg : Good p) (e : Edit N) (h : edit p e = .ok q) : Good q := by
  cases e with
  | register n c =>
    unfold edit at h
    dsimp only at h
    cases hr : register p n c with
    | error e =>
      rw [hr] at h
      cases h
    | ok qn =>
      rw [hr] at h
      cases h
      exact good_register (n := qn.2) hg hr
  | insertBefore t n d c => exact good_insertBefore hg h
  | insertAfter t n c => exact good_insertAfter hg h
  | replace t n c => exact good_replace hg h
  | addDependency s d => exact good_addDependency hg h
  | removeDependency s d => exact good_removeDependency hg h

theorem good_edits : ∀ (es : List (Edit N)) {p : Pipe N}, Good p → Good (edits p es)
  | [], _, h => h
  | e :: es, p, h => by
    show Good (edits (match edit p e with | .error _ => p | .ok q => q) es)
    apply good_edits es
    cases he : edit p e with
    | error _ => exact h
    | ok q => exact good_edit h e he

theorem good_empty (dflt : N) : Good (Pipe.empty dflt) :=
  ⟨by simp [Pipe.empty], by simp [Pipe.empty], by simp [Pipe.empty], by simp [Pipe.empty],
    by simp [Pipe.empty], by simp [Pipe.empty], ⟨fun _ => 0, by simp [Pipe.empty]⟩, by simp [Pipe.empty]⟩

/-! ### A stage whose only dependent is `t` runs right before it -/

/-- `n` has been placed together with `t`, right before it. -/
def Adjacent (n t : Nat) (out : List Nat) : Prop :=
  (n ∈ out → ∃ before after, out = before ++ n :: t :: after) ∧ (t ∈ out → n ∈ out)

theorem Adjacent.append {n t : Nat} {out : List Nat} (h : Adjacent n t out) {x : Nat} (hn : x ≠ n)
    (ht : x ≠ t) : Adjacent n t (out ++ [x]) := by
  have hmem : ∀ y, y ≠ x → (y ∈ out ++ [x] ↔ y ∈ out) := by
    intro y hy
    simp [hy]
  refine ⟨?_, ?_⟩
  · intro hm
    obtain ⟨b, a, rfl⟩ := h.1 ((hmem n hn.symm).1 hm)
    exact ⟨b, a ++ [x], by simp⟩
  · intro hm
    exact (hmem n hn.symm).2 (h.2 ((hmem t ht.symm).1 hm))

theorem visitAll_adjacent {stages : List Nat} {deps : Nat → List Nat} {n t : Nat}
    {visit : List Nat → Nat → Except Err (List Nat)}
    (ht : ∀ out d out', Topo deps out → visit out d = .ok out' → Topo deps out')
    (hv : ∀ out d out', d ≠ n → Topo deps out → Adjacent n t out → visit out d = .ok out' →
      Adjacent n t out') :
    ∀ (ds out out' : List Nat), n ∉ ds → Topo deps out → Adjacent n t out →
    visitAll stages visit out ds = .ok out' → Adjacent n t out'
  | [], out, out', _, _, ha, h => by
    cases h
    exact ha
  | d :: ds, out, out', hn, hto, ha, h => by
    unfold visitAll at h
    split at h
    · cases h
    · cases hd : visit out d with
      | error e =>
        rw [hd] at h
        cases h
      | ok out1 =>
        rw [hd] at h
        exact visitAll_adjacent ht hv ds out1 out' (fun hc => hn (List.mem_cons_of_mem _ hc))
          (ht out d out1 hto hd)
          (hv out d out1 (fun hc => hn (hc ▸ List.mem_cons_self)) hto ha hd) h

theorem dfs_adjacent {stages : List Nat} {deps : Nat → List Nat} {n t : Nat} (hnt : n ≠ t)
    (hdt : deps t = [n]) (hdn : ∀ x, x ≠ t → n ∉ deps x) : ∀ (fuel : Nat) (path out : List Nat) (s : Nat)
    (out' : List Nat), s ≠ n → Topo deps out → Adjacent n t out →
    dfs stages deps fuel path out s = .ok out' → Adjacent n t out'
  | 0, _, _, _, _, _, _, _, h => by cases h
  | fuel + 1, path, out, s, out', hsn, hto, ha, h => by
    have hind : ∀ path ds out out', n ∉ ds → Topo deps out → Adjacent n t out →
        visitAll stages (dfs stages deps fuel path) out ds = .ok out' → Adjacent n t out' := by
      intro path ds out out' hn hto ha h
      refine visitAll_adjacent ?_ ?_ ds out out' hn hto ha h
      · exact fun o d o' ho hd => (dfs_ok fuel path o d o' ho hd).topo
      · exact fun o d o' hd ho ha hdfs => dfs_adjacent hnt hdt hdn fuel path o d o' hd ho ha hdfs
    unfold dfs at h
    by_cases h1 : s ∈ path
    · rw [if_pos h1] at h
      cases h
    · rw [if_neg h1] at h
      by_cases h2 : s ∈ out
      · rw [if_pos h2] at h
        cases h
        exact ha
      · rw [if_neg h2] at h
        cases hv : visitAll stages (dfs stages deps fuel (s :: path)) out (deps s) with
        | error e =>
          rw [hv] at h
          cases h
        | ok out1 =>
          rw [hv] at h
          cases h
          by_cases hst : s = t
          · subst hst
            rw [hdt] at hv
            have hno : n ∉ out := by
              intro hc
              obtain ⟨b, a, e⟩ := ha.1 hc
              exact h2 (by rw [e]; simp)
            unfold visitAll at hv
            split at hv
            · cases hv
            · cases hd : dfs stages deps fuel (s :: path) out n with
              | error e =>
                rw [hd] at hv
                cases hv
              | ok out2 =>
                rw [hd] at hv
                unfold visitAll at hv
                cases hv
                cases fuel with
                | zero => cases hd
                | succ fuel =>
                  unfold dfs at hd
                  split at hd
                  · cases hd
                  · try rw [if_neg hno] at hd
                    cases hv2 : visitAll stages (dfs stages deps fuel (n :: s :: path)) out (deps n) with
                    | error e =>
                      rw [hv2] at hd
                      cases hd
                    | ok out3 =>
                      rw [hv2] at hd
                      cases hd
                      obtain ⟨v, _⟩ := visitAll_ok
                        (fun o d o' => dfs_ok fuel (n :: s :: path) o d o') (deps n) out out3 hto hv2
                      obtain ⟨new, e, hp, _⟩ := v.added
                      exact ⟨fun _ => ⟨out3, [], by simp⟩, fun _ => by simp⟩
          · exact (hind (s :: path) (deps s) out out1 (hdn s hst) hto ha hv).append hsn hst

theorem buildRoots_append {stages : List Nat} {deps : Nat → List Nat} : ∀ (as bs out : List Nat),
    buildRoots stages deps (as ++ bs) out = match buildRoots stages deps as out with
      | .error e => .error e
      | .ok out' => buildRoots stages deps bs out'
  | [], bs, out => rfl
  | a :: as, bs, out => by
    have hstep : ∀ l, buildRoots stages deps (a :: l) out =
        match dfs stages deps (stages.length + 1) [] out a with
        | .error e => .error e
        | .ok out' => buildRoots stages deps l out' := fun _ => rfl
    rw [List.cons_append, hstep, hstep]
    cases dfs stages deps (stages.length + 1) [] out a with
    | error e => rfl
    | ok out1 => exact buildRoots_append as bs out1

theorem buildRoots_adjacent {stages : List Nat} {deps : Nat → List Nat} {n t : Nat} (hnt : n ≠ t)
    (hdt : deps t = [n]) (hdn : ∀ x, x ≠ t → n ∉ deps x) : ∀ (roots out out' : List Nat), n ∉ roots →
    Topo deps out → Adjacent n t out → buildRoots stages deps roots out = .ok out' → Adjacent n t out'
  | [], out, out', _, _, ha, h => by
    cases h
    exact ha
  | r :: rs, out, out', hr, hto, ha, h => by
    unfold buildRoots at h
    cases hd : dfs stages deps (stages.length + 1) [] out r with
    | error e =>
      rw [hd] at h
      cases h
    | ok out1 =>
      rw [hd] at h
      exact buildRoots_adjacent hnt hdt hdn rs out1 out' (fun hc => hr (List.mem_cons_of_mem _ hc))
        (dfs_ok _ _ _ _ _ hto hd).topo
        (dfs_adjacent hnt hdt hdn _ _ _ _ _ (fun hc => hr (hc ▸ List.mem_cons_self)) hto ha hd) h

/-! ## Properties -/

/-- **C51.**  Whatever edits were made, refused ones included, the pipeline can be built. -/
theorem edits_keep_buildable (dflt : N) (es : List (Edit N)) :
    ∃ order, build (edits (Pipe.empty dflt) es) none = .ok order :=
  (good_edits es (good_empty dflt)).builds

/-- **C51.**  Adding a dependency is refused exactly if the dependency is the stage itself or needs it. -/
theorem add_dependency_refused_iff (dflt : N) (es : List (Edit N)) {stage dependency : N} {s d : Nat}
    (hs : getStage (edits (Pipe.empty dflt) es) stage = .ok s)
    (hd : getStage (edits (Pipe.empty dflt) es) dependency = .ok d) :
    addDependency (edits (Pipe.empty dflt) es) stage dependency = .error .valueError ↔
      d = s ∨ Needs (edits (Pipe.empty dflt) es) d s := by
  have hg := good_edits es (good_empty dflt)
  generalize edits (Pipe.empty dflt) es = p at hs hd hg
  rw [← reaches_iff hg (getStage_ok hd).1]
  unfold addDependency
  rw [hs]
  dsimp only
  rw [hd]
  dsimp only
  by_cases hr : reaches p d s = true
  · rw [if_pos hr]
    simp [hr]
  · rw [if_neg hr]
    simp [hr]

/-- **C51.**  A dependency can be removed exactly if there is one; then it is gone, and nothing else is. -/
theorem remove_dependency_spec (dflt : N) (es : List (Edit N)) {p : Pipe N} (hp : p = edits (Pipe.empty dflt) es) {stage dependency : N} {s d : Nat}
    (hs : getStage p stage = .ok s) (hd : getStage p dependency = .ok d) :
    ((∃ q, removeDependency p stage dependency = .ok q) ↔ d ∈ p.deps s) ∧
      ∀ q, removeDependency p stage dependency = .ok q → q.stages = p.stages ∧ q.name = p.name ∧ q.captured = p.captured ∧
        ∀ x y, x ∈ q.deps y ↔ x ∈ p.deps y ∧ ¬(y = s ∧ x = d) := by
  have hg : Good p := hp ▸ good_edits es (good_empty dflt)
  unfold removeDependency
  rw [hs]
  dsimp only
  rw [hd]
  dsimp only
  by_cases h : d ∈ p.deps s
  · rw [if_neg (by simpa using h)]
    refine ⟨⟨fun _ => h, fun _ => ⟨_, rfl⟩⟩, ?_⟩
    rintro q hq
    cases hq
    refine ⟨rfl, rfl, rfl, ?_⟩
    intro x y
    by_cases hy : y = s
    · subst hy
      simp [upd, (hg.once _ (getStage_ok hs).1).mem_erase_iff, and_comm]
    · simp [upd, hy]
  · rw [if_pos h]
    simp [h]

/-- **C51.**  A dependency that was added is there, and nothing else changed. -/
theorem add_dependency_spec (dflt : N) (es : List (Edit N)) {p q : Pipe N} (_hp : p = edits (Pipe.empty dflt) es) {stage dependency : N} {s d : Nat}
    (hs : getStage p stage = .ok s) (hd : getStage p dependency = .ok d) (h : addDependency p stage dependency = .ok q) :
    q.stages = p.stages ∧ q.name = p.name ∧ q.captured = p.captured ∧ ∀ x y, x ∈ q.deps y ↔ x ∈ p.deps y ∨ (y = s ∧ x = d) := by
  unfold addDependency at h
  rw [hs] at h
  dsimp only at h
  rw [hd] at h
  dsimp only at h
  split at h
  · cases h
  · cases h
    refine ⟨rfl, rfl, rfl, ?_⟩
    intro x y
    by_cases hy : y = s
    · subst hy
      simp [upd, mem_dependsOn]
    · simp [upd, hy]

/-- **C51.**  A stage inserted before another one with inherited dependencies takes over its inputs, is its only
input, changes nothing else, and runs immediately before it. -/
theorem inserted_before_runs_immediately_before (dflt : N) (es : List (Edit N)) {p q : Pipe N}
    (hp : p = edits (Pipe.empty dflt) es) {target name : N} {c : Bool}
    (h : insertBefore p target name none c = .ok q) :
    ∃ t n, getStage p target = .ok t ∧ n ∉ p.stages ∧ q.stages = p.stages ++ [n] ∧ q.name n = name ∧
      q.deps n = p.deps t ∧ q.deps t = [n] ∧ (∀ s ∈ p.stages, s ≠ t → q.deps s = p.deps s) ∧
      ∃ before after, build q none = .ok (before ++ n :: t :: after) := by
  have hg : Good p := hp ▸ good_edits es (good_empty dflt)
  have hgq := good_insertBefore hg h
  unfold insertBefore at h
  cases ht : getStage p target with
  | error e =>
    rw [ht] at h
    cases h
  | ok t =>
    rw [ht] at h
    dsimp only at h
    obtain ⟨hts, _⟩ := getStage_ok ht
    cases hreg : register p name c with
    | error e =>
      rw [hreg] at h
      cases h
    | ok qn =>
      obtain ⟨q', n⟩ := qn
      rw [hreg] at h
      cases h
      have hdeps := insertBefore_deps hg hts hreg
      obtain ⟨_, hn, _, hst, hname, _, _⟩ := register_ok hreg
      have hns : n ∉ p.stages := fun hc => by
        have := hg.fresh n hc
        omega
      have hnt : n ≠ t := fun hc => hns (hc ▸ hts)
      have hst' : q'.stages = p.stages ++ [n] := by rw [hst, hn]
      refine ⟨t, n, rfl, hns, hst', ?_, ?_, ?_, ?_, ?_⟩
      · show q'.name n = name
        rw [hname, hn]
        simp [upd]
      · show upd _ t [n] n = _
        rw [hdeps n, if_neg hnt, if_pos rfl]
      · show upd _ t [n] t = _
        rw [hdeps t, if_pos rfl]
      · intro s hs hst1
        show upd _ t [n] s = _
        rw [hdeps s, if_neg hst1, if_neg (fun hc : s = n => hns (hc ▸ hs))]
      · obtain ⟨order, hb⟩ := hgq.builds
        have hdt : upd (upd q'.deps n (dependsOn (q'.deps n) (p.deps t))) t [n] t = [n] := by
          rw [hdeps t, if_pos rfl]
        have hdn : ∀ x, x ≠ t → n ∉ upd (upd q'.deps n (dependsOn (q'.deps n) (p.deps t))) t [n] x := by
          intro x hx hc
          rw [hdeps x, if_neg hx] at hc
          split at hc
          · have := hg.bound t n hc
            omega
          · have := hg.bound x n hc
            omega
        unfold build at hb ⊢
        dsimp only at hb ⊢
        rw [hst', buildRoots_append] at hb
        rw [hst', buildRoots_append]
        generalize upd (upd q'.deps n (dependsOn (q'.deps n) (p.deps t))) t [n] = deps' at hdt hdn hb
        cases h1 : buildRoots (p.stages ++ [n]) deps' p.stages [] with
        | error e =>
          rw [h1] at hb
          cases hb
        | ok out =>
          dsimp only
          have hv := buildRoots_ok _ _ _ .nil h1
          have hadj := buildRoots_adjacent hnt hdt hdn p.stages [] out hns .nil
            ⟨by simp, by simp⟩ h1
          have hno := hadj.2 (hv.covers t hts)
          obtain ⟨b, a, e⟩ := hadj.1 hno
          refine ⟨b, a, ?_⟩
          rw [← e]
          unfold buildRoots dfs
          simp only [List.not_mem_nil, if_false, hno, if_true]
          unfold buildRoots
          rfl

/-- **C51.**  A stage inserted after another one has it as its only input and takes its place for all stages that
depended on it; it runs after it and before those. -/
theorem inserted_after_takes_over (dflt : N) (es : List (Edit N)) {p q : Pipe N}
    (hp : p = edits (Pipe.empty dflt) es) {target name : N} {c : Bool}
    (h : insertAfter p target name c = .ok q) :
    ∃ t n, getStage p target = .ok t ∧ n ∉ p.stages ∧ q.stages = p.stages ++ [n] ∧ q.name n = name ∧
      q.deps n = [t] ∧ (∀ s ∈ p.stages, t ∉ p.deps s → q.deps s = p.deps s) ∧
      (∀ s ∈ p.stages, t ∈ p.deps s → q.deps s = (p.deps s).erase t ++ [n]) ∧
      ∃ order, build q none = .ok order ∧ order.idxOf t < order.idxOf n ∧
        ∀ s ∈ p.stages, t ∈ p.deps s → order.idxOf n < order.idxOf s := by
  have hg : Good p := hp ▸ good_edits es (good_empty dflt)
  have hgq := good_insertAfter hg h
  unfold insertAfter at h
  cases ht : getStage p target with
  | error e =>
    rw [ht] at h
    cases h
  | ok t =>
    rw [ht] at h
    dsimp only at h
    obtain ⟨hts, _⟩ := getStage_ok ht
    cases hreg : register p name c with
    | error e =>
      rw [hreg] at h
      cases h
    | ok qn =>
      obtain ⟨q', n⟩ := qn
      rw [hreg] at h
      simp only [Except.ok.injEq] at h
      have hdeps := insertAfter_deps (t := t) hg hreg
      obtain ⟨_, hn, _, hst, hname, _, _⟩ := register_ok hreg
      have hns : n ∉ p.stages := fun hc => by
        have := hg.fresh n hc
        omega
      have hqd : ∀ x, q.deps x =
          if x = n then [t] else if x ∈ dependents p t then (p.deps x).erase t ++ [n] else p.deps x := by
        intro x
        rw [← h]
        exact hdeps x
      have hqs : q.stages = p.stages ++ [n] := by
        rw [← h, hn]
        exact hst
      have hd1 : q.deps n = [t] := by rw [hqd, if_pos rfl]
      have hd2 : ∀ s ∈ p.stages, t ∈ p.deps s → q.deps s = (p.deps s).erase t ++ [n] := by
        intro s hs hm
        rw [hqd, if_neg (fun hc : s = n => hns (hc ▸ hs)), if_pos (mem_dependents.2 ⟨hs, hm⟩)]
      refine ⟨t, n, rfl, hns, hqs, ?_, hd1, ?_, hd2, ?_⟩
      · rw [← h]
        show q'.name n = name
        rw [hname, hn]
        simp [upd]
      · intro s hs hm
        rw [hqd, if_neg (fun hc : s = n => hns (hc ▸ hs)), if_neg (fun hc => hm (mem_dependents.1 hc).2)]
      · obtain ⟨order, hb⟩ := hgq.builds
        have hto := build_topo hb
        obtain ⟨_, hall, _, _⟩ := build_order hb
        have hall' : ∀ s ∈ p.stages ++ [n], s ∈ order := fun s hs => hall s (hqs ▸ hs)
        refine ⟨order, hb, hto.rank (hall' n (by simp)) (by rw [hd1]; simp), ?_⟩
        intro s hs hm
        exact hto.rank (hall' s (List.mem_append_left _ hs)) (by rw [hd2 s hs hm]; simp)

/-- What `replace_stage` does: the replacement has the replaced stage's inputs, and takes its place for all
stages that depended on it, but at the end of their inputs. -/
theorem replace_rewires (dflt : N) (es : List (Edit N)) {p q : Pipe N}
    (hp : p = edits (Pipe.empty dflt) es) {target : N} {name : Option N} {c : Option Bool}
    (h : replace p target name c = .ok q) :
    ∃ t n, getStage p target = .ok t ∧ n ∉ p.stages ∧ q.stages = p.stages.erase t ++ [n] ∧
      q.name n = name.getD target ∧ (∀ s ∈ p.stages, q.name s = p.name s) ∧
      q.deps n = p.deps t ∧ (∀ s ∈ p.stages, t ∉ p.deps s → q.deps s = p.deps s) ∧
      (∀ s ∈ p.stages, t ∈ p.deps s → q.deps s = (p.deps s).erase t ++ [n]) ∧
      (c = none → (n ∈ q.captured ↔ t ∈ p.captured)) := by
  have hg : Good p := hp ▸ good_edits es (good_empty dflt)
  unfold replace at h
  cases ht : getStage p target with
  | error e =>
    rw [ht] at h
    cases h
  | ok t =>
    rw [ht] at h
    dsimp only at h
    obtain ⟨hts, htn⟩ := getStage_ok ht
    split at h
    · cases h
    · cases hreg : register (withoutStage p t) (name.getD (p.name t)) (c.getD (decide (t ∈ p.captured))) with
      | error e =>
        rw [hreg] at h
        cases h
      | ok qn =>
        obtain ⟨q', n⟩ := qn
        rw [hreg] at h
        simp only [Except.ok.injEq] at h
        have hdeps := replace_deps hg hts hreg
        obtain ⟨_, hn, _, hst, hname, _, hcap⟩ := register_ok hreg
        have hn' : n = p.next := hn
        have hns : n ∉ p.stages := fun hc => by
          have := hg.fresh n hc
          omega
        have hqd : ∀ x, q.deps x = if x = n then p.deps t else
            if x ∈ dependents p t then (p.deps x).erase t ++ [n] else p.deps x := by
          intro x
          rw [← h]
          exact hdeps x
        have hqn : q.name = upd p.name n (name.getD (p.name t)) := by
          rw [← h, hn']
          exact hname
        refine ⟨t, n, rfl, hns, ?_, ?_, ?_, ?_, ?_, ?_, ?_⟩
        · rw [← h, hn']
          exact hst
        · rw [hqn, htn]
          simp [upd]
        · intro s hs
          rw [hqn]
          unfold upd
          rw [if_neg (fun hc : s = n => hns (hc ▸ hs))]
        · rw [hqd, if_pos rfl]
        · intro s hs hm
          rw [hqd, if_neg (fun hc : s = n => hns (hc ▸ hs)), if_neg (fun hc => hm (mem_dependents.1 hc).2)]
        · intro s hs hm
          rw [hqd, if_neg (fun hc : s = n => hns (hc ▸ hs)), if_pos (mem_dependents.2 ⟨hs, hm⟩)]
        · intro hc
          subst hc
          have hqc : q.captured = q'.captured := by rw [← h]
          rw [hqc, hcap]
          have hncap : n ∉ p.captured := fun hc => hns (hg.captured n hc)
          by_cases hm : t ∈ p.captured
          · simp [hm, hn', withoutStage]
          · simp [hm, withoutStage, hncap]

/-- **C51.**  Replacing a stage feeds the replacement's result, at the same position, to every dependent that has
the replaced stage as its last or only input.  Missing: dependents with later inputs, for which the position
changes, see `replaced_input_moves`. -/
theorem replaced_at_same_position_partial (dflt : N) (es : List (Edit N)) {p q : Pipe N}
    (hp : p = edits (Pipe.empty dflt) es) {target : N} {name : Option N} {c : Option Bool}
    (h : replace p target name c = .ok q) :
    ∃ t n, getStage p target = .ok t ∧ n ∉ p.stages ∧ q.stages = p.stages.erase t ++ [n] ∧
      q.name n = name.getD target ∧ q.deps n = p.deps t ∧
      (∀ s ∈ p.stages, t ∉ p.deps s → q.deps s = p.deps s) ∧
      ∀ s ∈ p.stages, ∀ before, p.deps s = before ++ [t] → q.deps s = before ++ [n] := by
  have hg : Good p := hp ▸ good_edits es (good_empty dflt)
  obtain ⟨t, n, h1, h2, h3, h4, _, h5, h6, h7, _⟩ := replace_rewires dflt es hp h
  refine ⟨t, n, h1, h2, h3, h4, h5, h6, ?_⟩
  intro s hs before hd
  rw [h7 s hs (by rw [hd]; simp), hd]
  have hnd := hg.once s hs
  rw [hd, List.nodup_append] at hnd
  rw [List.erase_append_right _ (fun hc => hnd.2.2 t hc t (by simp) rfl)]
  simp

/-- **C51, deviation.**  If the replaced stage is followed by other inputs of a dependent, the replacement is
passed after them instead of in its position. -/
theorem replaced_input_moves (dflt : N) (es : List (Edit N)) {p q : Pipe N}
    (hp : p = edits (Pipe.empty dflt) es) {target : N} {name : Option N} {c : Option Bool}
    (h : replace p target name c = .ok q) :
    ∃ t n, getStage p target = .ok t ∧ n ∉ p.stages ∧ q.deps n = p.deps t ∧
      ∀ s ∈ p.stages, ∀ before after, p.deps s = before ++ t :: after → after ≠ [] →
        q.deps s = before ++ after ++ [n] ∧ q.deps s ≠ before ++ n :: after := by
  have hg : Good p := hp ▸ good_edits es (good_empty dflt)
  obtain ⟨t, n, h1, h2, _, _, _, h5, _, h7, _⟩ := replace_rewires dflt es hp h
  refine ⟨t, n, h1, h2, h5, ?_⟩
  intro s hs before after hd hne
  have hnd := hg.once s hs
  have hq : q.deps s = before ++ after ++ [n] := by
    rw [h7 s hs (by rw [hd]; simp), hd]
    rw [hd, List.nodup_append] at hnd
    rw [List.erase_append_right _ (fun hc => hnd.2.2 t hc t (by simp) rfl)]
    simp
  refine ⟨hq, ?_⟩
  rw [hq, List.append_assoc]
  intro hc
  have hc' := List.append_cancel_left hc
  cases after with
  | nil => exact hne rfl
  | cons a after =>
    simp only [List.cons_append, List.cons.injEq] at hc'
    have ha : a ∈ p.stages := hg.known s hs a (by rw [hd]; simp)
    exact h2 (hc'.1 ▸ ha)

/-! ## Concrete cases -/

/-- Stages 0 and 1, then 2 with inputs 0 and 1; names are numbers. -/
def joined : List (Edit Nat) :=
  [.register 0 true, .register 1 false, .register 2 true, .addDependency 2 0, .addDependency 2 1,
   .addDependency 0 2]

/-- The last edit was refused. -/
example : build (edits (Pipe.empty 0) joined) none = .ok [0, 1, 2] ∧
    (edits (Pipe.empty 0) joined).deps 2 = [0, 1] ∧
    getStage (edits (Pipe.empty 0) joined) 0 = .ok 0 ∧
    addDependency (edits (Pipe.empty 0) joined) 0 2 matches .error .valueError := by decide

/-- Stage 3 runs right before stage 2 and takes its inputs. -/
example : (match insertBefore (edits (Pipe.empty 0) joined) 2 3 none false with
    | .ok q => some (build q none, q.deps 2, q.deps 3)
    | .error _ => none) = some (.ok [0, 1, 3, 2], [3], [0, 1]) := by decide

/-- **C51, deviation.**  A stage inserted before another one with explicit dependencies can run after it. -/
theorem inserted_before_runs_after :
    (match insertBefore (edits (Pipe.empty 0) joined) 2 3 (some [0]) false with
    | .ok q => some (build q none)
    | .error _ => none) = some (.ok [0, 1, 2, 3]) := by decide

/-- **C51, deviation.**  A stage inserted after another one need not run immediately after it. -/
theorem inserted_after_runs_later :
    (match insertAfter (edits (Pipe.empty 0) [.register 0 true, .register 1 false]) 0 3 false with
    | .ok q => some (build q none)
    | .error _ => none) = some (.ok [0, 1, 2]) := by decide

/-- Replacing stage 0 swaps the inputs of stage 2. -/
example : (match replace (edits (Pipe.empty 0) joined) 0 none none with
    | .ok q => some (build q none, q.deps 2, q.captured)
    | .error _ => none) = some (.ok [1, 3, 2], [1, 3], [2, 3]) := by decide

/-- Replacing stage 1 does not. -/
example : (match replace (edits (Pipe.empty 0) joined) 1 (some 7) none with
    | .ok q => some (build q none, q.deps 2, q.captured)
    | .error _ => none) = some (.ok [0, 3, 2], [0, 3], [0, 2]) := by decide

/-- The dependency of stage 2 on stage 0 can be removed once. -/
example : (match removeDependency (edits (Pipe.empty 0) joined) 2 0 with
    | .ok q => some (q.deps 2, removeDependency q 2 0 matches .error .keyError)
    | .error _ => none) = some ([1], true) := by decide

end FF.Pipeline
