/-
Module queries with braces: alternatives mean union.  Concrete cases and the deviations found.
-/
import Verif.MPath.SearchProps

set_option linter.unusedSectionVars false

namespace FF.MPath

variable {N M : Type} [DecidableEq N] [DecidableEq M]

/-! ## Specification -/

mutual
/-- All ways to choose one alternative in every pair of braces. -/
def Sel.choices : Sel → List Sel
  | .none => [.none]
  | .one f nx => nx.choices.map (Sel.one f)
  | .multi as nx => as.choices.flatMap (fun a => nx.choices.map (fun t => a.extend t))
/-- All choices for all alternatives. -/
def Alts.choices : Alts → List Sel
  | .nil => []
  | .cons a as => a.choices ++ as.choices
end

/-- The fragments of a selector without braces, in order. -/
def Sel.refs : Sel → List Ref
  | .none => []
  | .one f nx => f :: nx.refs
  | .multi _ nx => nx.refs

/-- The alternatives as a list. -/
def Alts.toList : Alts → List Sel
  | .nil => []
  | .cons a as => a :: as.toList

/-- All alternatives in all braces of a selector (braces are not nested). -/
def Sel.alternatives : Sel → List Sel
  | .none => []
  | .one _ nx => nx.alternatives
  | .multi as nx => as.toList ++ nx.alternatives

/-- Conditions under which the search treats braces as a choice: at least one alternative in each
pair of braces, no nested braces, no alternative that consists of `**` only, and no fragment object
that is the last one of some alternative and an earlier one of another (only possible when fragment
objects are shared, e.g. through aliases). -/
structure Regular (heap : Nat → Frag N M) (q : Sel) : Prop where
  proper : q.proper heap = true
  flat : ∀ a ∈ q.alternatives, Plain a
  unshared : ∀ a ∈ q.alternatives, ∀ b ∈ q.alternatives, ∀ r,
    a.refs.getLast? = some r → r ∉ b.refs.dropLast

/-! ## Lemmas -/

variable {heap : Nat → Frag N M} {children : M → List (N × M)}

theorem Plain.extend {s t : Sel} (hs : Plain s) (ht : Plain t) : Plain (s.extend t) := by
  induction hs with
  | none => exact ht
  | one _ ih => exact .one ih

mutual
theorem choices_plain (s : Sel) (p : Sel) (h : p ∈ s.choices) : Plain p := by
  cases s with
  | none => simp [Sel.choices] at h; subst h; exact .none
  | one f nx =>
    simp only [Sel.choices, List.mem_map] at h
    obtain ⟨t, ht, rfl⟩ := h
    exact .one (choices_plain nx t ht)
  | multi as nx =>
    simp only [Sel.choices, List.mem_flatMap, List.mem_map] at h
    obtain ⟨a, ha, t, ht, rfl⟩ := h
    exact (altsChoices_plain as a ha).extend (choices_plain nx t ht)
theorem altsChoices_plain (as : Alts) (p : Sel) (h : p ∈ as.choices) : Plain p := by
  cases as with
  | nil => simp [Alts.choices] at h
  | cons a as =>
    simp only [Alts.choices, List.mem_append] at h
    rcases h with h | h
    · exact choices_plain a p h
    · exact altsChoices_plain as p h
end

mutual
theorem lang_choices (s : Sel) (w : List (N × M)) :
    Lang heap s w ↔ ∃ p ∈ s.choices, Lang heap p w := by
  cases s with
  | none => simp [Sel.choices]
  | one f nx =>
    have ih := lang_choices nx
    simp only [Sel.choices, List.mem_map, lang_one, ih]
    constructor
    · rintro (⟨h1, c, v, rfl, h2, p, hp, h3⟩ | ⟨h1, u, v, rfl, p, hp, h3⟩)
      · exact ⟨_, ⟨p, hp, rfl⟩, lang_one.2 (.inl ⟨h1, c, v, rfl, h2, h3⟩)⟩
      · exact ⟨_, ⟨p, hp, rfl⟩, lang_one.2 (.inr ⟨h1, u, v, rfl, h3⟩)⟩
    · rintro ⟨_, ⟨p, hp, rfl⟩, h⟩
      rcases lang_one.1 h with ⟨h1, c, v, rfl, h2, h3⟩ | ⟨h1, u, v, rfl, h3⟩
      · exact .inl ⟨h1, c, v, rfl, h2, p, hp, h3⟩
      · exact .inr ⟨h1, u, v, rfl, p, hp, h3⟩
  | multi as nx =>
    have ih := lang_choices nx
    have ih2 := altsLang_choices as
    simp only [Sel.choices, List.mem_flatMap, List.mem_map, lang_multi, ih]
    constructor
    · rintro ⟨a, u, v, ha, rfl, hu, p, hp, hv⟩
      obtain ⟨b, hb, hbu⟩ := (ih2 u).1 ⟨a, ha, hu⟩
      exact ⟨_, ⟨b, hb, p, hp, rfl⟩, (lang_extend b p).2 ⟨u, v, rfl, hbu, hv⟩⟩
    · rintro ⟨_, ⟨b, hb, p, hp, rfl⟩, h⟩
      obtain ⟨u, v, rfl, hu, hv⟩ := (lang_extend b p).1 h
      obtain ⟨a, ha, hau⟩ := (ih2 u).2 ⟨b, hb, hu⟩
      exact ⟨a, u, v, ha, rfl, hau, p, hp, hv⟩
theorem altsLang_choices (as : Alts) (w : List (N × M)) :
    (∃ a, Alts.Mem a as ∧ Lang heap a w) ↔ ∃ p ∈ as.choices, Lang heap p w := by
  cases as with
  | nil =>
    simp only [Alts.choices]
    constructor
    · rintro ⟨a, h, _⟩; cases h
    · rintro ⟨p, h, _⟩; simp at h
  | cons b as =>
    have ih := lang_choices b
    have ih2 := altsLang_choices as
    simp only [Alts.choices, List.mem_append]
    constructor
    · rintro ⟨a, ha, h⟩
      cases ha with
      | head =>
        obtain ⟨p, hp, h'⟩ := (ih w).1 h
        exact ⟨p, .inl hp, h'⟩
      | tail _ _ ha =>
        obtain ⟨p, hp, h'⟩ := (ih2 w).1 ⟨a, ha, h⟩
        exact ⟨p, .inr hp, h'⟩
    · rintro ⟨p, hp | hp, h⟩
      · exact ⟨b, .head _, (ih w).2 ⟨p, hp, h⟩⟩
      · obtain ⟨a, ha, h'⟩ := (ih2 w).2 ⟨p, hp, h⟩
        exact ⟨a, .tail _ _ ha, h'⟩
end

/-- An alternative whose last fragment, and no other, satisfies `last`. -/
def EndsAt (last : Ref → Bool) (a : Sel) : Prop :=
  Plain a ∧ ∃ ini l, a.refs = ini ++ [l] ∧ last l = true ∧ ∀ r ∈ ini, last r = false

/-- All alternatives of a selector end where `last` says. -/
def Marked (last : Ref → Bool) (s : Sel) : Prop := ∀ a ∈ s.alternatives, EndsAt last a

theorem Plain.key_eq {s : Sel} (h : Plain s) : s.key = s.refs.map Tok.leaf := by
  induction h with
  | none => rfl
  | one _ ih => simp [Sel.key, Sel.refs, ih]

theorem Plain.refs_inj {s t : Sel} (hs : Plain s) (ht : Plain t) (h : s.refs = t.refs) : s = t :=
  hs.key_inj ht (by rw [hs.key_eq, ht.key_eq, h])

/-- Splitting a sequence after its first marked element is unambiguous. -/
theorem split_unique {last : Ref → Bool} : ∀ {i i' : List Ref} {l l' : Ref} {r r' : List Tok},
    (∀ x ∈ i, last x = false) → last l = true → (∀ x ∈ i', last x = false) → last l' = true →
    (i ++ [l]).map Tok.leaf ++ r = (i' ++ [l']).map Tok.leaf ++ r' →
    i = i' ∧ l = l' ∧ r = r' := by
  intro i
  induction i with
  | nil =>
    intro i' l l' r r' _ hl hi' hl' h
    cases i' with
    | nil => simp at h; exact ⟨rfl, h.1, h.2⟩
    | cons x i' =>
      simp at h
      have := hi' x (by simp)
      rw [← h.1, hl] at this
      exact absurd this (by simp)
  | cons y i ih =>
    intro i' l l' r r' hi hl hi' hl' h
    cases i' with
    | nil =>
      simp at h
      have := hi y (by simp)
      rw [h.1, hl'] at this
      exact absurd this (by simp)
    | cons x i' =>
      simp only [List.cons_append, List.map_cons, List.cons.injEq, Tok.leaf.injEq] at h
      obtain ⟨h1, h2, h3⟩ := ih (fun z hz => hi z (by simp [hz])) hl
        (fun z hz => hi' z (by simp [hz])) hl' h.2
      exact ⟨by rw [h.1, h1], h2, h3⟩

theorem alts_key_inj {last : Ref → Bool} : ∀ (as bs : Alts) (r r' : List Tok),
    (∀ a ∈ as.toList, EndsAt last a) → (∀ a ∈ bs.toList, EndsAt last a) →
    as.key ++ Tok.close :: r = bs.key ++ Tok.close :: r' → as = bs ∧ r = r'
  | .nil, .nil, r, r', _, _, h => by simp [Alts.key] at h; exact ⟨rfl, h⟩
  | .nil, .cons b bs, r, r', _, hb, h => by
    obtain ⟨hp, ini, l, e, _⟩ := hb b (by simp [Alts.toList])
    simp only [Alts.key, hp.key_eq, e] at h
    cases ini <;> simp at h
  | .cons a as, .nil, r, r', ha, _, h => by
    obtain ⟨hp, ini, l, e, _⟩ := ha a (by simp [Alts.toList])
    simp only [Alts.key, hp.key_eq, e] at h
    cases ini <;> simp at h
  | .cons a as, .cons b bs, r, r', ha, hb, h => by
    obtain ⟨hp, i, l, e, h1, h2⟩ := ha a (by simp [Alts.toList])
    obtain ⟨hp', i', l', e', h1', h2'⟩ := hb b (by simp [Alts.toList])
    simp only [Alts.key, hp.key_eq, hp'.key_eq, e, e', List.append_assoc] at h
    obtain ⟨q1, q2, q3⟩ := split_unique h2 h1 h2' h1' h
    have : a = b := hp.refs_inj hp' (by rw [e, e', q1, q2])
    obtain ⟨q4, q5⟩ := alts_key_inj as bs r r' (fun a h => ha a (by simp [Alts.toList, h]))
      (fun a h => hb a (by simp [Alts.toList, h])) q3
    exact ⟨by rw [this, q4], q5⟩

theorem marked_key_inj {last : Ref → Bool} : ∀ (s t : Sel), Marked last s → Marked last t →
    s.key = t.key → s = t
  | .none, .none, _, _, _ => rfl
  | .none, .one _ _, _, _, h => by simp [Sel.key] at h
  | .none, .multi _ _, _, _, h => by simp [Sel.key] at h
  | .one _ _, .none, _, _, h => by simp [Sel.key] at h
  | .one f nx, .one g ny, hs, ht, h => by
    simp [Sel.key] at h
    rw [h.1, marked_key_inj nx ny hs ht h.2]
  | .one _ _, .multi _ _, _, _, h => by simp [Sel.key] at h
  | .multi _ _, .none, _, _, h => by simp [Sel.key] at h
  | .multi _ _, .one _ _, _, _, h => by simp [Sel.key] at h
  | .multi as nx, .multi bs ny, hs, ht, h => by
    simp only [Sel.key, List.cons_append, List.cons.injEq, true_and] at h
    obtain ⟨q1, q2⟩ := alts_key_inj as bs _ _
      (fun a h => hs a (by simp [Sel.alternatives, h]))
      (fun a h => ht a (by simp [Sel.alternatives, h])) h
    rw [q1, marked_key_inj nx ny (fun a h => hs a (by simp [Sel.alternatives, h]))
      (fun a h => ht a (by simp [Sel.alternatives, h])) q2]

theorem alternatives_extend : ∀ s t : Sel,
    (s.extend t).alternatives = s.alternatives ++ t.alternatives
  | .none, t => rfl
  | .one f nx, t => by simp [Sel.extend, Sel.alternatives, alternatives_extend nx t]
  | .multi as nx, t => by simp [Sel.extend, Sel.alternatives, alternatives_extend nx t]

theorem Plain.alternatives {s : Sel} (h : Plain s) : s.alternatives = [] := by
  induction h with
  | none => rfl
  | one _ ih => exact ih

theorem Plain.removeRoot_refs {s : Sel} (h : Plain s) :
    ∃ pre, s.refs = pre ++ (s.removeRoot heap).refs := by
  induction h with
  | none => exact ⟨[], rfl⟩
  | @one f nx _ ih =>
    simp only [Sel.removeRoot]
    split
    · exact ⟨[], rfl⟩
    · obtain ⟨pre, e⟩ := ih
      exact ⟨f :: pre, by simp [Sel.refs, e]⟩

theorem EndsAt.removeRoot {last : Ref → Bool} {a : Sel} (h : EndsAt last a)
    (hne : a.removeRoot heap ≠ .none) : EndsAt last (a.removeRoot heap) := by
  obtain ⟨hp, ini, l, e, h1, h2⟩ := h
  obtain ⟨pre, e'⟩ := hp.removeRoot_refs (heap := heap)
  have hp' := hp.removeRoot (heap := heap)
  refine ⟨hp', ?_⟩
  have hne' : (a.removeRoot heap).refs ≠ [] := by
    intro h0
    cases hx : a.removeRoot heap with
    | none => exact hne hx
    | one f nx => rw [hx] at h0; simp [Sel.refs] at h0
    | multi as nx => rw [hx] at hp'; cases hp'
  obtain ⟨ini', l', e2⟩ := (List.eq_nil_or_concat (a.removeRoot heap).refs).resolve_left hne'
  have e3 : ini ++ [l] = (pre ++ ini') ++ [l'] := by rw [← e, e', e2]; simp
  obtain ⟨e4, e5⟩ := List.append_inj' e3 rfl
  simp at e5
  refine ⟨ini', l', by rw [e2]; simp, e5 ▸ h1, fun r hr => h2 r (by rw [e4]; simp [hr])⟩

theorem alts_removeRoot_marked {last : Ref → Bool} : ∀ (as : Alts),
    (∀ a ∈ as.toList, EndsAt last a) → ∀ a ∈ (as.removeRoot heap).toList, EndsAt last a
  | .nil, _, a, h => by simp [Alts.removeRoot, Alts.toList] at h
  | .cons b as, hm, a, h => by
    have ih := alts_removeRoot_marked as (fun a h => hm a (by simp [Alts.toList, h])) a
    have hb := hm b (by simp [Alts.toList])
    simp only [Alts.removeRoot] at h
    cases hx : b.removeRoot heap with
    | none => rw [hx] at h; exact ih h
    | one f nx =>
      rw [hx] at h
      simp only [Alts.consSome, Alts.toList, List.mem_cons] at h
      rcases h with rfl | h
      · rw [← hx]; exact hb.removeRoot (by rw [hx]; simp)
      · exact ih h
    | multi bs nx =>
      rw [hx] at h
      simp only [Alts.consSome, Alts.toList, List.mem_cons] at h
      rcases h with rfl | h
      · rw [← hx]; exact hb.removeRoot (by rw [hx]; simp)
      · exact ih h

theorem Marked.removeRoot {last : Ref → Bool} : ∀ {s : Sel}, Marked last s →
    Marked last (s.removeRoot heap)
  | .none, h => h
  | .one f nx, h => by
    simp only [Sel.removeRoot]
    split
    · exact h
    · exact Marked.removeRoot (s := nx) h
  | .multi as nx, h => by
    intro a ha
    simp only [Sel.removeRoot, Sel.alternatives, List.mem_append] at ha
    rcases ha with ha | ha
    · exact alts_removeRoot_marked as (fun a h' => h a (by simp [Sel.alternatives, h'])) a ha
    · exact h a (by simp [Sel.alternatives, ha])

theorem Marked.simplify {last : Ref → Bool} {s : Sel} (h : Marked last s) (n) :
    Marked last (s.simplify heap n).1 := by
  unfold Sel.simplify
  split
  · exact h.removeRoot
  · exact h

theorem Marked.oneMC {last : Ref → Bool} {n f nx} {c : N × M} (h : Marked last nx) {k}
    (hk : k ∈ (oneMC heap n f nx c).conts) : Marked last k.sel := by
  unfold FF.MPath.oneMC at hk
  by_cases h0 : (content heap f).isMatch c.1 c.2 = true
  swap
  · simp [h0] at hk
  · cases h1 : (content heap f).mustAdvance <;> cases h2 : nx.isSome <;>
      cases h3 : nx.isMultiWildcard heap <;> simp [h0, h1, h2, h3] at hk
    all_goals
      first
        | (subst hk; first | exact h | exact h.simplify _)
        | (rcases hk with hk | hk | hk <;> subst hk <;> first | exact h | exact h.simplify _)

theorem Marked.extend {last : Ref → Bool} {s t : Sel} (hs : Marked last s) (ht : Marked last t) :
    Marked last (s.extend t) := by
  intro a ha
  rw [alternatives_extend, List.mem_append] at ha
  rcases ha with ha | ha
  · exact hs a ha
  · exact ht a ha

theorem alts_mc_marked {last : Ref → Bool} {c : N × M} : ∀ (as : Alts) (n : Nat) (rest : Sel),
    (∀ a ∈ as.toList, EndsAt last a) → Marked last rest →
    ∀ k ∈ (as.mc heap n c rest).conts, Marked last k.sel
  | .nil, n, rest, _, _, k, hk => by simp [Alts.mc] at hk
  | .cons a as, n, rest, ha, hr, k, hk => by
    simp only [Alts.mc, List.mem_append] at hk
    rcases hk with hk | hk
    · have hp := (ha a (by simp [Alts.toList])).1
      cases hp with
      | none => simp [Sel.mc] at hk
      | one hp =>
        refine Marked.oneMC (Marked.extend ?_ hr) hk
        intro x hx; rw [hp.alternatives] at hx; cases hx
    · exact alts_mc_marked as _ rest (fun a h => ha a (by simp [Alts.toList, h])) hr k hk

theorem Marked.residual {last : Ref → Bool} {q s : Sel} (hq : Marked last q)
    (h : Residual heap q s) : Marked last s := by
  induction h with
  | init n => exact hq.simplify n
  | @cont s n c k _ hk ih =>
    cases s with
    | none => simp [Sel.mc] at hk
    | one f nx => exact Marked.oneMC (by rw [extend_none]; exact ih) hk
    | multi as nx =>
      simp only [Sel.mc] at hk
      exact alts_mc_marked as n _ (fun a h => ih a (by simp [Sel.alternatives, h]))
        (by rw [extend_none]; exact fun a h => ih a (by simp [Sel.alternatives, h])) k hk

theorem proper_alternatives : ∀ (q : Sel), q.proper heap = true →
    ∀ a ∈ q.alternatives, a.nullable heap = false
  | .none, _, a, h => by simp [Sel.alternatives] at h
  | .one f nx, hp, a, h => proper_alternatives nx (by simpa [Sel.proper] using hp) a h
  | .multi as nx, hp, a, h => by
    obtain ⟨_, h2, h3⟩ := (proper_multi heap).1 hp
    simp only [Sel.alternatives, List.mem_append] at h
    rcases h with h | h
    · have aux : ∀ as : Alts, as.proper heap = true → ∀ a ∈ as.toList, a.nullable heap = false := by
        intro as
        have : ∀ (as : Alts), as.proper heap = true → ∀ a ∈ as.toList, a.nullable heap = false := by
          intro as
          exact Alts.rec (motive_1 := fun _ => True)
            (motive_2 := fun as => as.proper heap = true → ∀ a ∈ as.toList, a.nullable heap = false)
            trivial (fun _ _ _ => trivial) (fun _ _ _ _ => trivial)
            (fun _ a h => by simp [Alts.toList] at h)
            (fun b bs _ ih hp a h => by
              simp only [Alts.proper, Bool.and_eq_true, Bool.not_eq_true'] at hp
              simp only [Alts.toList, List.mem_cons] at h
              rcases h with rfl | h
              · exact hp.1.1
              · exact ih hp.2 a h) as
        exact this as
      exact aux as h2 a h
    · exact proper_alternatives nx h3 a h

theorem Regular.marked {q : Sel} (h : Regular heap q) : ∃ last, Marked last q := by
  classical
  refine ⟨fun r => decide (∃ a ∈ q.alternatives, a.refs.getLast? = some r), ?_⟩
  intro a ha
  have hp := h.flat a ha
  refine ⟨hp, ?_⟩
  have hne : a.refs ≠ [] := by
    intro h0
    have := proper_alternatives q h.proper a ha
    cases hp with
    | none => simp [Sel.nullable] at this
    | one _ => simp [Sel.refs] at h0
  refine ⟨a.refs.dropLast, a.refs.getLast hne, (List.dropLast_append_getLast hne).symm, ?_, ?_⟩
  · simp only [decide_eq_true_eq]
    exact ⟨a, ha, List.getLast?_eq_some_getLast hne⟩
  · intro r hr
    simp only [decide_eq_false_iff_not]
    rintro ⟨b, hb, e⟩
    exact h.unshared b hb a ha r e hr

theorem Regular.keysFaithful {q : Sel} (h : Regular heap q) : KeysFaithful heap q := by
  obtain ⟨last, hm⟩ := h.marked
  intro s t hs ht e w
  rw [marked_key_inj s t (hm.residual hs) (hm.residual ht) e]

/-! ## Properties -/

/-- **C35** (with the conditions of `Regular`, see `Regular`).  A query with braces selects exactly
the union of what the queries select in which one alternative has been chosen in every pair of
braces; and its result is exact in the sense of C34. -/
theorem alternatives_are_union_partial (hs : SaneHeap heap) {q : Sel} (hq : q ≠ .none)
    (hr : Regular heap q) (hc : Acyclic children) (root : M) :
    ∃ rs, Returns heap children q root rs ∧ (∀ rs', Returns heap children q root rs' → rs' = rs) ∧
      (rs.map Result.module).Nodup ∧
      (∀ m, m ∈ rs.map Result.module ↔
        ∃ p ∈ q.choices, ∃ ps, Returns heap children p root ps ∧ m ∈ ps.map Result.module) ∧
      ∀ r ∈ rs, Truthful heap children q root r := by
  obtain ⟨rs, h⟩ := search_returns (root := root) hs hq hr.proper hc
  obtain ⟨g1, g2, g3⟩ := returns_exact hs hq hr.proper hr.keysFaithful h
  refine ⟨rs, h, fun rs' h' => h'.unique h, g2, ?_, g3⟩
  have hne : ∀ p ∈ q.choices, p ≠ .none := by
    rintro p hp rfl
    -- a choice is empty only if the query describes the empty path by having no fragment at all
    have : ∀ q : Sel, q.proper heap = true → q ≠ .none → Sel.none ∉ q.choices := by
      intro q hpq hq hm
      cases q with
      | none => exact hq rfl
      | one f nx => simp [Sel.choices] at hm
      | multi as nx =>
        simp only [Sel.choices, List.mem_flatMap, List.mem_map] at hm
        obtain ⟨a, ha, t, ht, e⟩ := hm
        have ea : a = .none := by
          cases a with
          | none => rfl
          | one f nx => simp [Sel.extend] at e
          | multi bs nx => simp [Sel.extend] at e
        subst ea
        obtain ⟨_, h2, _⟩ := (proper_multi heap).1 hpq
        have h3 := (altsFragments_all heap as h2).1
        have h4 : as.anyNullable heap = true :=
          (anyNullable_iff heap as).2 ((altsLang_choices as []).2 ⟨.none, ha, .done⟩)
        rw [h3] at h4; exact absurd h4 (by simp)
    exact this q hr.proper hq hp
  intro m
  rw [g1]
  constructor
  · rintro ⟨w, h0, hw, hl⟩
    obtain ⟨p, hp, hl'⟩ := (lang_choices q w).1 hl
    have hpp := choices_plain q p hp
    obtain ⟨ps, hps, _, hm, _⟩ := search_exact (children := children) hs (hne p hp) hpp hc root
    exact ⟨p, hp, ps, hps, (hm m).2 ⟨w, h0, hw, hl'⟩⟩
  · rintro ⟨p, hp, ps, hps, hm⟩
    have hpp := choices_plain q p hp
    obtain ⟨w, h0, hw, hl⟩ := ((search_exact_cyclic hs (hne p hp) hpp hps).1 m).1 hm
    exact ⟨w, h0, hw, (lang_choices q w).2 ⟨p, hp, hl⟩⟩

/-! ## Concrete cases

The hierarchy: 0 has children x = 1, y = 2; 1 has children a = 3, b = 4; 3 has child c = 5.  Names
are numbers: x = 10, y = 11, a = 12, b = 13, c = 14. -/

/-- The hierarchy of the concrete cases. -/
def demo : Nat → List (Nat × Nat)
  | 0 => [(10, 1), (11, 2)]
  | 1 => [(12, 3), (13, 4)]
  | 3 => [(14, 5)]
  | _ => []

/-- Fragments of the concrete cases: object 0 is `**`, 1 is `*`, and `i` is the name `i`. -/
def demoHeap : Nat → Frag Nat Nat
  | 0 => .wildcard true
  | 1 => .wildcard false
  | i => .path i

theorem demo_acyclic : Acyclic demo := by
  refine ⟨fun m => 10 - m, ?_⟩
  intro m c hc
  unfold demo at hc
  split at hc <;> simp at hc
  · rcases hc with rfl | rfl <;> simp
  · rcases hc with rfl | rfl <;> simp
  · subst hc; simp

theorem demo_sane : SaneHeap demoHeap := by
  intro i g e
  unfold demoHeap at e
  split at e <;> simp at e

/-- Fragment object `i` followed by `s`. -/
abbrev o (i : Nat) (s : Sel) : Sel := .one (.obj i) s

/-- The hypotheses of `search_exact` hold for `**/a/**` in the concrete hierarchy, and the search
finds a and what is below it. -/
example : Plain (o 0 (o 12 (o 0 .none))) ∧ SaneHeap demoHeap ∧ Acyclic demo ∧
    (search demoHeap demo 100 (o 0 (o 12 (o 0 .none))) 0).map
      (fun rs => rs.map (fun r => (r.fullName, r.module))) =
      some [([10, 12], 3), ([10, 12, 14], 5)] :=
  ⟨.one (.one (.one .none)), demo_sane, demo_acyclic, by decide +kernel⟩

/-- The hypotheses of `alternatives_are_union_partial` hold for `x/{**/c,b}`; the search finds
both. -/
example : Regular demoHeap (o 10 (.multi (.cons (o 0 (o 14 .none)) (.cons (o 13 .none) .nil)) .none)) ∧
    (search demoHeap demo 100
      (o 10 (.multi (.cons (o 0 (o 14 .none)) (.cons (o 13 .none) .nil)) .none)) 0).map
      (fun rs => rs.map (fun r => (r.fullName, r.module))) =
      some [([10, 13], 4), ([10, 12, 14], 5)] := by
  refine ⟨⟨by decide, ?_, ?_⟩, by decide +kernel⟩
  · intro a ha
    simp [Sel.alternatives, Alts.toList] at ha
    rcases ha with rfl | rfl
    · exact .one (.one .none)
    · exact .one .none
  · intro a ha b hb r h1 h2
    simp [Sel.alternatives, Alts.toList] at ha hb
    rcases ha with rfl | rfl <;> rcases hb with rfl | rfl <;>
      simp [Sel.refs] at h1 h2 <;> simp_all

/-- **C35, deviation.** an alternative `**` next to another one loses the empty match: `x/**`
selects x itself and everything below it, but `x/{**,a}` does not select x. -/
theorem brace_star_misses_parent :
    (search demoHeap demo 100 (o 10 (.multi (.cons (o 0 .none) (.cons (o 12 .none) .nil)) .none)) 0).map
      (fun rs => rs.map Result.module) = some [3, 4, 5] ∧
    (search demoHeap demo 100 (o 10 (o 0 .none)) 0).map
      (fun rs => rs.map Result.module) = some [1, 3, 4, 5] := by
  constructor <;> decide +kernel

/-! `{**}` sends the search into an endless loop. -/

/-- The selector `simplify` turns `{**}` into. -/
def starEmpty (k : Nat) : Sel := .one (.fresh k) (.multi .nil .none)

theorem starEmpty_mc (n k : Nat) (c : N × M) :
    (starEmpty k).mc heap n c .none = ⟨[.fresh k], [⟨starEmpty k, .fresh k, true⟩,
      ⟨starEmpty n, .fresh k, false⟩, ⟨starEmpty (n + 1), .fresh k, true⟩], n + 2⟩ := by
  simp [starEmpty, Sel.mc, oneMC, content, Frag.isMatch, Frag.mustAdvance, Sel.isSome, Sel.simplify,
    Sel.hasRoot, Alts.allRoot, Sel.removeRoot, Alts.removeRoot, Sel.isMultiWildcard, Sel.fragments,
    Alts.fragments, Sel.extend]

/-- Loop invariant of the endless search. -/
structure Endless (root : M) (st : St N M) : Prop where
  shape : ∀ it ∈ st.active, ∃ k, it.sel = starEmpty k ∧ k < st.next
  keys : ∀ km ∈ st.explored, ∃ k, km.1 = (starEmpty k).key ∧ k < st.next

theorem starEmpty_key (k k' : Nat) : (starEmpty k).key = (starEmpty k').key ↔ k = k' := by
  simp [starEmpty, Sel.key]

theorem endless_onHits (it : Item N M) (c : N × M) (fs : List Ref) : ∀ (st : St N M),
    (fs.foldl (onHit it c) st).active = st.active ∧
    (fs.foldl (onHit it c) st).explored = st.explored ∧
    (fs.foldl (onHit it c) st).next = st.next := by
  induction fs with
  | nil => intro st; exact ⟨rfl, rfl, rfl⟩
  | cons f fs ih =>
    intro st
    obtain ⟨h1, h2, h3⟩ := ih (onHit it c st f)
    rw [List.foldl_cons, h1, h2, h3]
    unfold onHit
    split <;> exact ⟨rfl, rfl, rfl⟩

theorem endless_onCont {root : M} {it : Item N M} {c : N × M} {st : St N M} {k : Nat} {b : Bool}
    {f : Ref} (h : Endless root st) (hk : k < st.next) :
    Endless root (onCont it c st ⟨starEmpty k, f, b⟩) ∧
      (onCont it c st ⟨starEmpty k, f, b⟩).next = st.next ∧
      (∀ i ∈ st.active, i ∈ (onCont it c st ⟨starEmpty k, f, b⟩).active) ∧
      ((starEmpty k).key ∉ st.explored.map Prod.fst →
        ∃ i ∈ (onCont it c st ⟨starEmpty k, f, b⟩).active,
          i.result.module = (contResult it c ⟨starEmpty k, f, b⟩).module) := by
  unfold onCont
  split
  · rename_i hs
    exact ⟨h, rfl, fun _ h => h, fun hn => absurd (List.mem_map_of_mem (f := Prod.fst) hs) hn⟩
  · refine ⟨⟨?_, ?_⟩, rfl, fun _ h => List.mem_cons_of_mem _ h,
      fun _ => ⟨_, List.mem_cons_self .., rfl⟩⟩
    · intro i hi
      rcases List.mem_cons.1 hi with rfl | hi
      · exact ⟨k, rfl, hk⟩
      · exact h.shape i hi
    · intro km hkm
      rcases List.mem_cons.1 hkm with rfl | hkm
      · exact ⟨k, rfl, hk⟩
      · exact h.keys km hkm

theorem onCont_keys {it : Item N M} {c : N × M} {st : St N M} {k : Cont} {x : List Tok}
    (h : x ∈ (onCont it c st k).explored.map Prod.fst) : x = k.sel.key ∨ x ∈ st.explored.map Prod.fst := by
  unfold onCont at h
  split at h
  · exact .inr h
  · simpa using h

theorem endless_onChild {root : M} {it : Item N M} {c : N × M} {st : St N M}
    (h : Endless root st) (k : Nat) (hsel : it.sel = starEmpty k) (hk : k < st.next) :
    Endless root (onChild heap it st c) ∧ st.next ≤ (onChild heap it st c).next ∧
      (∀ i ∈ st.active, i ∈ (onChild heap it st c).active) ∧
      (it.result.module = root → ∃ i ∈ (onChild heap it st c).active, i.result.module = root) := by
  unfold onChild
  rw [hsel]
  simp only [starEmpty_mc]
  obtain ⟨e1, e2, e3⟩ := endless_onHits it c [Ref.fresh k] { st with next := st.next + 2 }
  generalize [Ref.fresh k].foldl (onHit it c) { st with next := st.next + 2 } = st1 at e1 e2 e3 ⊢
  dsimp only at e1 e2 e3
  have h1 : Endless root st1 := by
    refine ⟨fun i hi => ?_, fun km hkm => ?_⟩
    · obtain ⟨k', a, b⟩ := h.shape i (e1 ▸ hi); exact ⟨k', a, by rw [e3]; omega⟩
    · obtain ⟨k', a, b⟩ := h.keys km (e2 ▸ hkm); exact ⟨k', a, by rw [e3]; omega⟩
  simp only [List.foldl_cons, List.foldl_nil]
  obtain ⟨a1, a2, a3, _⟩ := endless_onCont (it := it) (c := c) (k := k) (b := true) (f := .fresh k) h1
    (by rw [e3]; omega)
  have hnot : (starEmpty st.next).key ∉
      (onCont it c st1 ⟨starEmpty k, .fresh k, true⟩).explored.map Prod.fst := by
    intro hm
    rcases onCont_keys hm with hm | hm
    · have := (starEmpty_key _ _).1 hm; omega
    · rw [e2] at hm
      obtain ⟨km, hkm, e⟩ := List.mem_map.1 hm
      obtain ⟨k', e', hk'⟩ := h.keys km hkm
      rw [e] at e'
      have := (starEmpty_key _ _).1 e'; omega
  obtain ⟨b1, b2, b3, b4⟩ := endless_onCont (it := it) (c := c) (k := st.next) (b := false)
    (f := .fresh k) a1 (by rw [a2, e3]; omega)
  obtain ⟨c1, c2, c3, _⟩ := endless_onCont (it := it) (c := c) (k := st.next + 1) (b := true)
    (f := .fresh k) b1 (by rw [b2, a2, e3]; omega)
  refine ⟨c1, by rw [c2, b2, a2, e3]; omega, fun i hi => c3 _ (b3 _ (a3 _ (e1 ▸ hi))), ?_⟩
  intro hroot
  obtain ⟨i, hi, hm⟩ := b4 hnot
  exact ⟨i, c3 i hi, by rw [hm, ← hroot]; simp [contResult]⟩

theorem endless_expand {root : M} {it : Item N M} (k : Nat) (hsel : it.sel = starEmpty k)
    (cs : List (N × M)) : ∀ {st : St N M}, Endless root st → k < st.next →
    Endless root (cs.foldl (onChild heap it) st) ∧
      (∀ i ∈ st.active, i ∈ (cs.foldl (onChild heap it) st).active) ∧
      (cs ≠ [] → it.result.module = root →
        ∃ i ∈ (cs.foldl (onChild heap it) st).active, i.result.module = root) := by
  induction cs with
  | nil => intro st h _; exact ⟨h, fun _ h => h, by simp⟩
  | cons c cs ih =>
    intro st h hk
    obtain ⟨a1, a2, a3, a4⟩ := endless_onChild (heap := heap) (it := it) (c := c) h k hsel hk
    obtain ⟨b1, b2, _⟩ := ih a1 (by omega)
    refine ⟨b1, fun i hi => b2 i (a3 i hi), fun _ hr => ?_⟩
    obtain ⟨i, hi, hm⟩ := a4 hr
    exact ⟨i, b2 i hi, hm⟩

/-- **C35, deviation.** the query `{**}` — braces around a single `**` — makes the search run
forever on every module with at least one child: no number of rounds suffices. -/
theorem brace_star_diverges (heap : Nat → Frag N M) (h0 : heap 0 = .wildcard true)
    (children : M → List (N × M)) (root : M) (hc : children root ≠ []) (fuel : Nat) :
    search heap children fuel (.multi (.cons (.one (.obj 0) .none) .nil) .none) root = none := by
  have key : ∀ (fuel : Nat) (st : St N M), Endless root st →
      (∃ i ∈ st.active, i.result.module = root) → loop heap children fuel st = none := by
    intro fuel
    induction fuel with
    | zero =>
      intro st _ ⟨i, hi, _⟩
      unfold loop
      split
      · rename_i ha; rw [ha] at hi; cases hi
      · rfl
    | succ fuel ih =>
      intro st h ⟨i, hi, hm⟩
      unfold loop
      split
      · rename_i ha; rw [ha] at hi; cases hi
      · rename_i it rest ha
        obtain ⟨k, hsel, hk⟩ := h.shape it (by rw [ha]; simp)
        have h' : Endless root { st with active := rest } :=
          ⟨fun j hj => h.shape j (by rw [ha]; exact List.mem_cons_of_mem _ hj), h.keys⟩
        obtain ⟨a1, a2, a3⟩ := endless_expand (heap := heap) k hsel (children it.result.module) h' hk
        refine ih _ a1 ?_
        rw [ha] at hi
        rcases List.mem_cons.1 hi with rfl | hi
        · exact a3 (by rw [hm]; exact hc) hm
        · exact ⟨i, a2 i hi, hm⟩
  have hstart : start heap (.multi (.cons (.one (.obj 0) .none) .nil) .none) root =
      ⟨[], [], [⟨starEmpty 0, rootResult root⟩], [((starEmpty 0).key, root)], 1⟩ := by
    simp [start, Sel.simplify, Sel.hasRoot, Alts.allRoot, isStar, content, h0,
      Frag.isMultiWildcard, Sel.removeRoot, Alts.removeRoot, Alts.consSome, starEmpty]
  rw [search, hstart, key fuel _ ⟨?_, ?_⟩ ⟨_, List.mem_singleton.2 rfl, rfl⟩]
  · rfl
  · intro it hit
    simp only [List.mem_singleton] at hit
    subst hit
    exact ⟨0, rfl, Nat.zero_lt_one⟩
  · intro km hkm
    simp only [List.mem_singleton] at hkm
    subst hkm
    exact ⟨0, rfl, Nat.zero_lt_one⟩

/-- **C35, deviation.** `{**,**/c}` means every module, since its first alternative is `**`, but
selects only what `**/c` selects. -/
theorem brace_star_alternative_dropped :
    (search demoHeap demo 100
      (.multi (.cons (o 0 .none) (.cons (o 0 (o 14 .none)) .nil)) .none) 0).map
      (fun rs => rs.map Result.module) = some [5] ∧
    (search demoHeap demo 100 (o 0 .none) 0).map
      (fun rs => rs.map Result.module) = some [1, 2, 3, 4, 5] := by
  constructor <;> decide +kernel

/-- **C35, deviation.** with shared fragment objects (aliases `&a`, `&b`, `&c`) two different pairs
of braces can have the same list of fragments, and the search skips the one it meets later.
`x/{a,c/b}` selects a, but as the second alternative of `{x/{a/c,b}, x/{a,c/b}}` it is skipped and
a is not selected. -/
theorem brace_shared_fragments_skipped :
    (search demoHeap demo 100 (.multi
      (.cons (o 10 (.multi (.cons (o 12 (o 14 .none)) (.cons (o 13 .none) .nil)) .none))
      (.cons (o 10 (.multi (.cons (o 12 .none) (.cons (o 14 (o 13 .none)) .nil)) .none)) .nil))
      .none) 0).map
      (fun rs => rs.map Result.module) = some [4, 5] ∧
    (search demoHeap demo 100
      (o 10 (.multi (.cons (o 12 .none) (.cons (o 14 (o 13 .none)) .nil)) .none)) 0).map
      (fun rs => rs.map Result.module) = some [3] := by
  constructor <;> decide +kernel

/-- **C34, deviation.** a module registered twice under the same parent is only known to torch's
`named_children` by its first name, so a query for the second name finds nothing. -/
theorem second_name_not_found :
    let modules : Nat → List (Nat × Nat) := fun m => if m = 0 then [(10, 1), (11, 1)] else []
    (search demoHeap (fun m => namedChildren (modules m)) 10 (o 11 .none) 0).map
      (fun rs => rs.map Result.module) = some [] ∧
    (search demoHeap (fun m => namedChildren (modules m)) 10 (o 10 .none) 0).map
      (fun rs => rs.map Result.module) = some [1] := by
  constructor <;> decide +kernel

/-- Without such double registrations `named_children` lists all registered children. -/
theorem namedChildren_eq (l : List (N × M)) (h : (l.map Prod.snd).Nodup) : namedChildren l = l := by
  have gen : ∀ (l acc : List (N × M)), ((acc ++ l).map Prod.snd).Nodup →
      l.foldl (fun acc c => if c.2 ∈ acc.map Prod.snd then acc else acc ++ [c]) acc = acc ++ l := by
    intro l
    induction l with
    | nil => intro acc _; simp
    | cons c l ih =>
      intro acc h
      have hc : c.2 ∉ acc.map Prod.snd := by
        intro hm
        rw [List.map_append, List.nodup_append] at h
        exact h.2.2 _ hm _ (by simp) rfl
      rw [List.foldl_cons, if_neg hc, ih _ (by simpa using h)]
      simp
  simpa [namedChildren] using gen l [] (by simpa using h)

end FF.MPath
