/-
What a module query means, and the facts about selectors that the search proof
(SearchProps) needs.
-/
import Verif.MPath.Model
import Mathlib.Tactic.Common

namespace FF.MPath

variable {N M : Type}

/-! ## Specification -/

mutual
/-- What a fragment says about one step of a path (the child's name and the child). -/
def Frag.Holds : Frag N M → N → M → Prop
  | .wildcard _, _, _ => True
  | .path s, n, _ => n = s
  | .test p, n, m => p n m = true
  | .joint fs, n, m => HoldsAll fs n m
  | .disjoint fs, n, m => HoldsAny fs n m
  | .inverted f, n, m => ¬ f.Holds n m
/-- All fragments hold. -/
def HoldsAll : List (Frag N M) → N → M → Prop
  | [], _, _ => True
  | f :: fs, n, m => f.Holds n m ∧ HoldsAll fs n m
/-- Some fragment holds. -/
def HoldsAny : List (Frag N M) → N → M → Prop
  | [], _, _ => False
  | f :: fs, n, m => f.Holds n m ∨ HoldsAny fs n m
end

/-- `a` is one of the alternatives. -/
inductive Alts.Mem (a : Sel) : Alts → Prop
  | head (as) : Alts.Mem a (.cons a as)
  | tail (b as) : Alts.Mem a as → Alts.Mem a (.cons b as)

/-- The sequences of steps a selector describes: `**` stands for any sequence of steps, every
other fragment for one step it holds of, braces for any one of the alternatives, and `/` for
concatenation. -/
inductive Lang (heap : Nat → Frag N M) : Sel → List (N × M) → Prop
  | done : Lang heap .none []
  | step {f nx c w} : content heap f ≠ .wildcard true → (content heap f).Holds c.1 c.2 →
      Lang heap nx w → Lang heap (.one f nx) (c :: w)
  | star {f nx u w} : content heap f = .wildcard true → Lang heap nx w →
      Lang heap (.one f nx) (u ++ w)
  | alt {a as nx u v} : Alts.Mem a as → Lang heap a u → Lang heap nx v →
      Lang heap (.multi as nx) (u ++ v)

/-- A walk through the module hierarchy: the steps taken and where it ends. -/
inductive Walk (children : M → List (N × M)) : M → List (N × M) → M → Prop
  | here (m) : Walk children m [] m
  | down {m n c w m'} : (n, c) ∈ children m → Walk children c w m' →
      Walk children m ((n, c) :: w) m'

/-- A selector without braces. -/
inductive Plain : Sel → Prop
  | none : Plain .none
  | one {f nx} : Plain nx → Plain (.one f nx)

/-- `~` is not applied twice to `**` (`~~**`); such a fragment is neither one step nor `**`. -/
def Frag.Sane (f : Frag N M) : Prop :=
  ∀ g, f = .inverted (.inverted g) → g.mustAdvance = true

/-! ## Lemmas -/

section
variable [DecidableEq N]

mutual
theorem isMatch_iff (f : Frag N M) (n : N) (m : M) : f.isMatch n m = true ↔ f.Holds n m := by
  cases f with
  | wildcard _ => simp [Frag.isMatch, Frag.Holds]
  | path s => simp [Frag.isMatch, Frag.Holds]
  | test p => simp [Frag.isMatch, Frag.Holds]
  | joint fs => simpa [Frag.isMatch, Frag.Holds] using matchAll_iff fs n m
  | disjoint fs => simpa [Frag.isMatch, Frag.Holds] using matchAny_iff fs n m
  | inverted f =>
    have := isMatch_iff f n m
    simp only [Frag.isMatch, Frag.Holds, ← this]
    cases f.isMatch n m <;> simp
theorem matchAll_iff (fs : List (Frag N M)) (n : N) (m : M) :
    matchAll fs n m = true ↔ HoldsAll fs n m := by
  cases fs with
  | nil => simp [matchAll, HoldsAll]
  | cons f fs =>
    have h1 := isMatch_iff f n m
    have h2 := matchAll_iff fs n m
    simp only [matchAll, HoldsAll, ← h1, ← h2]
    cases f.isMatch n m <;> simp
theorem matchAny_iff (fs : List (Frag N M)) (n : N) (m : M) :
    matchAny fs n m = true ↔ HoldsAny fs n m := by
  cases fs with
  | nil => simp [matchAny, HoldsAny]
  | cons f fs =>
    have h1 := isMatch_iff f n m
    have h2 := matchAny_iff fs n m
    simp only [matchAny, HoldsAny, ← h1, ← h2]
    cases f.isMatch n m <;> simp
end

end

/-- A fragment that may repeat is `**` or matches nothing. -/
theorem not_mustAdvance {f : Frag N M} (hs : f.Sane) (h : f.mustAdvance = false) :
    f = .wildcard true ∨ f = .inverted (.wildcard true) := by
  cases f with
  | wildcard mm => left; simp [Frag.mustAdvance] at h; rw [h]
  | inverted g =>
    right
    cases g with
    | wildcard mm => simp [Frag.mustAdvance] at h; rw [h]
    | inverted g' =>
      have := hs g' rfl
      simp [Frag.mustAdvance] at h
      rw [this] at h; exact absurd h (by simp)
    | _ => simp [Frag.mustAdvance] at h
  | _ => simp [Frag.mustAdvance] at h

theorem isMultiWildcard_iff (f : Frag N M) : f.isMultiWildcard = true ↔ f = .wildcard true := by
  cases f <;> simp [Frag.isMultiWildcard]

variable (heap : Nat → Frag N M)

theorem isStar_iff (r : Ref) : isStar heap r = true ↔ content heap r = .wildcard true :=
  isMultiWildcard_iff _

theorem isStar_false (r : Ref) : isStar heap r = false ↔ content heap r ≠ .wildcard true := by
  rw [← not_iff_not, Bool.not_eq_false, isStar_iff, not_not]

variable {heap}

theorem lang_none {w} : Lang heap .none w ↔ w = [] :=
  ⟨fun h => by cases h; rfl, fun h => h ▸ .done⟩

theorem lang_one {f nx w} : Lang heap (.one f nx) w ↔
    (content heap f ≠ .wildcard true ∧ ∃ c v, w = c :: v ∧ (content heap f).Holds c.1 c.2 ∧
      Lang heap nx v) ∨
    (content heap f = .wildcard true ∧ ∃ u v, w = u ++ v ∧ Lang heap nx v) := by
  constructor
  · intro h
    cases h with
    | step h1 h2 h3 => exact .inl ⟨h1, _, _, rfl, h2, h3⟩
    | star h1 h2 => exact .inr ⟨h1, _, _, rfl, h2⟩
  · rintro (⟨h1, c, v, rfl, h2, h3⟩ | ⟨h1, u, v, rfl, h2⟩)
    · exact .step h1 h2 h3
    · exact .star h1 h2

theorem lang_multi {as nx w} : Lang heap (.multi as nx) w ↔
    ∃ a u v, Alts.Mem a as ∧ w = u ++ v ∧ Lang heap a u ∧ Lang heap nx v := by
  constructor
  · intro h
    cases h with
    | alt h1 h2 h3 => exact ⟨_, _, _, h1, rfl, h2, h3⟩
  · rintro ⟨a, u, v, h1, rfl, h2, h3⟩
    exact .alt h1 h2 h3

theorem lang_extend : ∀ (s t : Sel) {w}, Lang heap (s.extend t) w ↔
    ∃ u v, w = u ++ v ∧ Lang heap s u ∧ Lang heap t v
  | .none, t, w => by
    simp only [Sel.extend, lang_none]
    exact ⟨fun h => ⟨[], w, rfl, rfl, h⟩, fun ⟨u, v, e, hu, hv⟩ => by subst hu; simpa [e] using hv⟩
  | .one f nx, t, w => by
    simp only [Sel.extend, lang_one, lang_extend nx t]
    constructor
    · rintro (⟨h1, c, v, rfl, h2, x, y, rfl, hx, hy⟩ | ⟨h1, u, v, rfl, x, y, rfl, hx, hy⟩)
      · exact ⟨c :: x, y, rfl, .inl ⟨h1, c, x, rfl, h2, hx⟩, hy⟩
      · exact ⟨u ++ x, y, by simp, .inr ⟨h1, u, x, rfl, hx⟩, hy⟩
    · rintro ⟨x, y, rfl, (⟨h1, c, v, rfl, h2, h3⟩ | ⟨h1, u, v, rfl, h3⟩), hy⟩
      · exact .inl ⟨h1, c, v ++ y, rfl, h2, v, y, rfl, h3, hy⟩
      · exact .inr ⟨h1, u, v ++ y, by simp, v, y, rfl, h3, hy⟩
  | .multi as nx, t, w => by
    simp only [Sel.extend, lang_multi, lang_extend nx t]
    constructor
    · rintro ⟨a, u, v, h1, rfl, h2, x, y, rfl, hx, hy⟩
      exact ⟨u ++ x, y, by simp, ⟨a, u, x, h1, rfl, h2, hx⟩, hy⟩
    · rintro ⟨x, y, rfl, ⟨a, u, v, h1, rfl, h2, h3⟩, hy⟩
      exact ⟨a, u, v ++ y, h1, by simp, h2, v, y, rfl, h3, hy⟩

theorem extend_none : ∀ s : Sel, s.extend .none = s
  | .none => rfl
  | .one f nx => by simp [Sel.extend, extend_none nx]
  | .multi as nx => by simp [Sel.extend, extend_none nx]

variable (heap)

mutual
/-- The empty sequence is described by `s`. -/
def Sel.nullable : Sel → Bool
  | .none => true
  | .one f nx => isStar heap f && nx.nullable
  | .multi as nx => as.anyNullable && nx.nullable
/-- The empty sequence is described by one of the alternatives. -/
def Alts.anyNullable : Alts → Bool
  | .nil => false
  | .cons a as => a.nullable || as.anyNullable
end

mutual
/-- Braces hold at least one alternative, and no alternative describes the empty sequence
(i.e. consists of `**` only). -/
def Sel.proper : Sel → Bool
  | .none => true
  | .one _ nx => nx.proper
  | .multi .nil _ => false
  | .multi (.cons a as) nx => (!(a.nullable heap) && a.proper) && as.proper && nx.proper
/-- All alternatives are proper and none describes the empty sequence. -/
def Alts.proper : Alts → Bool
  | .nil => true
  | .cons a as => (!(a.nullable heap) && a.proper) && as.proper
end

theorem proper_multi {as nx} : (Sel.multi as nx).proper heap = true ↔
    as ≠ .nil ∧ as.proper heap = true ∧ nx.proper heap = true := by
  cases as <;> simp [Sel.proper, Alts.proper]

mutual
theorem nullable_iff (s : Sel) : s.nullable heap = true ↔ Lang heap s [] := by
  cases s with
  | none => simp [Sel.nullable, lang_none]
  | one f nx =>
    have ih := nullable_iff nx
    simp only [Sel.nullable, Bool.and_eq_true, ih, isStar_iff, lang_one]
    constructor
    · rintro ⟨h1, h2⟩; exact .inr ⟨h1, [], [], rfl, h2⟩
    · rintro (⟨_, c, v, e, _⟩ | ⟨h1, u, v, e, h2⟩)
      · simp at e
      · simp at e; obtain ⟨rfl, rfl⟩ := e; exact ⟨h1, h2⟩
  | multi as nx =>
    have ih := nullable_iff nx
    have ih2 := anyNullable_iff as
    simp only [Sel.nullable, Bool.and_eq_true, ih, ih2, lang_multi]
    constructor
    · rintro ⟨⟨a, h1, h2⟩, h3⟩; exact ⟨a, [], [], h1, rfl, h2, h3⟩
    · rintro ⟨a, u, v, h1, e, h2, h3⟩
      simp at e; obtain ⟨rfl, rfl⟩ := e; exact ⟨⟨a, h1, h2⟩, h3⟩
theorem anyNullable_iff (as : Alts) : as.anyNullable heap = true ↔
    ∃ a, Alts.Mem a as ∧ Lang heap a [] := by
  cases as with
  | nil => simp only [Alts.anyNullable]; exact ⟨fun h => by simp at h, fun ⟨a, h, _⟩ => by cases h⟩
  | cons b as =>
    have ih := nullable_iff b
    have ih2 := anyNullable_iff as
    simp only [Alts.anyNullable, Bool.or_eq_true, ih, ih2]
    constructor
    · rintro (h | ⟨a, h1, h2⟩)
      · exact ⟨b, .head _, h⟩
      · exact ⟨a, .tail _ _ h1, h2⟩
    · rintro ⟨a, h1, h2⟩
      cases h1 with
      | head => exact .inl h2
      | tail _ _ h => exact .inr ⟨a, h, h2⟩
end

mutual
/-- `_is_multi_wildcard` decides emptiness correctly on proper selectors. -/
theorem fragments_all (s : Sel) (h : s.proper heap = true) :
    s.fragments.all (isStar heap) = s.nullable heap := by
  cases s with
  | none => rfl
  | one f nx =>
    simp only [Sel.fragments, Sel.nullable, List.all_cons]
    rw [fragments_all nx (by simpa [Sel.proper] using h)]
  | multi as nx =>
    obtain ⟨h1, h2, h3⟩ := (proper_multi heap).1 h
    cases as with
    | nil => exact absurd rfl h1
    | cons a as =>
      obtain ⟨h4, h5⟩ := altsFragments_all (.cons a as) h2
      simp only [Sel.fragments, Sel.nullable, h4, Bool.false_and]
      exact h5 (by simp)
theorem altsFragments_all (as : Alts) (h : as.proper heap = true) :
    as.anyNullable heap = false ∧ (as ≠ .nil → as.fragments.all (isStar heap) = false) := by
  cases as with
  | nil => exact ⟨rfl, fun h => absurd rfl h⟩
  | cons a as =>
    simp only [Alts.proper, Bool.and_eq_true, Bool.not_eq_true'] at h
    obtain ⟨⟨h1, h2⟩, h3⟩ := h
    have e1 := fragments_all a h2
    obtain ⟨e2, _⟩ := altsFragments_all as h3
    refine ⟨by simp [Alts.anyNullable, h1, e2], fun _ => ?_⟩
    rw [Alts.fragments, List.all_append, e1, h1, Bool.false_and]
end

mutual
/-- Number of fragments of a selector. -/
def Sel.leaves : Sel → Nat
  | .none => 0
  | .one _ nx => nx.leaves + 1
  | .multi as nx => as.leaves + nx.leaves
/-- Number of fragments of the alternatives. -/
def Alts.leaves : Alts → Nat
  | .nil => 0
  | .cons a as => a.leaves + as.leaves
end

/-- Number of fragments in a key. -/
def keyLeaves (k : List Tok) : Nat := k.countP (fun t => match t with | .leaf _ => true | _ => false)

mutual
theorem key_leaves (s : Sel) : keyLeaves s.key = s.leaves := by
  cases s with
  | none => rfl
  | one f nx =>
    have := key_leaves nx
    simp only [keyLeaves] at this
    simp [keyLeaves, Sel.key, Sel.leaves, this]
  | multi as nx =>
    have h1 := key_leaves nx
    have h2 := altsKey_leaves as
    simp only [keyLeaves] at h1 h2
    simp [keyLeaves, Sel.key, Sel.leaves, List.countP_append, h1, h2]
theorem altsKey_leaves (as : Alts) : keyLeaves as.key = as.leaves := by
  cases as with
  | nil => rfl
  | cons a as =>
    have h1 := key_leaves a
    have h2 := altsKey_leaves as
    simp only [keyLeaves] at h1 h2
    simp [keyLeaves, Alts.key, Alts.leaves, List.countP_append, h1, h2]
end

theorem leaves_extend : ∀ s t : Sel, (s.extend t).leaves = s.leaves + t.leaves
  | .none, t => by simp [Sel.extend, Sel.leaves]
  | .one f nx, t => by simp [Sel.extend, Sel.leaves, leaves_extend nx t]; omega
  | .multi as nx, t => by simp [Sel.extend, Sel.leaves, leaves_extend nx t]; omega

/-- `w` ends with a sequence described by `s`. -/
def EndsIn (s : Sel) (w : List (N × M)) : Prop := ∃ u v, w = u ++ v ∧ Lang heap s v

theorem EndsIn.prepend {s} {w : List (N × M)} (u) (h : EndsIn heap s w) : EndsIn heap s (u ++ w) := by
  obtain ⟨x, y, rfl, hy⟩ := h
  exact ⟨u ++ x, y, by simp, hy⟩

theorem mem_consSome {a b : Sel} {as : Alts} :
    Alts.Mem a (Alts.consSome b as) ↔ (a = b ∧ b ≠ .none) ∨ Alts.Mem a as := by
  cases b with
  | none => simp [Alts.consSome]
  | one f nx =>
    simp only [Alts.consSome]
    constructor
    · intro h
      cases h with
      | head => simp
      | tail _ _ h => exact .inr h
    · rintro (⟨rfl, _⟩ | h)
      · exact .head _
      · exact .tail _ _ h
  | multi bs nx =>
    simp only [Alts.consSome]
    constructor
    · intro h
      cases h with
      | head => simp
      | tail _ _ h => exact .inr h
    · rintro (⟨rfl, _⟩ | h)
      · exact .head _
      · exact .tail _ _ h

mutual
/-- Removing leading `**`s does not change what is described behind an arbitrary prefix. -/
theorem endsIn_removeRoot (s : Sel) (h : s.proper heap = true) (w : List (N × M)) :
    EndsIn heap (s.removeRoot heap) w ↔ EndsIn heap s w := by
  cases s with
  | none => simp [Sel.removeRoot]
  | one f nx =>
    simp only [Sel.removeRoot]
    by_cases hf : isStar heap f = true
    · simp only [hf, Bool.not_true, Bool.false_eq_true, if_false]
      rw [endsIn_removeRoot nx (by simpa [Sel.proper] using h)]
      constructor
      · rintro ⟨u, v, rfl, hv⟩
        exact ⟨u, v, rfl, lang_one.2 (.inr ⟨(isStar_iff heap f).1 hf, [], v, rfl, hv⟩)⟩
      · rintro ⟨u, v, rfl, hv⟩
        rcases lang_one.1 hv with ⟨h1, _⟩ | ⟨_, x, y, rfl, hy⟩
        · exact absurd ((isStar_iff heap f).1 hf) h1
        · exact ⟨u ++ x, y, by simp, hy⟩
    · simp [hf]
  | multi as nx =>
    obtain ⟨h1, h2, h3⟩ := (proper_multi heap).1 h
    have e1 := altsRemoveRoot as h2
    simp only [Sel.removeRoot]
    constructor
    · rintro ⟨u, v, rfl, hv⟩
      obtain ⟨a, x, y, ha, rfl, hx, hy⟩ := lang_multi.1 hv
      obtain ⟨b, hb, x1, x2, rfl, hx2⟩ := (e1 x).1 ⟨a, ha, [], x, rfl, hx⟩
      exact ⟨u ++ x1, x2 ++ y, by simp, lang_multi.2 ⟨b, x2, y, hb, rfl, hx2, hy⟩⟩
    · rintro ⟨u, v, rfl, hv⟩
      obtain ⟨a, x, y, ha, rfl, hx, hy⟩ := lang_multi.1 hv
      obtain ⟨b, hb, x1, x2, rfl, hx2⟩ := (e1 x).2 ⟨a, ha, [], x, rfl, hx⟩
      exact ⟨u ++ x1, x2 ++ y, by simp, lang_multi.2 ⟨b, x2, y, hb, rfl, hx2, hy⟩⟩
theorem altsRemoveRoot (as : Alts) (h : as.proper heap = true) :
    ∀ w : List (N × M), (∃ a, Alts.Mem a (as.removeRoot heap) ∧ EndsIn heap a w) ↔
      (∃ a, Alts.Mem a as ∧ EndsIn heap a w) := by
  cases as with
  | nil => simp [Alts.removeRoot]
  | cons b as =>
    simp only [Alts.proper, Bool.and_eq_true, Bool.not_eq_true'] at h
    obtain ⟨⟨h1, h2⟩, h3⟩ := h
    have e1 := altsRemoveRoot as h3
    intro w
    have e2 := endsIn_removeRoot b h2
    constructor
    · rintro ⟨a, ha, hw⟩
      simp only [Alts.removeRoot] at ha
      rcases mem_consSome.1 ha with ⟨rfl, _⟩ | ha
      · exact ⟨b, .head _, (e2 w).1 hw⟩
      · obtain ⟨a', ha', hw'⟩ := (e1 w).1 ⟨a, ha, hw⟩
        exact ⟨a', .tail _ _ ha', hw'⟩
    · rintro ⟨a, ha, hw⟩
      simp only [Alts.removeRoot]
      cases ha with
      | head =>
        refine ⟨b.removeRoot heap, mem_consSome.2 (.inl ⟨rfl, ?_⟩), (e2 w).2 hw⟩
        intro e
        -- otherwise `b` would describe the empty sequence
        have : EndsIn heap (b.removeRoot heap) ([] : List (N × M)) := ⟨[], [], rfl, e ▸ .done⟩
        obtain ⟨u, v, e', hv⟩ := (e2 []).1 this
        simp at e'
        rw [e'.2] at hv
        rw [(nullable_iff heap b).2 hv] at h1
        exact absurd h1 (by simp)
      | tail _ _ ha =>
        obtain ⟨a', ha', hw'⟩ := (e1 w).2 ⟨a, ha, hw⟩
        exact ⟨a', mem_consSome.2 (.inr ha'), hw'⟩
end

theorem nullable_removeRoot (s : Sel) (h : s.proper heap = true) :
    (s.removeRoot heap).nullable heap = s.nullable heap := by
  rw [Bool.eq_iff_iff, nullable_iff, nullable_iff]
  have := endsIn_removeRoot heap s h ([] : List (N × M))
  have e : ∀ t : Sel, EndsIn heap t ([] : List (N × M)) ↔ Lang heap t [] := fun t =>
    ⟨fun ⟨u, v, e, hv⟩ => by simp at e; rw [e.2] at hv; exact hv, fun h => ⟨[], [], rfl, h⟩⟩
  rw [e, e] at this
  exact this

mutual
/-- A selector that starts with `**` describes everything that ends in it. -/
theorem hasRoot_closed (s : Sel) (h : s.hasRoot heap = true) (w : List (N × M)) :
    Lang heap s w ↔ EndsIn heap s w := by
  refine ⟨fun hw => ⟨[], w, rfl, hw⟩, ?_⟩
  rintro ⟨u, v, rfl, hv⟩
  cases s with
  | none => simp [Sel.hasRoot] at h
  | one f nx =>
    have hf := (isStar_iff heap f).1 h
    rcases lang_one.1 hv with ⟨h1, _⟩ | ⟨_, x, y, rfl, hy⟩
    · exact absurd hf h1
    · exact lang_one.2 (.inr ⟨hf, u ++ x, y, by simp, hy⟩)
  | multi as nx =>
    obtain ⟨a, x, y, ha, rfl, hx, hy⟩ := lang_multi.1 hv
    have := altsRoot_closed as h a ha (u ++ x) ⟨u, x, rfl, hx⟩
    exact lang_multi.2 ⟨a, u ++ x, y, ha, by simp, this, hy⟩
theorem altsRoot_closed (as : Alts) (h : as.allRoot heap = true) (a : Sel) (ha : Alts.Mem a as)
    (w : List (N × M)) (hw : EndsIn heap a w) : Lang heap a w := by
  cases as with
  | nil => cases ha
  | cons b as =>
    simp only [Alts.allRoot, Bool.and_eq_true] at h
    have e1 := hasRoot_closed b h.1
    have e2 := altsRoot_closed as h.2
    cases ha with
    | head => exact (e1 w).2 hw
    | tail _ _ ha => exact e2 a ha w hw
end

/-- **simplify keeps the meaning** (of proper selectors). -/
theorem lang_simplify (n : Nat) (s : Sel) (h : s.proper heap = true) (w : List (N × M)) :
    Lang heap (s.simplify heap n).1 w ↔ Lang heap s w := by
  unfold Sel.simplify
  by_cases hr : s.hasRoot heap = true
  · rw [if_pos hr, hasRoot_closed heap s hr, ← endsIn_removeRoot heap s h, lang_one]
    constructor
    · rintro (⟨h1, _⟩ | ⟨_, x, y, rfl, hy⟩)
      · exact absurd rfl h1
      · exact ⟨x, y, rfl, hy⟩
    · rintro ⟨x, y, rfl, hy⟩
      exact .inr ⟨rfl, x, y, rfl, hy⟩
  · rw [if_neg hr]

mutual
theorem proper_removeRoot (s : Sel) (h : s.proper heap = true) :
    (s.removeRoot heap).proper heap = true := by
  cases s with
  | none => rfl
  | one f nx =>
    simp only [Sel.removeRoot]
    split
    · exact h
    · exact proper_removeRoot nx (by simpa [Sel.proper] using h)
  | multi as nx =>
    obtain ⟨h1, h2, h3⟩ := (proper_multi heap).1 h
    obtain ⟨e1, e2⟩ := altsProper_removeRoot as h2
    exact (proper_multi heap).2 ⟨e2 h1, e1, h3⟩
theorem altsProper_removeRoot (as : Alts) (h : as.proper heap = true) :
    (as.removeRoot heap).proper heap = true ∧ (as ≠ .nil → as.removeRoot heap ≠ .nil) := by
  cases as with
  | nil => exact ⟨rfl, fun h => absurd rfl h⟩
  | cons b as =>
    simp only [Alts.proper, Bool.and_eq_true, Bool.not_eq_true'] at h
    obtain ⟨⟨h1, h2⟩, h3⟩ := h
    have e0 := proper_removeRoot b h2
    have e1 := nullable_removeRoot heap b h2
    obtain ⟨e2, _⟩ := altsProper_removeRoot as h3
    simp only [Alts.removeRoot]
    rw [h1] at e1
    cases hb : b.removeRoot heap with
    | none => rw [hb] at e1; simp [Sel.nullable] at e1
    | one f nx =>
      rw [hb] at e0 e1
      simp [Alts.consSome, Alts.proper, e0, e1, e2]
    | multi bs nx =>
      rw [hb] at e0 e1
      simp [Alts.consSome, Alts.proper, e0, e1, e2]
end

theorem proper_simplify (n : Nat) (s : Sel) (h : s.proper heap = true) :
    (s.simplify heap n).1.proper heap = true := by
  unfold Sel.simplify
  split
  · exact proper_removeRoot heap s h
  · exact h

theorem proper_extend : ∀ s t : Sel, s.proper heap = true → t.proper heap = true →
    (s.extend t).proper heap = true
  | .none, t, _, ht => ht
  | .one f nx, t, hs, ht => proper_extend nx t (by simpa [Sel.proper] using hs) ht
  | .multi as nx, t, hs, ht => by
    obtain ⟨h1, h2, h3⟩ := (proper_multi heap).1 hs
    exact (proper_multi heap).2 ⟨h1, h2, proper_extend nx t h3 ht⟩

theorem consSome_leaves (a : Sel) (as : Alts) : (Alts.consSome a as).leaves = a.leaves + as.leaves := by
  cases a <;> simp [Alts.consSome, Alts.leaves, Sel.leaves]

mutual
theorem leaves_removeRoot (s : Sel) (h : s.proper heap = true) :
    (s.removeRoot heap).leaves ≤ s.leaves ∧
      (s.hasRoot heap = true → (s.removeRoot heap).leaves < s.leaves) := by
  cases s with
  | none => simp [Sel.removeRoot, Sel.hasRoot]
  | one f nx =>
    have ih := (leaves_removeRoot nx (by simpa [Sel.proper] using h)).1
    simp only [Sel.removeRoot, Sel.hasRoot]
    by_cases hf : isStar heap f = true
    · simp only [hf, Bool.not_true, Bool.false_eq_true, if_false, Sel.leaves]
      exact ⟨by omega, fun _ => by omega⟩
    · simp [hf]
  | multi as nx =>
    obtain ⟨h1, h2, h3⟩ := (proper_multi heap).1 h
    obtain ⟨e1, e2⟩ := altsLeaves_removeRoot as h2
    simp only [Sel.removeRoot, Sel.hasRoot, Sel.leaves]
    exact ⟨by omega, fun hr => by have := e2 hr h1; omega⟩
theorem altsLeaves_removeRoot (as : Alts) (h : as.proper heap = true) :
    (as.removeRoot heap).leaves ≤ as.leaves ∧
      (as.allRoot heap = true → as ≠ .nil → (as.removeRoot heap).leaves < as.leaves) := by
  cases as with
  | nil => simp [Alts.removeRoot]
  | cons b as =>
    simp only [Alts.proper, Bool.and_eq_true, Bool.not_eq_true'] at h
    obtain ⟨⟨h1, h2⟩, h3⟩ := h
    obtain ⟨e1, e2⟩ := leaves_removeRoot b h2
    obtain ⟨e3, _⟩ := altsLeaves_removeRoot as h3
    simp only [Alts.removeRoot, consSome_leaves, Alts.leaves, Alts.allRoot, Bool.and_eq_true]
    exact ⟨by omega, fun hr _ => by have := e2 hr.1; omega⟩
end

theorem leaves_simplify (n : Nat) (s : Sel) (h : s.proper heap = true) :
    (s.simplify heap n).1.leaves ≤ s.leaves := by
  unfold Sel.simplify
  by_cases hr : s.hasRoot heap = true
  · rw [if_pos hr]
    have := (leaves_removeRoot heap s h).2 hr
    simp only [Sel.leaves]; omega
  · rw [if_neg hr]; exact Nat.le_refl _

end FF.MPath
