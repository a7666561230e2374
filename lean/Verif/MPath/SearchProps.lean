/-
Module queries: `search` returns exactly the modules whose path the query describes.
-/
import Verif.MPath.Lang
import Mathlib.Data.List.Nodup

set_option linter.unusedSectionVars false

namespace FF.MPath

variable {N M : Type} [DecidableEq N] [DecidableEq M]

/-! ## Specification -/

/-- `search` returns `rs` (its loop ends after finitely many rounds). -/
def Returns (heap : Nat → Frag N M) (children : M → List (N × M)) (q : Sel) (root : M)
    (rs : List (Result N M)) : Prop :=
  ∃ fuel, search heap children fuel q root = some rs

/-- Module `m` is reached from `root` by at least one step, along a path the query describes. -/
def Selected (heap : Nat → Frag N M) (children : M → List (N × M)) (q : Sel) (root m : M) : Prop :=
  ∃ w, w ≠ [] ∧ Walk children root w m ∧ Lang heap q w

/-- A search result tells the truth: its full name is a path from the root to the module that the
query describes, and parent and attribute name are the last step of that path. -/
def Truthful (heap : Nat → Frag N M) (children : M → List (N × M)) (q : Sel) (root : M)
    (r : Result N M) : Prop :=
  ∃ w n, Walk children root w r.parent ∧ (n, r.module) ∈ children r.parent ∧
    Lang heap q (w ++ [(n, r.module)]) ∧
    r.fullName = (w ++ [(n, r.module)]).map Prod.fst ∧ r.parentAttribute = some n

/-- No module contains itself: children have a smaller rank. -/
def Acyclic (children : M → List (N × M)) : Prop :=
  ∃ rank : M → Nat, ∀ m, ∀ c ∈ children m, rank c.2 < rank m

/-! ## Lemmas -/

variable {heap : Nat → Frag N M} {children : M → List (N × M)}

theorem Walk.append {a w b w' c} (h : Walk children a w b) (h' : Walk children b w' c) :
    Walk children a (w ++ w') c := by
  induction h with
  | here _ => exact h'
  | down hm _ ih => exact .down hm (ih h')

/-- What the continuations of a selector at a child say, in terms of the meaning of selectors. -/
structure MCSpec (heap : Nat → Frag N M) (s : Sel) (c : N × M) (r : MC) : Prop where
  hit_sound : r.hits ≠ [] → Lang heap s [c]
  cont_sound : ∀ k ∈ r.conts, ∀ v,
    Lang heap k.sel v → Lang heap s (if k.consume then c :: v else v)
  complete : ∀ v, Lang heap s (c :: v) →
    (v = [] ∧ r.hits ≠ []) ∨
    (v ≠ [] ∧ ∃ k ∈ r.conts, k.consume = true ∧ Lang heap k.sel v) ∨
    (∃ k ∈ r.conts, k.consume = false ∧ k.sel.leaves < s.leaves ∧ Lang heap k.sel (c :: v))
  proper : ∀ k ∈ r.conts, k.sel.proper heap = true
  smaller : ∀ k ∈ r.conts, k.consume = false → k.sel.leaves < s.leaves

theorem isSome_false {s : Sel} : s.isSome = false ↔ s = .none := by
  cases s <;> simp [Sel.isSome]

theorem isSome_true {s : Sel} : s.isSome = true ↔ s ≠ .none := by
  cases s <;> simp [Sel.isSome]

theorem oneMC_spec (n : Nat) (f : Ref) (nx : Sel) (c : N × M) (hp : nx.proper heap = true)
    (hs : (content heap f).Sane) : MCSpec heap (.one f nx) c (oneMC heap n f nx c) := by
  by_cases hm : (content heap f).isMatch c.1 c.2 = true
  swap
  · -- no match
    have e : oneMC heap n f nx c = ⟨[], [], n⟩ := by simp [oneMC, hm]
    rw [e]
    refine ⟨by simp, by simp, ?_, by simp, by simp⟩
    intro v hv
    exfalso
    rcases lang_one.1 hv with ⟨_, c', v', e', h2, _⟩ | ⟨h1, _⟩
    · simp at e'
      obtain ⟨rfl, rfl⟩ := e'
      exact hm ((isMatch_iff _ _ _).2 h2)
    · rw [h1] at hm
      simp [Frag.isMatch] at hm
  have hh := (isMatch_iff _ _ _).1 hm
  by_cases ha : (content heap f).mustAdvance = true
  · -- a fragment for exactly one step
    have hns : content heap f ≠ .wildcard true := by
      intro e; rw [e] at ha; simp [Frag.mustAdvance] at ha
    cases hnx : nx.isSome with
    | false =>
      rw [isSome_false] at hnx
      subst hnx
      have e : oneMC heap n f .none c = ⟨[f], [], n⟩ := by simp [oneMC, hm, ha, Sel.isSome]
      rw [e]
      refine ⟨fun _ => lang_one.2 (.inl ⟨hns, c, [], rfl, hh, .done⟩), by simp, ?_, by simp, by simp⟩
      intro v hv
      left
      rcases lang_one.1 hv with ⟨_, c', v', e', h2, h3⟩ | ⟨h1, _⟩
      · simp at e'
        rw [e'.2]; exact ⟨lang_none.1 h3, by simp⟩
      · exact absurd h1 hns
    | true =>
      have e : oneMC heap n f nx c = ⟨if nx.isMultiWildcard heap then [f] else [],
          [⟨(nx.simplify heap n).1, f, true⟩], (nx.simplify heap n).2⟩ := by
        simp only [oneMC, hm, ha, hnx]
        cases nx.isMultiWildcard heap <;> simp
      rw [e]
      have hsim := lang_simplify heap n nx hp
      refine ⟨?_, ?_, ?_, ?_, by simp⟩
      · intro h
        have hmw : nx.isMultiWildcard heap = true := by
          by_contra hc; simp [hc] at h
        have : nx.nullable heap = true := by
          rw [← fragments_all heap nx hp]; exact hmw
        exact lang_one.2 (.inl ⟨hns, c, [], rfl, hh, (nullable_iff heap nx).1 this⟩)
      · intro k hk v hv
        simp only [List.mem_singleton] at hk
        subst hk
        exact lang_one.2 (.inl ⟨hns, c, v, rfl, hh, (hsim v).1 hv⟩)
      · intro v hv
        rcases lang_one.1 hv with ⟨_, c', v', e', h2, h3⟩ | ⟨h1, _⟩
        · simp at e'
          obtain ⟨rfl, rfl⟩ := e'
          by_cases hv0 : v = []
          · subst hv0
            left
            have : nx.isMultiWildcard heap = true := by
              unfold Sel.isMultiWildcard
              rw [fragments_all heap nx hp]; exact (nullable_iff heap nx).2 h3
            simp [this]
          · exact .inr (.inl ⟨hv0, _, List.mem_singleton.2 rfl, rfl, (hsim v).2 h3⟩)
        · exact absurd h1 hns
      · intro k hk
        simp only [List.mem_singleton] at hk
        subst hk
        exact proper_simplify heap n nx hp
  · -- `**`
    have hst : content heap f = .wildcard true := by
      rcases not_mustAdvance hs (by simpa using ha) with h | h
      · exact h
      · rw [h] at hm; simp [Frag.isMatch] at hm
    have ha' : (content heap f).mustAdvance = false := by simpa using ha
    cases hnx : nx.isSome with
    | false =>
      rw [isSome_false] at hnx
      subst hnx
      have e : oneMC heap n f .none c = ⟨[f], [⟨.one f .none, f, true⟩], n⟩ := by
        simp [oneMC, hm, ha', Sel.isSome]
      rw [e]
      refine ⟨fun _ => lang_one.2 (.inr ⟨hst, [c], [], by simp, .done⟩), ?_, ?_, ?_, by simp⟩
      · intro k hk v hv
        simp only [List.mem_singleton] at hk
        subst hk
        exact lang_one.2 (.inr ⟨hst, c :: v, [], by simp, .done⟩)
      · intro v hv
        by_cases hv0 : v = []
        · exact .inl ⟨hv0, by simp⟩
        · exact .inr (.inl ⟨hv0, _, List.mem_singleton.2 rfl, rfl,
            lang_one.2 (.inr ⟨hst, v, [], by simp, .done⟩)⟩)
      · intro k hk
        simp only [List.mem_singleton] at hk
        subst hk
        rfl
    | true =>
      have e : oneMC heap n f nx c = ⟨if nx.isMultiWildcard heap then [f] else [],
          [⟨.one f nx, f, true⟩, ⟨(nx.simplify heap n).1, f, false⟩,
            ⟨(nx.simplify heap (nx.simplify heap n).2).1, f, true⟩],
          (nx.simplify heap (nx.simplify heap n).2).2⟩ := by
        simp only [oneMC, hm, ha', hnx]
        cases nx.isMultiWildcard heap <;> simp
      rw [e]
      have hsim := fun k => lang_simplify heap k nx hp
      have hlt : (nx.simplify heap n).1.leaves < (Sel.one f nx).leaves := by
        have := leaves_simplify heap n nx hp
        simp only [Sel.leaves]; omega
      refine ⟨?_, ?_, ?_, ?_, ?_⟩
      · intro h
        have hmw : nx.isMultiWildcard heap = true := by
          by_contra hc; simp [hc] at h
        have : nx.nullable heap = true := by
          rw [← fragments_all heap nx hp]; exact hmw
        exact lang_one.2 (.inr ⟨hst, [c], [], by simp, (nullable_iff heap nx).1 this⟩)
      · intro k hk v hv
        simp only [List.mem_cons, List.not_mem_nil, or_false] at hk
        rcases hk with rfl | rfl | rfl
        · rcases lang_one.1 hv with ⟨h1, _⟩ | ⟨_, x, y, rfl, hy⟩
          · exact absurd hst h1
          · exact lang_one.2 (.inr ⟨hst, c :: x, y, rfl, hy⟩)
        · exact lang_one.2 (.inr ⟨hst, [], v, rfl, (hsim _ v).1 hv⟩)
        · exact lang_one.2 (.inr ⟨hst, [c], v, rfl, (hsim _ v).1 hv⟩)
      · intro v hv
        rcases lang_one.1 hv with ⟨h1, _⟩ | ⟨_, x, y, e', hy⟩
        · exact absurd hst h1
        · cases x with
          | nil =>
            -- `**` matches nothing
            refine .inr (.inr ⟨_, List.mem_cons_of_mem _ (List.mem_cons_self ..), rfl, hlt, ?_⟩)
            rw [e']; exact (hsim _ _).2 hy
          | cons c' x =>
            simp at e'
            obtain ⟨rfl, rfl⟩ := e'
            by_cases hv0 : x ++ y = []
            · left
              refine ⟨hv0, ?_⟩
              have hy0 : y = [] := by simp at hv0; exact hv0.2
              subst hy0
              have : nx.isMultiWildcard heap = true := by
                unfold Sel.isMultiWildcard
                rw [fragments_all heap nx hp]; exact (nullable_iff heap nx).2 hy
              simp [this]
            · exact .inr (.inl ⟨hv0, _, List.mem_cons_self .., rfl,
                lang_one.2 (.inr ⟨hst, x, y, rfl, hy⟩)⟩)
      · intro k hk
        simp only [List.mem_cons, List.not_mem_nil, or_false] at hk
        rcases hk with rfl | rfl | rfl
        · exact hp
        · exact proper_simplify heap _ nx hp
        · exact proper_simplify heap _ nx hp
      · intro k hk hc
        simp only [List.mem_cons, List.not_mem_nil, or_false] at hk
        rcases hk with rfl | rfl | rfl
        · simp at hc
        · exact hlt
        · simp at hc

/-- All fragments of the query are sane. -/
def SaneHeap (heap : Nat → Frag N M) : Prop := ∀ i, (heap i).Sane

theorem SaneHeap.content (h : SaneHeap heap) (f : Ref) : (content heap f).Sane := by
  cases f with
  | obj i => exact h i
  | fresh k => intro g e; simp [FF.MPath.content] at e

mutual
theorem mc_spec (hs : SaneHeap heap) (n : Nat) (c : N × M) (s rest : Sel)
    (h1 : s.proper heap = true) (h2 : rest.proper heap = true) (h3 : s ≠ .none) :
    MCSpec heap (s.extend rest) c (s.mc heap n c rest) := by
  cases s with
  | none => exact absurd rfl h3
  | one f nx =>
    exact oneMC_spec n f _ c (proper_extend heap nx rest (by simpa [Sel.proper] using h1) h2)
      (hs.content f)
  | multi as nx =>
    obtain ⟨e1, e2, e3⟩ := (proper_multi heap).1 h1
    have := altsMc_spec hs n c as (nx.extend rest) e2 (proper_extend heap nx rest e3 h2)
    simpa [Sel.mc, Sel.extend] using this
theorem altsMc_spec (hs : SaneHeap heap) (n : Nat) (c : N × M) (as : Alts) (rest : Sel)
    (h1 : as.proper heap = true) (h2 : rest.proper heap = true) :
    MCSpec heap (.multi as rest) c (as.mc heap n c rest) := by
  cases as with
  | nil =>
    refine ⟨by simp [Alts.mc], by simp [Alts.mc], ?_, by simp [Alts.mc], by simp [Alts.mc]⟩
    intro v hv
    obtain ⟨a, _, _, ha, _⟩ := lang_multi.1 hv
    cases ha
  | cons a as =>
    simp only [Alts.proper, Bool.and_eq_true, Bool.not_eq_true'] at h1
    obtain ⟨⟨g1, g2⟩, g3⟩ := h1
    have hne : a ≠ .none := by
      intro e; rw [e] at g1; simp [Sel.nullable] at g1
    have ra := mc_spec hs n c a rest g2 h2 hne
    have ras := altsMc_spec hs (a.mc heap n c rest).next c as rest g3 h2
    have up1 : ∀ v, Lang heap (a.extend rest) v → Lang heap (.multi (.cons a as) rest) v := by
      intro v hv
      obtain ⟨x, y, rfl, hx, hy⟩ := (lang_extend a rest).1 hv
      exact .alt (.head _) hx hy
    have up2 : ∀ v, Lang heap (.multi as rest) v → Lang heap (.multi (.cons a as) rest) v := by
      intro v hv
      obtain ⟨b, x, y, hb, rfl, hx, hy⟩ := lang_multi.1 hv
      exact .alt (.tail _ _ hb) hx hy
    have la : (a.extend rest).leaves ≤ (Sel.multi (.cons a as) rest).leaves := by
      rw [leaves_extend]; simp only [Sel.leaves, Alts.leaves]; omega
    have las : (Sel.multi as rest).leaves ≤ (Sel.multi (.cons a as) rest).leaves := by
      simp only [Sel.leaves, Alts.leaves]; omega
    simp only [Alts.mc]
    refine ⟨?_, ?_, ?_, ?_, ?_⟩
    · intro h
      by_cases hh : (a.mc heap n c rest).hits = []
      · simp [hh] at h
        exact up2 _ (ras.hit_sound h)
      · exact up1 _ (ra.hit_sound hh)
    · intro k hk v hv
      rcases List.mem_append.1 hk with hk | hk
      · exact up1 _ (ra.cont_sound k hk v hv)
      · exact up2 _ (ras.cont_sound k hk v hv)
    · intro v hv
      obtain ⟨b, x, y, hb, e, hx, hy⟩ := lang_multi.1 hv
      cases hb with
      | head =>
        have := ra.complete v ((lang_extend a rest).2 ⟨x, y, e, hx, hy⟩)
        rcases this with ⟨q1, q2⟩ | ⟨q0, k, q1, q2, q3⟩ | ⟨k, q1, q2, q3, q4⟩
        · exact .inl ⟨q1, by simp [q2]⟩
        · exact .inr (.inl ⟨q0, k, List.mem_append_left _ q1, q2, q3⟩)
        · exact .inr (.inr ⟨k, List.mem_append_left _ q1, q2, by omega, q4⟩)
      | tail _ _ hb =>
        have := ras.complete v (lang_multi.2 ⟨b, x, y, hb, e, hx, hy⟩)
        rcases this with ⟨q1, q2⟩ | ⟨q0, k, q1, q2, q3⟩ | ⟨k, q1, q2, q3, q4⟩
        · exact .inl ⟨q1, by simp [q2]⟩
        · exact .inr (.inl ⟨q0, k, List.mem_append_right _ q1, q2, q3⟩)
        · exact .inr (.inr ⟨k, List.mem_append_right _ q1, q2, by omega, q4⟩)
    · intro k hk
      rcases List.mem_append.1 hk with hk | hk
      · exact ra.proper k hk
      · exact ras.proper k hk
    · intro k hk hc
      rcases List.mem_append.1 hk with hk | hk
      · have := ra.smaller k hk hc; omega
      · have := ras.smaller k hk hc; omega
end

theorem mc_spec' (hs : SaneHeap heap) (n : Nat) (c : N × M) (s : Sel)
    (h1 : s.proper heap = true) (h3 : s ≠ .none) : MCSpec heap s c (s.mc heap n c .none) := by
  have := mc_spec hs n c s .none h1 rfl h3
  rwa [extend_none] at this

/-- The selectors that occur while searching with `q`. -/
inductive Residual (heap : Nat → Frag N M) (q : Sel) : Sel → Prop
  | init (n) : Residual heap q (q.simplify heap n).1
  | cont {s n c k} : Residual heap q s → k ∈ (s.mc heap n c .none).conts → Residual heap q k.sel

/-- Selectors with the same list of fragments mean the same, among those that occur while
searching with `q`. -/
def KeysFaithful (heap : Nat → Frag N M) (q : Sel) : Prop :=
  ∀ s t, Residual heap q s → Residual heap q t → s.key = t.key → ∀ w, Lang heap s w ↔ Lang heap t w

/-- Where `m` and selector `s` have been dealt with. -/
def Handled (heap : Nat → Frag N M) (children : M → List (N × M)) (st : St N M) (s : Sel) (m : M) :
    Prop :=
  ∀ c ∈ children m, ∃ n, ((s.mc heap n c .none).hits ≠ [] → c.2 ∈ st.selected) ∧
    ∀ k ∈ (s.mc heap n c .none).conts, (k.sel.key, if k.consume then c.2 else m) ∈ st.explored

/-- A search item is justified: its full name leads to its module, and whatever its selector
describes from there on is described by the query from the root on. -/
def GoodItem (heap : Nat → Frag N M) (children : M → List (N × M)) (q : Sel) (root : M)
    (it : Item N M) : Prop :=
  Residual heap q it.sel ∧ it.sel.proper heap = true ∧ it.sel ≠ .none ∧
    ∃ w, Walk children root w it.result.module ∧ it.result.fullName = w.map Prod.fst ∧
      ∀ v, Lang heap it.sel v → Lang heap q (w ++ v)

/-- The parts of the invariant about items and results. -/
structure Sound (heap : Nat → Frag N M) (children : M → List (N × M)) (q : Sel) (root : M)
    (st : St N M) : Prop where
  items : ∀ it ∈ st.active, GoodItem heap children q root it
  results : ∀ r ∈ st.results, Truthful heap children q root r
  selected : ∀ m, m ∈ st.selected ↔ m ∈ st.results.map Result.module
  nodup : (st.results.map Result.module).Nodup

/-- What `expand` may do to the state: grow it. -/
structure Grows (st st' : St N M) : Prop where
  selected : st.selected ⊆ st'.selected
  explored : st.explored ⊆ st'.explored
  active : ∃ new, st'.active = new ++ st.active
  fresh : ∀ km ∈ st'.explored, km ∈ st.explored ∨
    ∃ it ∈ st'.active, it.sel.key = km.1 ∧ it.result.module = km.2

theorem Grows.refl (st : St N M) : Grows st st :=
  ⟨fun _ h => h, fun _ h => h, ⟨[], rfl⟩, fun _ h => .inl h⟩

theorem Grows.trans {a b c : St N M} (h1 : Grows a b) (h2 : Grows b c) : Grows a c := by
  obtain ⟨n1, e1⟩ := h1.active
  obtain ⟨n2, e2⟩ := h2.active
  refine ⟨h1.selected.trans h2.selected, h1.explored.trans h2.explored,
    ⟨n2 ++ n1, by rw [e2, e1, List.append_assoc]⟩, ?_⟩
  intro km hkm
  rcases h2.fresh km hkm with h | h
  · rcases h1.fresh km h with h | ⟨it, hit, e⟩
    · exact .inl h
    · exact .inr ⟨it, by rw [e2]; exact List.mem_append_right _ hit, e⟩
  · exact .inr h

theorem onHit_ok {q root} {it : Item N M} {c : N × M} {st : St N M} (f : Ref)
    (hit : GoodItem heap children q root it) (hc : c ∈ children it.result.module)
    (hl : Lang heap it.sel [c]) (h : Sound heap children q root st) :
    Sound heap children q root (onHit it c st f) ∧ Grows st (onHit it c st f) ∧
      c.2 ∈ (onHit it c st f).selected := by
  unfold onHit
  by_cases hs : c.2 ∈ st.selected
  · rw [if_pos hs]; exact ⟨h, Grows.refl _, hs⟩
  · rw [if_neg hs]
    obtain ⟨_, _, _, w, hw, hname, hlang⟩ := hit
    refine ⟨⟨h.items, ?_, ?_, ?_⟩, ⟨fun _ h => List.mem_cons_of_mem _ h, fun _ h => h, ⟨[], rfl⟩,
      fun _ h => .inl h⟩, List.mem_cons_self ..⟩
    · intro r hr
      rcases List.mem_append.1 hr with hr | hr
      · exact h.results r hr
      · simp only [List.mem_singleton] at hr
        subst hr
        exact ⟨w, c.1, hw, hc, hlang _ hl, by simp [childResult, hname], rfl⟩
    · intro m
      simp only [List.mem_cons, List.map_append, List.mem_append, h.selected m, List.map_cons,
        List.map_nil, childResult, List.not_mem_nil, or_false]
      tauto
    · rw [List.map_append]
      refine List.Nodup.append h.nodup (by simp) ?_
      intro m h1 h2
      simp [childResult] at h2
      subst h2
      exact hs ((h.selected _).2 h1)

theorem onHits_ok {q root} {it : Item N M} {c : N × M}
    (hit : GoodItem heap children q root it) (hc : c ∈ children it.result.module)
    (fs : List Ref) (hl : fs ≠ [] → Lang heap it.sel [c]) : ∀ {st : St N M},
    Sound heap children q root st →
    Sound heap children q root (fs.foldl (onHit it c) st) ∧ Grows st (fs.foldl (onHit it c) st) ∧
      (fs ≠ [] → c.2 ∈ (fs.foldl (onHit it c) st).selected) := by
  induction fs with
  | nil => intro st h; exact ⟨h, Grows.refl _, by simp⟩
  | cons f fs ih =>
    intro st h
    have hl' := hl (by simp)
    obtain ⟨a1, a2, a3⟩ := onHit_ok f hit hc hl' h
    obtain ⟨b1, b2, _⟩ := ih (fun _ => hl') a1
    exact ⟨b1, a2.trans b2, fun _ => b2.selected a3⟩

theorem onCont_ok {q root} {it : Item N M} {c : N × M} {st : St N M} (k : Cont)
    (hit : GoodItem heap children q root it) (hc : c ∈ children it.result.module)
    (hk1 : Residual heap q k.sel) (hk2 : k.sel.proper heap = true) (hk3 : k.sel ≠ .none)
    (hk : ∀ v, Lang heap k.sel v → Lang heap it.sel (if k.consume then c :: v else v))
    (h : Sound heap children q root st) :
    Sound heap children q root (onCont it c st k) ∧ Grows st (onCont it c st k) ∧
      (k.sel.key, if k.consume then c.2 else it.result.module) ∈ (onCont it c st k).explored := by
  have em : (contResult it c k).module = if k.consume then c.2 else it.result.module := by
    unfold contResult; split <;> rfl
  unfold onCont
  by_cases hs : (k.sel.key, (contResult it c k).module) ∈ st.explored
  · rw [if_pos hs]; exact ⟨h, Grows.refl _, em ▸ hs⟩
  · rw [if_neg hs]
    refine ⟨⟨?_, h.results, h.selected, h.nodup⟩, ⟨fun _ h => h, fun _ h => List.mem_cons_of_mem _ h,
      ⟨[⟨k.sel, contResult it c k⟩], rfl⟩, ?_⟩, ?_⟩
    · intro it' hit'
      rcases List.mem_cons.1 hit' with rfl | hit'
      · obtain ⟨_, _, _, w, hw, hname, hlang⟩ := hit
        refine ⟨hk1, hk2, hk3, ?_⟩
        cases hcon : k.consume with
        | true =>
          refine ⟨w ++ [c], ?_, ?_, ?_⟩
          · simp only [contResult, hcon, if_true, childResult]
            exact hw.append (.down hc (.here _))
          · simp [contResult, hcon, childResult, hname]
          · intro v hv
            have := hk v hv
            rw [hcon] at this
            simpa using hlang _ this
        | false =>
          refine ⟨w, ?_, ?_, ?_⟩
          · simpa [contResult, hcon] using hw
          · simp [contResult, hcon, hname]
          · intro v hv
            have := hk v hv
            rw [hcon] at this
            exact hlang _ this
      · exact h.items it' hit'
    · intro km hkm
      rcases List.mem_cons.1 hkm with rfl | hkm
      · exact .inr ⟨_, List.mem_cons_self .., rfl, rfl⟩
      · exact .inl hkm
    · rw [em]; exact List.mem_cons_self ..

theorem onConts_ok {q root} {it : Item N M} {c : N × M}
    (hit : GoodItem heap children q root it) (hc : c ∈ children it.result.module)
    (ks : List Cont) (hk1 : ∀ k ∈ ks, Residual heap q k.sel)
    (hk2 : ∀ k ∈ ks, k.sel.proper heap = true) (hk3 : ∀ k ∈ ks, k.sel ≠ .none)
    (hk : ∀ k ∈ ks, ∀ v, Lang heap k.sel v → Lang heap it.sel (if k.consume then c :: v else v)) :
    ∀ {st : St N M}, Sound heap children q root st →
    Sound heap children q root (ks.foldl (onCont it c) st) ∧
      Grows st (ks.foldl (onCont it c) st) ∧
      ∀ k ∈ ks, (k.sel.key, if k.consume then c.2 else it.result.module) ∈
        (ks.foldl (onCont it c) st).explored := by
  induction ks with
  | nil => intro st h; exact ⟨h, Grows.refl _, by simp⟩
  | cons k ks ih =>
    intro st h
    obtain ⟨a1, a2, a3⟩ := onCont_ok k hit hc (hk1 k (by simp)) (hk2 k (by simp)) (hk3 k (by simp))
      (hk k (by simp)) h
    obtain ⟨b1, b2, b3⟩ := ih (fun k h => hk1 k (by simp [h])) (fun k h => hk2 k (by simp [h]))
      (fun k h => hk3 k (by simp [h])) (fun k h => hk k (by simp [h])) a1
    refine ⟨b1, a2.trans b2, ?_⟩
    intro k' hk'
    rcases List.mem_cons.1 hk' with rfl | hk'
    · exact b2.explored a3
    · exact b3 k' hk'

theorem simplify_ne_none {n} {s : Sel} (h : s ≠ .none) : (s.simplify heap n).1 ≠ .none := by
  unfold Sel.simplify
  split
  · simp
  · exact h

theorem oneMC_ne_none {n f nx} {c : N × M} {k} (h : k ∈ (oneMC heap n f nx c).conts) :
    k.sel ≠ .none := by
  unfold oneMC at h
  by_cases h0 : (content heap f).isMatch c.1 c.2 = true
  swap
  · simp [h0] at h
  · cases h1 : (content heap f).mustAdvance <;> cases h2 : nx.isSome <;>
      cases h3 : nx.isMultiWildcard heap <;> simp [h0, h1, h2, h3] at h
    all_goals
      have hn : nx.isSome = true → nx ≠ .none := isSome_true.1
      first
        | (subst h; first | (simp; done) | exact simplify_ne_none (hn h2))
        | (rcases h with h | h | h <;> subst h <;>
            first | (simp; done) | exact simplify_ne_none (hn h2))

mutual
theorem mc_ne_none (n : Nat) (c : N × M) (s rest : Sel) {k}
    (h : k ∈ (s.mc heap n c rest).conts) : k.sel ≠ .none := by
  cases s with
  | none => simp [Sel.mc] at h
  | one f nx => exact oneMC_ne_none h
  | multi as nx => exact altsMc_ne_none n c as _ (by simpa [Sel.mc] using h)
theorem altsMc_ne_none (n : Nat) (c : N × M) (as : Alts) (rest : Sel) {k}
    (h : k ∈ (as.mc heap n c rest).conts) : k.sel ≠ .none := by
  cases as with
  | nil => simp [Alts.mc] at h
  | cons a as =>
    simp only [Alts.mc, List.mem_append] at h
    rcases h with h | h
    · exact mc_ne_none n c a rest h
    · exact altsMc_ne_none _ c as rest h
end

theorem onChild_ok (hs : SaneHeap heap) {q root} {it : Item N M} {c : N × M} {st : St N M}
    (hit : GoodItem heap children q root it) (hc : c ∈ children it.result.module)
    (h : Sound heap children q root st) :
    Sound heap children q root (onChild heap it st c) ∧ Grows st (onChild heap it st c) ∧
      ∃ n, ((it.sel.mc heap n c .none).hits ≠ [] → c.2 ∈ (onChild heap it st c).selected) ∧
        ∀ k ∈ (it.sel.mc heap n c .none).conts,
          (k.sel.key, if k.consume then c.2 else it.result.module) ∈
            (onChild heap it st c).explored := by
  have hsp := mc_spec' hs st.next c it.sel hit.2.1 hit.2.2.1
  have h' : Sound heap children q root { st with next := (it.sel.mc heap st.next c .none).next } :=
    ⟨h.items, h.results, h.selected, h.nodup⟩
  have g0 : Grows st { st with next := (it.sel.mc heap st.next c .none).next } :=
    ⟨fun _ h => h, fun _ h => h, ⟨[], rfl⟩, fun _ h => .inl h⟩
  obtain ⟨a1, a2, a3⟩ := onHits_ok hit hc _ hsp.hit_sound h'
  obtain ⟨b1, b2, b3⟩ := onConts_ok hit hc (it.sel.mc heap st.next c .none).conts
    (fun k hk => .cont hit.1 hk) hsp.proper (fun k hk => mc_ne_none _ _ _ _ hk) hsp.cont_sound a1
  exact ⟨b1, (g0.trans a2).trans b2, st.next, fun hh => b2.selected (a3 hh), b3⟩

theorem onChildren_ok (hs : SaneHeap heap) {q root} {it : Item N M}
    (hit : GoodItem heap children q root it) (cs : List (N × M))
    (hc : ∀ c ∈ cs, c ∈ children it.result.module) : ∀ {st : St N M},
    Sound heap children q root st →
    Sound heap children q root (cs.foldl (onChild heap it) st) ∧
      Grows st (cs.foldl (onChild heap it) st) ∧
      ∀ c ∈ cs, ∃ n, ((it.sel.mc heap n c .none).hits ≠ [] →
          c.2 ∈ (cs.foldl (onChild heap it) st).selected) ∧
        ∀ k ∈ (it.sel.mc heap n c .none).conts,
          (k.sel.key, if k.consume then c.2 else it.result.module) ∈
            (cs.foldl (onChild heap it) st).explored := by
  induction cs with
  | nil => intro st h; exact ⟨h, Grows.refl _, by simp⟩
  | cons c cs ih =>
    intro st h
    obtain ⟨a1, a2, n, a3, a4⟩ := onChild_ok hs hit (hc c (by simp)) h
    obtain ⟨b1, b2, b3⟩ := ih (fun c h => hc c (by simp [h])) a1
    refine ⟨b1, a2.trans b2, ?_⟩
    intro c' hc'
    rcases List.mem_cons.1 hc' with rfl | hc'
    · exact ⟨n, fun hh => b2.selected (a3 hh), fun k hk => b2.explored (a4 k hk)⟩
    · exact b3 c' hc'

/-- The loop invariant. -/
structure Inv (heap : Nat → Frag N M) (children : M → List (N × M)) (q : Sel) (root : M)
    (st : St N M) : Prop where
  sound : Sound heap children q root st
  explored : ∀ km ∈ st.explored, ∃ s, s.key = km.1 ∧ Residual heap q s ∧
    s.proper heap = true ∧ s ≠ .none ∧
    ((∃ it ∈ st.active, it.sel = s ∧ it.result.module = km.2) ∨ Handled heap children st s km.2)
  start : ∃ n, ((q.simplify heap n).1.key, root) ∈ st.explored

theorem Handled.mono {st st' : St N M} {s m} (h1 : st.selected ⊆ st'.selected)
    (h2 : st.explored ⊆ st'.explored) (h : Handled heap children st s m) :
    Handled heap children st' s m := by
  intro c hc
  obtain ⟨n, a, b⟩ := h c hc
  exact ⟨n, fun x => h1 (a x), fun k hk => h2 (b k hk)⟩

theorem expand_inv (hs : SaneHeap heap) {q root} {st : St N M} {it rest}
    (ha : st.active = it :: rest) (h : Inv heap children q root st) :
    Inv heap children q root (expand heap children it { st with active := rest }) ∧
      Grows { st with active := rest } (expand heap children it { st with active := rest }) := by
  have hit : GoodItem heap children q root it := h.sound.items it (by rw [ha]; simp)
  have h0 : Sound heap children q root { st with active := rest } :=
    ⟨fun it' h' => h.sound.items it' (by rw [ha]; exact List.mem_cons_of_mem _ h'), h.sound.results,
      h.sound.selected, h.sound.nodup⟩
  obtain ⟨a1, a2, a3⟩ := onChildren_ok hs hit _ (fun c h => h) h0
  refine ⟨⟨a1, ?_, ?_⟩, a2⟩
  · intro km hkm
    rcases a2.fresh km hkm with hk | ⟨it', hit', e1, e2⟩
    · obtain ⟨s, e1, e2, e3, e4, e5⟩ := h.explored km hk
      refine ⟨s, e1, e2, e3, e4, ?_⟩
      rcases e5 with ⟨it', hit', e5, e6⟩ | e5
      · rw [ha] at hit'
        rcases List.mem_cons.1 hit' with rfl | hit'
        · right
          subst e5
          rw [← e6]
          exact a3
        · left
          obtain ⟨new, en⟩ := a2.active
          exact ⟨it', by rw [expand, en]; exact List.mem_append_right _ hit', e5, e6⟩
      · exact .inr (e5.mono a2.selected a2.explored)
    · obtain ⟨g1, g2, g3, _⟩ := a1.items it' hit'
      exact ⟨it'.sel, e1, g1, g2, g3, .inl ⟨it', hit', rfl, e2⟩⟩
  · obtain ⟨n, hn⟩ := h.start
    exact ⟨n, a2.explored hn⟩

theorem loop_inv (hs : SaneHeap heap) {q root} : ∀ (fuel : Nat) {st st' : St N M},
    Inv heap children q root st → loop heap children fuel st = some st' →
    Inv heap children q root st' ∧ st'.active = [] := by
  intro fuel
  induction fuel with
  | zero =>
    intro st st' h e
    unfold loop at e
    split at e
    · rename_i ha
      simp only [Option.some.injEq] at e
      subst e
      exact ⟨h, ha⟩
    · simp at e
  | succ fuel ih =>
    intro st st' h e
    unfold loop at e
    split at e
    · rename_i ha
      simp only [Option.some.injEq] at e
      subst e
      exact ⟨h, ha⟩
    · rename_i it rest ha
      exact ih (expand_inv hs ha h).1 e

theorem start_inv {q : Sel} {root : M} (hq : q ≠ .none) (hp : q.proper heap = true) :
    Inv heap children q root (start heap q root) := by
  have hl := lang_simplify heap 0 q hp
  have hi : Residual heap q (q.simplify heap 0).1 := .init 0
  have hpp := proper_simplify heap 0 q hp
  have hne : (q.simplify heap 0).1 ≠ .none := simplify_ne_none hq
  refine ⟨⟨?_, by simp [start], by simp [start], by simp [start]⟩, ?_, 0, by simp [start]⟩
  · intro it hit
    simp [start] at hit
    subst hit
    exact ⟨hi, hpp, hne, [], .here _, rfl, fun v hv => (hl v).1 hv⟩
  · intro km hkm
    simp [start] at hkm
    subst hkm
    exact ⟨_, rfl, hi, hpp, hne, .inl ⟨_, by simp [start]; rfl, rfl, rfl⟩⟩

/-- When the loop has ended, everything the query describes has been selected. -/
theorem complete_of_inv (hs : SaneHeap heap) {q root} {st : St N M} (hk : KeysFaithful heap q)
    (h : Inv heap children q root st) (ha : st.active = []) :
    ∀ (len lv : Nat) (s : Sel) (m m' : M) (w : List (N × M)), w.length = len → s.leaves = lv →
      (s.key, m) ∈ st.explored → Residual heap q s → w ≠ [] → Walk children m w m' →
      Lang heap s w → m' ∈ st.selected := by
  intro len
  induction len using Nat.strongRecOn with
  | ind len ihl =>
  intro lv
  induction lv using Nat.strongRecOn with
  | ind lv ihv =>
  intro s m m' w hlen hlv hex hres hw0 hwalk hlang
  obtain ⟨t, e1, e2, e3, e4, e5⟩ := h.explored _ hex
  have hdone : Handled heap children st t m := by
    rcases e5 with ⟨it, hit, _⟩ | e5
    · rw [ha] at hit; cases hit
    · exact e5
  have hlang' : Lang heap t w := (hk t s e2 hres e1 w).2 hlang
  have hlv' : t.leaves = lv := by
    rw [← hlv, ← key_leaves, ← key_leaves, e1]
  cases hwalk with
  | here _ => exact absurd rfl hw0
  | @down _ n c v _ hmem hrest =>
  obtain ⟨k0, d1, d2⟩ := hdone (n, c) hmem
  rcases (mc_spec' hs k0 (n, c) t e3 e4).complete v hlang' with ⟨q1, q2⟩ | ⟨q0, k, q1, q2, q3⟩ |
    ⟨k, q1, q2, q3, q4⟩
  · subst q1
    cases hrest with
    | here _ => exact d1 q2
  · have := d2 k q1
    rw [q2] at this
    exact ihl v.length (by rw [← hlen]; simp) _ k.sel c m' v rfl rfl this (.cont e2 q1) q0 hrest q3
  · have := d2 k q1
    rw [q2] at this
    exact ihv k.sel.leaves (by omega) k.sel m m' _ hlen rfl this (.cont e2 q1) (by simp)
      (.down hmem hrest) q4

/-- Partial correctness: whatever `search` returns is right. -/
theorem returns_exact {q : Sel} {root : M} {rs : List (Result N M)} (hs : SaneHeap heap)
    (hq : q ≠ .none) (hp : q.proper heap = true) (hk : KeysFaithful heap q)
    (h : Returns heap children q root rs) :
    (∀ m, m ∈ rs.map Result.module ↔ Selected heap children q root m) ∧
    (rs.map Result.module).Nodup ∧ ∀ r ∈ rs, Truthful heap children q root r := by
  obtain ⟨fuel, h⟩ := h
  simp only [search, Option.map_eq_some_iff] at h
  obtain ⟨st, h1, rfl⟩ := h
  obtain ⟨hinv, ha⟩ := loop_inv hs fuel (start_inv hq hp) h1
  refine ⟨fun m => ⟨?_, ?_⟩, hinv.sound.nodup, hinv.sound.results⟩
  · intro hm
    obtain ⟨r, hr, rfl⟩ := List.mem_map.1 hm
    obtain ⟨w, n, g1, g2, g3, _⟩ := hinv.sound.results r hr
    exact ⟨w ++ [(n, r.module)], by simp, g1.append (.down g2 (.here _)), g3⟩
  · rintro ⟨w, h0, hw, hl⟩
    rw [← hinv.sound.selected]
    obtain ⟨n, hn⟩ := hinv.start
    exact complete_of_inv hs hk hinv ha _ _ _ root m w rfl rfl hn (.init n) h0 hw
      ((lang_simplify heap n q hp w).2 hl)

/-! ### Termination -/

/-- The items an expansion adds are all smaller than the expanded one. -/
def Below (rank : M → Nat) (it it' : Item N M) : Prop :=
  rank it'.result.module < rank it.result.module ∨
    (it'.result.module = it.result.module ∧ it'.sel.leaves < it.sel.leaves)

/-- Selector and module of an item are fit for search. -/
def Fit (heap : Nat → Frag N M) (it : Item N M) : Prop :=
  it.sel.proper heap = true ∧ it.sel ≠ .none

theorem onHits_active (it : Item N M) (c : N × M) (fs : List Ref) : ∀ st : St N M,
    (fs.foldl (onHit it c) st).active = st.active := by
  induction fs with
  | nil => intro st; rfl
  | cons f fs ih =>
    intro st
    rw [List.foldl_cons, ih]
    unfold onHit
    split <;> rfl

theorem onConts_active (it : Item N M) (c : N × M) (ks : List Cont) : ∀ st : St N M,
    ∃ new, (ks.foldl (onCont it c) st).active = new ++ st.active ∧
      ∀ it' ∈ new, ∃ k ∈ ks, it' = ⟨k.sel, contResult it c k⟩ := by
  induction ks with
  | nil => intro st; exact ⟨[], rfl, by simp⟩
  | cons k ks ih =>
    intro st
    obtain ⟨new, e, hnew⟩ := ih (onCont it c st k)
    rw [List.foldl_cons]
    unfold onCont at e ⊢
    split at e
    · rename_i hs
      rw [if_pos hs]
      exact ⟨new, e, fun it' h => by obtain ⟨k', hk', e'⟩ := hnew it' h; exact ⟨k', by simp [hk'], e'⟩⟩
    · rename_i hs
      rw [if_neg hs]
      refine ⟨new ++ [⟨k.sel, contResult it c k⟩], by rw [e]; simp, ?_⟩
      intro it' h
      rcases List.mem_append.1 h with h | h
      · obtain ⟨k', hk', e'⟩ := hnew it' h; exact ⟨k', by simp [hk'], e'⟩
      · simp at h; exact ⟨k, by simp, h⟩

theorem onChildren_active (hs : SaneHeap heap) {rank : M → Nat} {it : Item N M} (hf : Fit heap it)
    (cs : List (N × M)) (hr : ∀ c ∈ cs, rank c.2 < rank it.result.module) : ∀ st : St N M,
    ∃ new, (cs.foldl (onChild heap it) st).active = new ++ st.active ∧
      ∀ it' ∈ new, Below rank it it' ∧ Fit heap it' := by
  induction cs with
  | nil => intro st; exact ⟨[], rfl, by simp⟩
  | cons c cs ih =>
    intro st
    obtain ⟨new, e, hnew⟩ := ih (fun c h => hr c (by simp [h])) (onChild heap it st c)
    have hsp := mc_spec' hs st.next c it.sel hf.1 hf.2
    obtain ⟨new', e', hnew'⟩ := onConts_active it c (it.sel.mc heap st.next c .none).conts
      ((it.sel.mc heap st.next c .none).hits.foldl (onHit it c)
        { st with next := (it.sel.mc heap st.next c .none).next })
    rw [onHits_active] at e'
    refine ⟨new ++ new', ?_, ?_⟩
    · rw [List.foldl_cons, e]
      show new ++ (onChild heap it st c).active = _
      rw [show (onChild heap it st c).active = new' ++ st.active from e', List.append_assoc]
    · intro it' h
      rcases List.mem_append.1 h with h | h
      · exact hnew it' h
      · obtain ⟨k, hk, rfl⟩ := hnew' it' h
        refine ⟨?_, hsp.proper k hk, mc_ne_none _ _ _ _ hk⟩
        cases hc : k.consume with
        | true =>
          left
          simpa [contResult, hc, childResult] using hr c (by simp)
        | false =>
          right
          exact ⟨by simp [contResult, hc], hsp.smaller k hk hc⟩

/-- Everything on top of the stack is worked off. -/
theorem item_finishes (hs : SaneHeap heap) {rank : M → Nat}
    (hr : ∀ m, ∀ c ∈ children m, rank c.2 < rank m) :
    ∀ (rk lv : Nat) (it : Item N M), rank it.result.module = rk → it.sel.leaves = lv →
      Fit heap it → ∀ (st : St N M) (rest), st.active = it :: rest →
      ∃ k st', st'.active = rest ∧
        ∀ fuel, loop heap children (k + fuel) st = loop heap children fuel st' := by
  intro rk
  induction rk using Nat.strongRecOn with
  | ind rk ihr =>
  intro lv
  induction lv using Nat.strongRecOn with
  | ind lv ihv =>
  intro it hrk hlv hf st rest ha
  obtain ⟨new, e, hnew⟩ := onChildren_active hs hf (children it.result.module)
    (fun c hc => hr _ c hc) { st with active := rest }
  -- work off the items that were added
  have key : ∀ (new : List (Item N M)), (∀ it' ∈ new, Below rank it it' ∧ Fit heap it') →
      ∀ st : St N M, st.active = new ++ rest → ∃ k st', st'.active = rest ∧
        ∀ fuel, loop heap children (k + fuel) st = loop heap children fuel st' := by
    intro new
    induction new with
    | nil => intro _ st hst; exact ⟨0, st, hst, fun fuel => by rw [Nat.zero_add]⟩
    | cons a new ihn =>
      intro hnew st hst
      obtain ⟨hb, hfa⟩ := hnew a (by simp)
      have : ∃ k st', st'.active = new ++ rest ∧
          ∀ fuel, loop heap children (k + fuel) st = loop heap children fuel st' := by
        rcases hb with hb | ⟨hb1, hb2⟩
        · exact ihr _ (by rw [← hrk]; exact hb) _ a rfl rfl hfa st _ hst
        · exact ihv _ (by rw [← hlv]; exact hb2) a (by rw [hb1]; exact hrk) rfl hfa st _ hst
      obtain ⟨k1, st1, e1, h1⟩ := this
      obtain ⟨k2, st2, e2, h2⟩ := ihn (fun it' h => hnew it' (by simp [h])) st1 e1
      exact ⟨k1 + k2, st2, e2, fun fuel => by rw [Nat.add_assoc, h1, h2]⟩
  obtain ⟨k, st', e', h'⟩ := key new hnew (expand heap children it { st with active := rest }) e
  refine ⟨k + 1, st', e', fun fuel => ?_⟩
  rw [show k + 1 + fuel = (k + fuel) + 1 by omega, ← h' fuel]
  conv_lhs => unfold loop
  rw [ha]

theorem loop_more {fuel : Nat} : ∀ {st st' : St N M}, loop heap children fuel st = some st' →
    ∀ fuel' ≥ fuel, loop heap children fuel' st = some st' := by
  induction fuel with
  | zero =>
    intro st st' h fuel' _
    unfold loop at h
    split at h
    · rename_i ha
      cases fuel' <;> (unfold loop; rw [ha]; exact h)
    · simp at h
  | succ fuel ih =>
    intro st st' h fuel' hf
    obtain ⟨f, rfl⟩ : ∃ f, fuel' = f + 1 := ⟨fuel' - 1, by omega⟩
    unfold loop at h ⊢
    split at h
    · exact h
    · exact ih h f (by omega)

theorem Returns.unique {q : Sel} {root : M} {rs rs'} (h : Returns heap children q root rs)
    (h' : Returns heap children q root rs') : rs = rs' := by
  obtain ⟨f, h⟩ := h
  obtain ⟨f', h'⟩ := h'
  simp only [search, Option.map_eq_some_iff] at h h'
  obtain ⟨st, h, rfl⟩ := h
  obtain ⟨st', h', rfl⟩ := h'
  have a := loop_more h (max f f') (by omega)
  have b := loop_more h' (max f f') (by omega)
  rw [a] at b
  simp at b; rw [b]

theorem search_returns {q : Sel} {root : M} (hs : SaneHeap heap)
    (hq : q ≠ .none) (hp : q.proper heap = true) (hc : Acyclic children) :
    ∃ rs, Returns heap children q root rs := by
  obtain ⟨rank, hr⟩ := hc
  obtain ⟨k, st', e, h⟩ := item_finishes hs hr _ _ ⟨(q.simplify heap 0).1, rootResult root⟩ rfl rfl
    ⟨proper_simplify heap 0 q hp, simplify_ne_none hq⟩ (start heap q root) [] rfl
  refine ⟨st'.results, k + 0, ?_⟩
  rw [search, h 0]
  unfold loop
  rw [e]; rfl

/-! ### Selectors without braces -/

theorem Plain.proper {s : Sel} (h : Plain s) : s.proper heap = true := by
  induction h with
  | none => rfl
  | one _ ih => exact ih

theorem Plain.removeRoot {s : Sel} (h : Plain s) : Plain (s.removeRoot heap) := by
  induction h with
  | none => exact .none
  | one h ih =>
    simp only [Sel.removeRoot]
    split
    · exact .one h
    · exact ih

theorem Plain.simplify {s : Sel} (h : Plain s) (n) : Plain (s.simplify heap n).1 := by
  unfold Sel.simplify
  split
  · exact .one h.removeRoot
  · exact h

theorem Plain.key_inj {s t : Sel} (hs : Plain s) (ht : Plain t) (h : s.key = t.key) : s = t := by
  induction hs generalizing t with
  | none =>
    cases ht with
    | none => rfl
    | one _ => simp [Sel.key] at h
  | one _ ih =>
    cases ht with
    | none => simp [Sel.key] at h
    | one ht =>
      simp [Sel.key] at h
      rw [h.1, ih ht h.2]

theorem Plain.oneMC {n f nx} {c : N × M} (h : Plain nx) {k} (hk : k ∈ (oneMC heap n f nx c).conts) :
    Plain k.sel := by
  unfold FF.MPath.oneMC at hk
  by_cases h0 : (content heap f).isMatch c.1 c.2 = true
  swap
  · simp [h0] at hk
  · cases h1 : (content heap f).mustAdvance <;> cases h2 : nx.isSome <;>
      cases h3 : nx.isMultiWildcard heap <;> simp [h0, h1, h2, h3] at hk
    all_goals
      first
        | (subst hk; first | exact .one h | exact h.simplify _)
        | (rcases hk with hk | hk | hk <;> subst hk <;> first | exact .one h | exact h.simplify _)

theorem Plain.residual {q s : Sel} (hq : Plain q) (h : Residual heap q s) : Plain s := by
  induction h with
  | init n => exact hq.simplify n
  | @cont s n c k _ hk ih =>
    cases ih with
    | none => simp [Sel.mc] at hk
    | one h => exact Plain.oneMC (by rw [extend_none]; exact h) hk

theorem Plain.keysFaithful {q : Sel} (hq : Plain q) : KeysFaithful heap q := by
  intro s t hs ht e w
  rw [Plain.key_inj (hq.residual hs) (hq.residual ht) e]

/-! ## Properties -/

/-- **C34.** For every query without braces — any sequence of names, `*`, `**`, regular
expressions, classes, predicates, conjunctions, disjunctions and negations — and every module
hierarchy, `search` returns, and the modules in its result are exactly those reached from the root
along a (non-empty) path the query describes.  Each module occurs once, and each result's full
name, parent and attribute name describe such a path.  (`~~**` is excluded: it is neither a
one-step fragment nor `**`.) -/
theorem search_exact (hs : SaneHeap heap) {q : Sel} (hq : q ≠ .none) (hp : Plain q)
    (hc : Acyclic children) (root : M) :
    ∃ rs, Returns heap children q root rs ∧ (∀ rs', Returns heap children q root rs' → rs' = rs) ∧
      (∀ m, m ∈ rs.map Result.module ↔ Selected heap children q root m) ∧
      (rs.map Result.module).Nodup ∧ ∀ r ∈ rs, Truthful heap children q root r := by
  obtain ⟨rs, h⟩ := search_returns (root := root) hs hq (hp.proper) hc
  exact ⟨rs, h, fun rs' h' => h'.unique h, returns_exact hs hq hp.proper hp.keysFaithful h⟩

/-- **C34.** Also on hierarchies in which a module contains itself, whatever `search` returns is
exact. -/
theorem search_exact_cyclic (hs : SaneHeap heap) {q : Sel} (hq : q ≠ .none) (hp : Plain q)
    {root : M} {rs : List (Result N M)} (h : Returns heap children q root rs) :
    (∀ m, m ∈ rs.map Result.module ↔ Selected heap children q root m) ∧
    (rs.map Result.module).Nodup ∧ ∀ r ∈ rs, Truthful heap children q root r :=
  returns_exact hs hq hp.proper hp.keysFaithful h

end FF.MPath
