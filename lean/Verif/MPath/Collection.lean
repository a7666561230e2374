/-
Set operations on search results: `MPathCollection` (mpath/_search.py:45-222).

Simplification: a collection built from a Python `set` has the elements in an unspecified order; the
model lists them in order of first occurrence.  No statement below depends on the order.
-/
import Verif.MPath.SearchProps

set_option linter.unusedSectionVars false

namespace FF.MPath

variable {N M : Type} [DecidableEq N] [DecidableEq M]

/-! ## Model -/

/-- Equality of `FilterResult`s: a dataclass compares full name, module, parent and parent
attribute; `fragment_matches` has `compare=False` (_search.py:19-25).  Modules compare by
identity. -/
def Result.same (r s : Result N M) : Bool :=
  decide (r.fullName = s.fullName ∧ r.module = s.module ∧ r.parent = s.parent ∧
    r.parentAttribute = s.parentAttribute)

/-- `x in set(l)`. -/
def has (l : List (Result N M)) (r : Result N M) : Bool := l.any (fun s => s.same r)

/-- `set(l)`: the first of several equal elements is kept. -/
def pySet (l : List (Result N M)) : List (Result N M) :=
  l.foldl (fun acc r => if has acc r then acc else acc ++ [r]) []

/-- `MPathCollection`: _search.py:45-57. -/
structure Coll (N M : Type) where
  root : M
  results : List (Result N M)

/-- `_check_same_root`: _search.py:152-157; `ValueError` is `none`. -/
def withRoot (a b : Coll N M) (l : List (Result N M)) : Option (Coll N M) :=
  if a.root = b.root then some ⟨a.root, l⟩ else none

/-- `union` / `|`: _search.py:165-177. -/
def Coll.union (a b : Coll N M) : Option (Coll N M) :=
  withRoot a b (pySet (pySet a.results ++ pySet b.results))

/-- `intersection` / `&`: _search.py:179-191. -/
def Coll.inter (a b : Coll N M) : Option (Coll N M) :=
  withRoot a b ((pySet a.results).filter (fun r => has (pySet b.results) r))

/-- `difference` / `-`: _search.py:193-205. -/
def Coll.diff (a b : Coll N M) : Option (Coll N M) :=
  withRoot a b ((pySet a.results).filter (fun r => !(has (pySet b.results) r)))

/-- `symmetric_difference` / `^`: _search.py:207-219. -/
def Coll.symm (a b : Coll N M) : Option (Coll N M) :=
  withRoot a b ((pySet a.results).filter (fun r => !(has (pySet b.results) r)) ++
    (pySet b.results).filter (fun r => !(has (pySet a.results) r)))

/-! ## Specification -/

/-- The modules of a collection. -/
def Coll.modules (a : Coll N M) : List M := a.results.map Result.module

/-- Every module below `root` is reached by one path only (no module object is shared). -/
def UniquePaths (children : M → List (N × M)) (root : M) : Prop :=
  ∀ m w w', Walk children root w m → Walk children root w' m → w = w'

/-- A result that names a path from the root to its module. -/
def Located (children : M → List (N × M)) (root : M) (r : Result N M) : Prop :=
  ∃ w n, Walk children root w r.parent ∧ (n, r.module) ∈ children r.parent ∧
    r.fullName = (w ++ [(n, r.module)]).map Prod.fst ∧ r.parentAttribute = some n

/-- A collection of results found below its root. -/
def Coll.Genuine (children : M → List (N × M)) (a : Coll N M) : Prop :=
  ∀ r ∈ a.results, Located children a.root r

/-- `c` is a collection over the same root, without duplicates, containing exactly the modules
in `S`. -/
def IsModuleSet (children : M → List (N × M)) (root : M) (c : Coll N M) (S : M → Prop) : Prop :=
  c.root = root ∧ c.Genuine children ∧ c.modules.Nodup ∧ ∀ m, m ∈ c.modules ↔ S m

/-! ## Lemmas -/

variable {children : M → List (N × M)}

theorem Truthful.located {heap : Nat → Frag N M} {q root} {r : Result N M}
    (h : Truthful heap children q root r) : Located children root r := by
  obtain ⟨w, n, h1, h2, _, h4, h5⟩ := h
  exact ⟨w, n, h1, h2, h4, h5⟩

theorem same_iff {r s : Result N M} : r.same s = true ↔ r.fullName = s.fullName ∧
    r.module = s.module ∧ r.parent = s.parent ∧ r.parentAttribute = s.parentAttribute := by
  simp [Result.same]

theorem same_of_module {root : M} (hu : UniquePaths children root) {r s : Result N M}
    (hr : Located children root r) (hs : Located children root s) (h : r.module = s.module) :
    r.same s = true := by
  obtain ⟨w, n, h1, h2, h3, h4⟩ := hr
  obtain ⟨w', n', h1', h2', h3', h4'⟩ := hs
  have e := hu r.module _ _ (h1.append (.down h2 (.here _)))
    (h ▸ h1'.append (.down h2' (.here _)))
  obtain ⟨e1, e2⟩ := List.append_inj' e rfl
  simp at e2
  subst e1
  have hp : r.parent = s.parent := by
    have det : ∀ {a w b b'}, Walk children a w b → Walk children a w b' → b = b' := by
      intro a w b b' hw
      induction hw with
      | here _ => intro h; cases h; rfl
      | down _ _ ih => intro h; cases h with | down _ h => exact ih h
    exact det h1 h1'
  exact same_iff.2 ⟨by rw [h3, h3', e2, h], h, hp, by rw [h4, h4', e2]⟩

theorem has_iff {root : M} (hu : UniquePaths children root) {l : List (Result N M)}
    (hl : ∀ r ∈ l, Located children root r) {r : Result N M} (hr : Located children root r) :
    has l r = true ↔ r.module ∈ l.map Result.module := by
  simp only [has, List.any_eq_true, List.mem_map]
  constructor
  · rintro ⟨s, hs, e⟩; exact ⟨s, hs, (same_iff.1 e).2.1⟩
  · rintro ⟨s, hs, e⟩; exact ⟨s, hs, same_of_module hu (hl s hs) hr e⟩

theorem pySet_spec {root : M} (hu : UniquePaths children root) {l : List (Result N M)}
    (hl : ∀ r ∈ l, Located children root r) :
    (∀ r ∈ pySet l, Located children root r) ∧ ((pySet l).map Result.module).Nodup ∧
      ∀ m, m ∈ (pySet l).map Result.module ↔ m ∈ l.map Result.module := by
  have gen : ∀ (l acc : List (Result N M)), (∀ r ∈ l, Located children root r) →
      (∀ r ∈ acc, Located children root r) → (acc.map Result.module).Nodup →
      let out := l.foldl (fun acc r => if has acc r then acc else acc ++ [r]) acc
      (∀ r ∈ out, Located children root r) ∧ (out.map Result.module).Nodup ∧
        ∀ m, m ∈ out.map Result.module ↔ m ∈ acc.map Result.module ∨ m ∈ l.map Result.module := by
    intro l
    induction l with
    | nil => intro acc _ h2 h3; exact ⟨h2, h3, by simp⟩
    | cons r l ih =>
      intro acc h1 h2 h3
      have hr := h1 r (by simp)
      have hh := has_iff hu h2 hr
      simp only [List.foldl_cons]
      by_cases hc : has acc r = true
      · rw [if_pos hc]
        obtain ⟨g1, g2, g3⟩ := ih acc (fun s h => h1 s (by simp [h])) h2 h3
        refine ⟨g1, g2, fun m => ?_⟩
        rw [g3, List.map_cons, List.mem_cons]
        constructor
        · rintro (h | h); exacts [.inl h, .inr (.inr h)]
        · rintro (h | h | h)
          · exact .inl h
          · exact .inl (h ▸ hh.1 hc)
          · exact .inr h
      · rw [if_neg hc]
        obtain ⟨g1, g2, g3⟩ := ih (acc ++ [r]) (fun s h => h1 s (by simp [h]))
          (fun s h => by
            rcases List.mem_append.1 h with h | h
            · exact h2 s h
            · simp at h; exact h ▸ hr)
          (by
            rw [List.map_append]
            refine List.Nodup.append h3 (by simp) ?_
            intro m ha hb
            simp at hb
            subst hb
            exact hc (hh.2 ha))
        refine ⟨g1, g2, fun m => ?_⟩
        rw [g3]
        simp [or_assoc]
  obtain ⟨g1, g2, g3⟩ := gen l [] hl (by simp) (by simp)
  exact ⟨g1, g2, fun m => by rw [pySet, g3]; simp⟩

theorem filter_modules {l : List (Result N M)} {p : Result N M → Bool} {S : M → Prop}
    (h : ∀ r ∈ l, p r = true ↔ S r.module) :
    ∀ m, m ∈ (l.filter p).map Result.module ↔ m ∈ l.map Result.module ∧ S m := by
  intro m
  simp only [List.mem_map, List.mem_filter]
  constructor
  · rintro ⟨r, ⟨h1, h2⟩, rfl⟩; exact ⟨⟨r, h1, rfl⟩, (h r h1).1 h2⟩
  · rintro ⟨⟨r, h1, rfl⟩, h2⟩; exact ⟨r, ⟨h1, (h r h1).2 h2⟩, rfl⟩

theorem filter_modules_nodup {l : List (Result N M)} (p : Result N M → Bool)
    (h : (l.map Result.module).Nodup) : ((l.filter p).map Result.module).Nodup :=
  h.sublist (List.filter_sublist.map _)

/-! ## Properties -/

/-- Search results are genuine collections. -/
theorem search_genuine {heap : Nat → Frag N M} (hs : SaneHeap heap) {q : Sel} (hq : q ≠ .none)
    (hp : Plain q) {root : M} {rs : List (Result N M)} (h : Returns heap children q root rs) :
    (Coll.mk root rs).Genuine children :=
  fun r hr => ((search_exact_cyclic hs hq hp h).2.2 r hr).located

/-- **C37** (for hierarchies without shared modules).  Union, intersection, difference and symmetric
difference of two collections found below the same root contain exactly the modules that set theory
prescribes, each once, and are again such collections. -/
theorem set_operations_partial {a b : Coll N M} (hroot : a.root = b.root)
    (hu : UniquePaths children a.root) (ha : a.Genuine children) (hb : b.Genuine children) :
    (∃ c, a.union b = some c ∧
      IsModuleSet children a.root c (fun m => m ∈ a.modules ∨ m ∈ b.modules)) ∧
    (∃ c, a.inter b = some c ∧
      IsModuleSet children a.root c (fun m => m ∈ a.modules ∧ m ∈ b.modules)) ∧
    (∃ c, a.diff b = some c ∧
      IsModuleSet children a.root c (fun m => m ∈ a.modules ∧ m ∉ b.modules)) ∧
    (∃ c, a.symm b = some c ∧
      IsModuleSet children a.root c
        (fun m => (m ∈ a.modules ∧ m ∉ b.modules) ∨ (m ∈ b.modules ∧ m ∉ a.modules))) := by
  have hb' : ∀ r ∈ b.results, Located children a.root r := fun r hr => hroot ▸ hb r hr
  obtain ⟨a1, a2, a3⟩ := pySet_spec hu ha
  obtain ⟨b1, b2, b3⟩ := pySet_spec hu hb'
  have hinb : ∀ r ∈ pySet a.results, has (pySet b.results) r = true ↔ r.module ∈ b.modules :=
    fun r hr => (has_iff hu b1 (a1 r hr)).trans (b3 _)
  have hnotb : ∀ r ∈ pySet a.results,
      (!(has (pySet b.results) r)) = true ↔ r.module ∉ b.modules := by
    intro r hr; rw [← hinb r hr]; simp
  have hnota : ∀ r ∈ pySet b.results,
      (!(has (pySet a.results) r)) = true ↔ r.module ∉ a.modules := by
    intro r hr
    have : has (pySet a.results) r = true ↔ r.module ∈ a.modules :=
      (has_iff hu a1 (b1 r hr)).trans (a3 _)
    rw [← this]; simp
  refine ⟨⟨_, if_pos hroot, rfl, ?_⟩,
    ⟨_, if_pos hroot, rfl, ?_⟩,
    ⟨_, if_pos hroot, rfl, ?_⟩,
    ⟨_, if_pos hroot, rfl, ?_⟩⟩
  · have hab : ∀ r ∈ pySet a.results ++ pySet b.results, Located children a.root r := by
      intro r hr
      rcases List.mem_append.1 hr with hr | hr
      · exact a1 r hr
      · exact b1 r hr
    obtain ⟨c1, c2, c3⟩ := pySet_spec hu hab
    refine ⟨c1, c2, fun m => (c3 m).trans ?_⟩
    rw [List.map_append, List.mem_append, a3, b3]; rfl
  · refine ⟨fun r hr => a1 r (List.mem_of_mem_filter hr), filter_modules_nodup _ a2, fun m => ?_⟩
    refine (filter_modules hinb m).trans ?_
    rw [a3]; rfl
  · refine ⟨fun r hr => a1 r (List.mem_of_mem_filter hr), filter_modules_nodup _ a2, fun m => ?_⟩
    refine (filter_modules (S := fun m => m ∉ b.modules) hnotb m).trans ?_
    rw [a3]; rfl
  · have m1 := filter_modules (S := fun m => m ∉ b.modules) hnotb
    have m2 := filter_modules (S := fun m => m ∉ a.modules) hnota
    refine ⟨?_, ?_, fun m => ?_⟩
    · intro r hr
      rcases List.mem_append.1 hr with hr | hr
      · exact a1 r (List.mem_of_mem_filter hr)
      · exact b1 r (List.mem_of_mem_filter hr)
    · simp only [Coll.modules, List.map_append]
      refine List.Nodup.append (filter_modules_nodup _ a2) (filter_modules_nodup _ b2) ?_
      intro m h1 h2
      exact ((m2 m).1 h2).2 ((a3 m).1 ((m1 m).1 h1).1)
    · simp only [Coll.modules, List.map_append, List.mem_append]
      rw [m1, m2, a3, b3]; rfl

/-- **C37.** Collections over different roots cannot be combined. -/
theorem different_roots_rejected {a b : Coll N M} (h : a.root ≠ b.root) :
    a.union b = none ∧ a.inter b = none ∧ a.diff b = none ∧ a.symm b = none := by
  simp [Coll.union, Coll.inter, Coll.diff, Coll.symm, withRoot, h]

/-! ## Concrete cases -/

/-- Root 0 with children 1 (named 10) and 2 (named 11); 1 has child 3, and so has 2 if `shared`. -/
def small (shared : Bool) : Nat → List (Nat × Nat)
  | 0 => [(10, 1), (11, 2)]
  | 1 => [(12, 3)]
  | 2 => if shared then [(12, 3)] else []
  | _ => []

theorem small_unique : UniquePaths (small false) 0 := by
  have h3 : ∀ w m, Walk (small false) 3 w m → w = [] ∧ m = 3 := by
    intro w m h; cases h with
    | here _ => exact ⟨rfl, rfl⟩
    | down h _ => simp [small] at h
  have h2 : ∀ w m, Walk (small false) 2 w m → w = [] ∧ m = 2 := by
    intro w m h; cases h with
    | here _ => exact ⟨rfl, rfl⟩
    | down h _ => simp [small] at h
  have h1 : ∀ w m, Walk (small false) 1 w m → (w = [] ∧ m = 1) ∨ (w = [(12, 3)] ∧ m = 3) := by
    intro w m h; cases h with
    | here _ => exact .inl ⟨rfl, rfl⟩
    | down h hw =>
      simp [small] at h
      obtain ⟨rfl, rfl⟩ := h
      obtain ⟨rfl, rfl⟩ := h3 _ _ hw
      exact .inr ⟨rfl, rfl⟩
  have h0 : ∀ w m, Walk (small false) 0 w m → (w = [] ∧ m = 0) ∨ (w = [(10, 1)] ∧ m = 1) ∨
      (w = [(10, 1), (12, 3)] ∧ m = 3) ∨ (w = [(11, 2)] ∧ m = 2) := by
    intro w m h; cases h with
    | here _ => exact .inl ⟨rfl, rfl⟩
    | down h hw =>
      simp [small] at h
      rcases h with ⟨rfl, rfl⟩ | ⟨rfl, rfl⟩
      · rcases h1 _ _ hw with ⟨rfl, rfl⟩ | ⟨rfl, rfl⟩ <;> simp
      · obtain ⟨rfl, rfl⟩ := h2 _ _ hw; simp
  intro m w w' hw hw'
  rcases h0 _ _ hw with ⟨rfl, rfl⟩ | ⟨rfl, rfl⟩ | ⟨rfl, rfl⟩ | ⟨rfl, rfl⟩ <;>
    rcases h0 _ _ hw' with ⟨rfl, h⟩ | ⟨rfl, h⟩ | ⟨rfl, h⟩ | ⟨rfl, h⟩ <;> first | rfl | omega

/-- Names as fragments. -/
def names : Nat → Frag Nat Nat
  | 0 => .wildcard true
  | i => .path i

/-- `**` and `x/**`-like queries in the unshared hierarchy: the operations are those of sets. -/
example : UniquePaths (small false) 0 ∧
    (do
      let a ← search names (small false) 50 (.one (.obj 10) (.one (.obj 0) .none)) 0
      let b ← search names (small false) 50 (.one (.obj 0) (.one (.obj 12) .none)) 0
      let c ← (Coll.mk 0 a).symm ⟨0, b⟩
      pure c.modules) = some [1] :=
  ⟨small_unique, by decide +kernel⟩

/-- **C37, deviation.** results are compared by name and parent as well as by module.  A module that
is shared by two parents and found once below each is listed twice in the union, and is missing from
the intersection although both collections contain it. -/
theorem shared_module_counted_twice :
    (do
      let a ← search names (small true) 50 (.one (.obj 10) (.one (.obj 12) .none)) 0
      let b ← search names (small true) 50 (.one (.obj 11) (.one (.obj 12) .none)) 0
      let u ← (Coll.mk 0 a).union ⟨0, b⟩
      let i ← (Coll.mk 0 a).inter ⟨0, b⟩
      pure ((Coll.mk 0 a).modules, (Coll.mk 0 b).modules, u.modules, i.modules)) =
    some ([3], [3], [3, 3], []) := by
  decide +kernel

end FF.MPath
