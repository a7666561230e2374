/-
Symbolic types of operator parameters: _quantops/symtypes.py.

Simplifications:
* a name together with its base (and, for generics, the python class) is one element of a type `A`; the
  python representation takes no part in comparison and is left out;
* the iteration order of a python set is arbitrary: a union is any permutation of the set's elements;
* hashes are an arbitrary function; a python set keeps the old element if the hashes agree and `old == new`;
* `x is y` shortcuts of tuple comparison agree with `==`, which is reflexive (`eqv_refl`).
-/
import Mathlib.Data.List.Perm.Basic

namespace FF.Symtypes

/-! ## Model -/

/-- `Type`, `GenericType`, `_GenericUnionType`: symtypes.py:20-133. -/
inductive Ty (A : Type) where
  | atom (a : A)
  | gen (g : A) (ps : List (Ty A))
  | union (ps : List (Ty A))

variable {A : Type} [DecidableEq A]

/-- `variants`: symtypes.py:35-36, 83-84. -/
def variants : Ty A → List (Ty A)
  | .union ps => ps
  | t => [t]

mutual
/-- `==`, with the left operand's method: the dataclass comparison of symtypes.py:20, 51 and
`_GenericUnionType.__eq__` symtypes.py:124-133, for unions whose members are not unions (`Flat`). -/
def eqv : Ty A → Ty A → Bool
  | .atom a, .atom b => a = b
  | .gen g ps, .gen h qs => g = h && eqvs ps qs
  | .union ps, .union qs => qs.all (fun q => anyEq ps q)
  | _, _ => false
/-- Comparison of parameter tuples. -/
def eqvs : List (Ty A) → List (Ty A) → Bool
  | [], [] => true
  | p :: ps, q :: qs => eqv p q && eqvs ps qs
  | _, _ => false
/-- `q in params` of a tuple: some `p` of the tuple with `p == q`. -/
def anyEq : List (Ty A) → Ty A → Bool
  | [], _ => false
  | p :: ps, q => eqv p q || anyEq ps q
end

/-- `other in self`: symtypes.py:41-42, 109-112. -/
def contains : Ty A → Ty A → Bool
  | .union ps, .union qs => qs.all (fun q => anyEq ps q)
  | .union ps, x => anyEq ps x
  | t, x => eqv x t

/-- `set(...)`: elements in order of insertion. -/
def toSet (h : Ty A → Int) (l : List (Ty A)) : List (Ty A) :=
  l.foldl (fun s x => if s.any (fun y => h y = h x && eqv y x) then s else s ++ [x]) []

/-- `u` is a possible value of `Union[ts]`: symtypes.py:167-170. -/
def IsUnion (h : Ty A → Int) (ts : List (Ty A)) (u : Ty A) : Prop :=
  ∃ ps, ps.Perm (toSet h (ts.flatMap variants)) ∧ u = .union ps

/-- `Optional[t]`: symtypes.py:173-177. -/
def IsOptional (h : Ty A → Int) (none : A) (t u : Ty A) : Prop := IsUnion h [t, .atom none] u

/-- `unwrap_optional`: symtypes.py:180-188. -/
def unwrapOptional (none : A) : Ty A → Ty A
  | .union ps =>
    if contains (.union ps) (.atom none) then
      match ps.filter (fun p => !eqv p (.atom none)) with
      | [p] => p
      | qs => .union qs
    else .union ps
  | t => t

/-! ## Specification -/

/-- Types that can be built: names, generics over types, unions of types. -/
inductive Built (h : Ty A → Int) : Ty A → Prop
  | atom (a) : Built h (.atom a)
  | gen (g) (ps) : (∀ p ∈ ps, Built h p) → Built h (.gen g ps)
  | union (ts) (u) : (∀ t ∈ ts, Built h t) → IsUnion h ts u → Built h u

/-- Not a union. -/
def Single : Ty A → Prop
  | .union _ => False
  | _ => True

/-- Unions, at any depth, have single members. -/
inductive Flat : Ty A → Prop
  | atom (a) : Flat (.atom a)
  | gen (g) (ps) : (∀ p ∈ ps, Flat p) → Flat (.gen g ps)
  | union (ps) : (∀ p ∈ ps, Flat p) → (∀ p ∈ ps, Single p) → Flat (.union ps)

/-- No union at any depth. -/
inductive UnionFree : Ty A → Prop
  | atom (a) : UnionFree (.atom a)
  | gen (g) (ps) : (∀ p ∈ ps, UnionFree p) → UnionFree (.gen g ps)

/-! ## Lemmas -/

theorem anyEq_iff (ps : List (Ty A)) (q : Ty A) : anyEq ps q = true ↔ ∃ p ∈ ps, eqv p q = true := by
  induction ps with
  | nil => simp [anyEq]
  | cons p ps ih => simp [anyEq, ih]

mutual
theorem eqv_refl : ∀ t : Ty A, eqv t t = true
  | .atom a => by simp [eqv]
  | .gen g ps => by simp [eqv, eqvs_refl ps]
  | .union ps => by
    simp only [eqv, List.all_eq_true]
    exact fun x hx => (anyEq_iff ps x).2 ⟨x, hx, all_refl ps x hx⟩
theorem eqvs_refl : ∀ ts : List (Ty A), eqvs ts ts = true
  | [] => rfl
  | t :: ts => by simp [eqvs, eqv_refl t, eqvs_refl ts]
theorem all_refl : ∀ (ps : List (Ty A)), ∀ x ∈ ps, eqv x x = true
  | [], _, h => absurd h List.not_mem_nil
  | p :: ps, x, h => by
    rcases List.mem_cons.1 h with h | h
    · rw [h]
      exact eqv_refl p
    · exact all_refl ps x h
end

mutual
theorem eqv_trans_aux : ∀ (a b c : Ty A), eqv a b = true → eqv b c = true → eqv a c = true
  | .atom a, b, c, h1, h2 => by
    cases b <;> simp [eqv] at h1
    subst h1
    exact h2
  | .gen g ps, b, c, h1, h2 => by
    cases b with
    | atom _ => simp [eqv] at h1
    | union _ => simp [eqv] at h1
    | gen g' qs =>
      cases c with
      | atom _ => simp [eqv] at h2
      | union _ => simp [eqv] at h2
      | gen g'' rs =>
        simp only [eqv, Bool.and_eq_true, decide_eq_true_eq] at h1 h2 ⊢
        exact ⟨h1.1.trans h2.1, eqvs_trans ps qs rs h1.2 h2.2⟩
  | .union ps, b, c, h1, h2 => by
    cases b with
    | atom _ => simp [eqv] at h1
    | gen _ _ => simp [eqv] at h1
    | union qs =>
      cases c with
      | atom _ => simp [eqv] at h2
      | gen _ _ => simp [eqv] at h2
      | union rs =>
        simp only [eqv, List.all_eq_true] at h1 h2 ⊢
        intro r hr
        obtain ⟨q, hq, hqr⟩ := (anyEq_iff qs r).1 (h2 r hr)
        exact anyEq_trans ps q r (h1 q hq) hqr
theorem eqvs_trans : ∀ (ps qs rs : List (Ty A)), eqvs ps qs = true → eqvs qs rs = true → eqvs ps rs = true
  | [], qs, rs, h1, h2 => by
    cases qs with
    | nil => exact h2
    | cons _ _ => simp [eqvs] at h1
  | p :: ps, qs, rs, h1, h2 => by
    cases qs with
    | nil => simp [eqvs] at h1
    | cons q qs =>
      cases rs with
      | nil => simp [eqvs] at h2
      | cons r rs =>
        simp only [eqvs, Bool.and_eq_true] at h1 h2 ⊢
        exact ⟨eqv_trans_aux p q r h1.1 h2.1, eqvs_trans ps qs rs h1.2 h2.2⟩
theorem anyEq_trans : ∀ (ps : List (Ty A)) (q r : Ty A), anyEq ps q = true → eqv q r = true →
    anyEq ps r = true
  | [], _, _, h1, _ => by simp [anyEq] at h1
  | p :: ps, q, r, h1, h2 => by
    simp only [anyEq, Bool.or_eq_true] at h1 ⊢
    rcases h1 with h1 | h1
    · exact Or.inl (eqv_trans_aux p q r h1 h2)
    · exact Or.inr (anyEq_trans ps q r h1 h2)
end

/-- What is in a set under construction. -/
theorem toSet_spec (h : Ty A → Int) (l : List (Ty A)) :
    (∀ x ∈ toSet h l, x ∈ l) ∧ ∀ x ∈ l, ∃ y ∈ toSet h l, eqv y x = true := by
  have key : ∀ (l s : List (Ty A)) (P : Ty A → Prop), (∀ x ∈ s, P x) → (∀ x ∈ l, P x) →
      (∀ x ∈ l.foldl (fun s x => if s.any (fun y => h y = h x && eqv y x) then s else s ++ [x]) s, P x) ∧
      (∀ x ∈ s, x ∈ l.foldl (fun s x => if s.any (fun y => h y = h x && eqv y x) then s else s ++ [x]) s) ∧
      ∀ x ∈ l, ∃ y ∈ l.foldl (fun s x => if s.any (fun y => h y = h x && eqv y x) then s else s ++ [x]) s,
        eqv y x = true := by
    intro l
    induction l with
    | nil => intro s P hs _; exact ⟨hs, fun x hx => hx, by simp⟩
    | cons a l ih =>
      intro s P hs hl
      rw [List.foldl_cons]
      by_cases hc : s.any (fun y => h y = h a && eqv y a) = true
      · rw [if_pos hc]
        obtain ⟨i1, i2, i3⟩ := ih s P hs (fun x hx => hl x (List.mem_cons_of_mem _ hx))
        refine ⟨i1, i2, ?_⟩
        intro x hx
        rcases List.mem_cons.1 hx with rfl | hx
        · rw [List.any_eq_true] at hc
          obtain ⟨y, hy, hyx⟩ := hc
          rw [Bool.and_eq_true] at hyx
          exact ⟨y, i2 y hy, hyx.2⟩
        · exact i3 x hx
      · rw [if_neg hc]
        obtain ⟨i1, i2, i3⟩ := ih (s ++ [a]) P
          (fun x hx => by
            rcases List.mem_append.1 hx with hx | hx
            · exact hs x hx
            · rw [List.mem_singleton] at hx
              exact hx ▸ hl a List.mem_cons_self)
          (fun x hx => hl x (List.mem_cons_of_mem _ hx))
        refine ⟨i1, fun x hx => i2 x (List.mem_append_left _ hx), ?_⟩
        intro x hx
        rcases List.mem_cons.1 hx with rfl | hx
        · exact ⟨x, i2 x (by simp), eqv_refl x⟩
        · exact i3 x hx
  have := key l [] (fun x => x ∈ l) (by simp) (fun x hx => hx)
  exact ⟨this.1, this.2.2⟩

theorem contains_union (ps : List (Ty A)) (x : Ty A) :
    contains (.union ps) x = true ↔ ∀ v ∈ variants x, ∃ p ∈ ps, eqv p v = true := by
  cases x with
  | atom a => simp [contains, variants, anyEq_iff]
  | gen g qs => simp [contains, variants, anyEq_iff]
  | union qs => simp [contains, variants, anyEq_iff]

theorem eqv_union (ps qs : List (Ty A)) :
    eqv (.union ps) (.union qs) = true ↔ ∀ q ∈ qs, ∃ p ∈ ps, eqv p q = true := by
  simp [eqv, anyEq_iff]

omit [DecidableEq A] in
theorem single_variants {t v : Ty A} (h : Flat t) (hv : v ∈ variants t) : Flat v ∧ Single v := by
  cases h with
  | atom a =>
    simp only [variants, List.mem_singleton] at hv
    subst hv
    exact ⟨.atom a, trivial⟩
  | gen g ps h =>
    simp only [variants, List.mem_singleton] at hv
    subst hv
    exact ⟨.gen g ps h, trivial⟩
  | union ps h1 h2 => exact ⟨h1 v hv, h2 v hv⟩

theorem built_flat {h : Ty A → Int} {t : Ty A} (hb : Built h t) : Flat t := by
  induction hb with
  | atom a => exact .atom a
  | gen g ps _ ih => exact .gen g ps ih
  | union ts u _ hu ih =>
    obtain ⟨ps, hp, rfl⟩ := hu
    have key : ∀ p ∈ ps, Flat p ∧ Single p := by
      intro p hp'
      have := (toSet_spec h (ts.flatMap variants)).1 p (hp.mem_iff.1 hp')
      obtain ⟨t, ht, hv⟩ := List.mem_flatMap.1 this
      exact single_variants (ih t ht) hv
    exact .union ps (fun p hp => (key p hp).1) (fun p hp => (key p hp).2)

mutual
theorem eqv_eq_of_unionFree : ∀ (a b : Ty A), UnionFree a → eqv a b = true → a = b
  | .atom a, b, _, h => by
    cases b <;> simp [eqv] at h
    subst h
    rfl
  | .gen g ps, b, hf, h => by
    cases b with
    | atom _ => simp [eqv] at h
    | union _ => simp [eqv] at h
    | gen g' qs =>
      simp only [eqv, Bool.and_eq_true, decide_eq_true_eq] at h
      cases hf with
      | gen _ _ hf => rw [h.1, eqvs_eq_of_unionFree ps qs hf h.2]
  | .union ps, b, hf, h => by cases hf
theorem eqvs_eq_of_unionFree : ∀ (as bs : List (Ty A)), (∀ a ∈ as, UnionFree a) → eqvs as bs = true →
    as = bs
  | [], bs, _, h => by
    cases bs with
    | nil => rfl
    | cons _ _ => simp [eqvs] at h
  | a :: as, bs, hf, h => by
    cases bs with
    | nil => simp [eqvs] at h
    | cons b bs =>
      simp only [eqvs, Bool.and_eq_true] at h
      rw [eqv_eq_of_unionFree a b (hf a List.mem_cons_self) h.1,
        eqvs_eq_of_unionFree as bs (fun x hx => hf x (List.mem_cons_of_mem _ hx)) h.2]
end

theorem eqv_atom (a b : A) : eqv (.atom a) (.atom b) = decide (a = b) := by rw [eqv]
theorem eqv_gen (g h : A) (ps qs : List (Ty A)) : eqv (.gen g ps) (.gen h qs) = (decide (g = h) && eqvs ps qs) := by
  rw [eqv]
theorem eqv_unions (ps qs : List (Ty A)) : eqv (.union ps) (.union qs) = qs.all (fun q => anyEq ps q) := by
  rw [eqv]
theorem eqvs_nil : eqvs ([] : List (Ty A)) [] = true := by rw [eqvs]
theorem eqvs_cons (p q : Ty A) (ps qs : List (Ty A)) : eqvs (p :: ps) (q :: qs) = (eqv p q && eqvs ps qs) := by
  rw [eqvs]
theorem anyEq_nil (q : Ty A) : anyEq [] q = false := by rw [anyEq]
theorem anyEq_cons (p q : Ty A) (ps : List (Ty A)) : anyEq (p :: ps) q = (eqv p q || anyEq ps q) := by
  rw [anyEq]

/-! ## Properties -/

/-- **C49.**  Equality is transitive, and reflexive by `eqv_refl`. -/
theorem eqv_trans {a b c : Ty A} (h1 : eqv a b = true) (h2 : eqv b c = true) : eqv a c = true :=
  eqv_trans_aux a b c h1 h2

/-- **C49.**  A type is in a union of types exactly if each of its variants equals a variant of one of
them.  Neither the order of the types, nor repetitions, nor how they are nested, nor the hash function or the
set order matter. -/
theorem mem_union_iff {h : Ty A → Int} {ts : List (Ty A)} {u : Ty A} (hu : IsUnion h ts u) (x : Ty A) :
    contains u x = true ↔ ∀ v ∈ variants x, ∃ t ∈ ts, ∃ w ∈ variants t, eqv w v = true := by
  obtain ⟨ps, hp, rfl⟩ := hu
  rw [contains_union]
  obtain ⟨hs1, hs2⟩ := toSet_spec h (ts.flatMap variants)
  constructor
  · intro hx v hv
    obtain ⟨p, hp', hpv⟩ := hx v hv
    obtain ⟨t, ht, hpt⟩ := List.mem_flatMap.1 (hs1 p (hp.mem_iff.1 hp'))
    exact ⟨t, ht, p, hpt, hpv⟩
  · intro hx v hv
    obtain ⟨t, ht, w, hw, hwv⟩ := hx v hv
    obtain ⟨y, hy, hyw⟩ := hs2 w (List.mem_flatMap.2 ⟨t, ht, hw⟩)
    exact ⟨y, hp.mem_iff.2 hy, eqv_trans hyw hwv⟩

/-- **C49.**  Two unions over the same variants are equal, both ways round. -/
theorem union_eq_of_same_variants {h : Ty A → Int} {ts ts' : List (Ty A)} {u u' : Ty A}
    (hu : IsUnion h ts u) (hu' : IsUnion h ts' u')
    (hsame : ∀ v, (∃ t ∈ ts, v ∈ variants t) ↔ ∃ t ∈ ts', v ∈ variants t) :
    eqv u u' = true ∧ eqv u' u = true := by
  have key : ∀ {ts ts' : List (Ty A)} {u u' : Ty A}, IsUnion h ts u → IsUnion h ts' u' →
      (∀ v, (∃ t ∈ ts', v ∈ variants t) → ∃ t ∈ ts, v ∈ variants t) → eqv u u' = true := by
    intro ts ts' u u' hu hu' hsub
    obtain ⟨ps, hp, rfl⟩ := hu
    obtain ⟨qs, hq, rfl⟩ := hu'
    rw [eqv_union]
    intro q hqm
    obtain ⟨t, ht, hqt⟩ := List.mem_flatMap.1 ((toSet_spec h (ts'.flatMap variants)).1 q (hq.mem_iff.1 hqm))
    obtain ⟨t', ht', hqt'⟩ := hsub q ⟨t, ht, hqt⟩
    obtain ⟨y, hy, hyq⟩ := (toSet_spec h (ts.flatMap variants)).2 q (List.mem_flatMap.2 ⟨t', ht', hqt'⟩)
    exact ⟨y, hp.mem_iff.2 hy, hyq⟩
  exact ⟨key hu hu' (fun v => (hsame v).2), key hu' hu (fun v => (hsame v).1)⟩

/-- **C49.**  The order of the types does not matter, nor do repetitions. -/
theorem union_order_insensitive {h : Ty A → Int} {ts ts' : List (Ty A)} {u u' : Ty A}
    (hu : IsUnion h ts u) (hu' : IsUnion h ts' u') (hmem : ∀ t, t ∈ ts ↔ t ∈ ts') :
    eqv u u' = true ∧ eqv u' u = true := by
  apply union_eq_of_same_variants hu hu'
  intro v
  constructor <;> rintro ⟨t, ht, hv⟩
  · exact ⟨t, (hmem t).1 ht, hv⟩
  · exact ⟨t, (hmem t).2 ht, hv⟩

/-- **C49.**  A union inside a union is flattened: `Union[Union[ts], *rs] == Union[*ts, *rs]`. -/
theorem union_flattens {h : Ty A → Int} {ts rs : List (Ty A)} {u v w : Ty A}
    (hu : IsUnion h ts u) (hv : IsUnion h (u :: rs) v) (hw : IsUnion h (ts ++ rs) w) :
    eqv v w = true ∧ eqv w v = true := by
  obtain ⟨ps, hp, rfl⟩ := hu
  obtain ⟨vs, hvp, rfl⟩ := hv
  obtain ⟨ws, hwp, rfl⟩ := hw
  have hvar : ((Ty.union ps :: rs).flatMap variants) = ps ++ rs.flatMap variants := by
    simp [variants]
  rw [hvar] at hvp
  rw [List.flatMap_append] at hwp
  obtain ⟨a1, a2⟩ := toSet_spec h (ts.flatMap variants)
  obtain ⟨b1, b2⟩ := toSet_spec h (ps ++ rs.flatMap variants)
  obtain ⟨c1, c2⟩ := toSet_spec h (ts.flatMap variants ++ rs.flatMap variants)
  constructor
  · rw [eqv_union]
    intro x hx
    rcases List.mem_append.1 (c1 x (hwp.mem_iff.1 hx)) with hx | hx
    · obtain ⟨y, hy, hyx⟩ := a2 x hx
      obtain ⟨z, hz, hzy⟩ := b2 y (List.mem_append_left _ (hp.mem_iff.2 hy))
      exact ⟨z, hvp.mem_iff.2 hz, eqv_trans hzy hyx⟩
    · obtain ⟨z, hz, hzx⟩ := b2 x (List.mem_append_right _ hx)
      exact ⟨z, hvp.mem_iff.2 hz, hzx⟩
  · rw [eqv_union]
    intro x hx
    rcases List.mem_append.1 (b1 x (hvp.mem_iff.1 hx)) with hx | hx
    · obtain ⟨z, hz, hzx⟩ := c2 x (List.mem_append_left _ (a1 x (hp.mem_iff.1 hx)))
      exact ⟨z, hwp.mem_iff.2 hz, hzx⟩
    · obtain ⟨z, hz, hzx⟩ := c2 x (List.mem_append_right _ hx)
      exact ⟨z, hwp.mem_iff.2 hz, hzx⟩

/-- **C49.**  A union with itself is itself: `u | u == u` for every union. -/
theorem union_idempotent {h : Ty A → Int} {ts : List (Ty A)} {u v : Ty A}
    (hu : IsUnion h ts u) (hv : IsUnion h [u, u] v) : eqv v u = true ∧ eqv u v = true := by
  obtain ⟨ps, hp, rfl⟩ := hu
  obtain ⟨vs, hvp, rfl⟩ := hv
  have hvar : ([Ty.union ps, Ty.union ps].flatMap variants) = ps ++ ps := by simp [variants]
  rw [hvar] at hvp
  obtain ⟨b1, b2⟩ := toSet_spec h (ps ++ ps)
  constructor
  · rw [eqv_union]
    intro x hx
    obtain ⟨z, hz, hzx⟩ := b2 x (List.mem_append_left _ hx)
    exact ⟨z, hvp.mem_iff.2 hz, hzx⟩
  · rw [eqv_union]
    intro x hx
    have := b1 x (hvp.mem_iff.1 hx)
    exact ⟨x, by simpa using this, eqv_refl x⟩

/-- **C49.**  Types without unions are equal exactly if they are the same type, so equality of these is an
equivalence relation.  Missing: types with unions, for which it is not, see `eqv_not_symmetric`. -/
theorem eqv_iff_eq_partial {a b : Ty A} (ha : UnionFree a) : eqv a b = true ↔ a = b :=
  ⟨eqv_eq_of_unionFree a b ha, fun h => h ▸ eqv_refl b⟩

/-- **C49.**  `unwrap_optional` undoes `Optional`: exactly for a type that is not a union ... -/
theorem unwrap_optional_single {h : Ty A → Int} {none : A} {t u : Ty A} (ht : Single t)
    (hn : t ≠ .atom none) (hu : IsOptional h none t u) : unwrapOptional none u = t := by
  obtain ⟨ps, hp, rfl⟩ := hu
  have hvar : [t, Ty.atom none].flatMap variants = [t, .atom none] := by
    cases t <;> simp_all [variants, Single]
  rw [hvar] at hp
  have hne : eqv t (.atom none) = false := by
    cases t with
    | atom a =>
      have hne : ¬a = none := fun h => hn (by rw [h])
      simp [eqv, hne]
    | gen _ _ => simp [eqv]
    | union _ => simp [eqv]
  have hset : toSet h [t, Ty.atom none] = [t, .atom none] := by
    simp [toSet, hne]
  rw [hset] at hp
  have hc : contains (.union ps) (.atom none) = true := by
    rw [contains_union]
    intro v hv
    simp only [variants, List.mem_singleton] at hv
    subst hv
    exact ⟨_, hp.mem_iff.2 (by simp), eqv_refl _⟩
  have hf : (ps.filter (fun p => !eqv p (.atom none))).Perm [t] := by
    have := hp.filter (fun p => !eqv p (.atom none))
    simpa [hne, eqv_refl] using this
  unfold unwrapOptional
  dsimp only
  rw [if_pos hc, List.perm_singleton.1 hf]

/-- **C49.**  ... and up to equality of variants for a union without the none type. -/
theorem unwrap_optional_union {h : Ty A → Int} {none : A} {ts : List (Ty A)} {t u : Ty A}
    (hb : Built h t) (htu : IsUnion h ts t) (hn : contains t (.atom none) = false)
    (hu : IsOptional h none t u) (x : Ty A) :
    (∃ v ∈ variants (unwrapOptional none u), eqv v x = true) ↔ ∃ v ∈ variants t, eqv v x = true := by
  obtain ⟨qs, hq, rfl⟩ := htu
  obtain ⟨ps, hp, rfl⟩ := hu
  have hvar : [Ty.union qs, Ty.atom none].flatMap variants = qs ++ [.atom none] := by
    simp [variants]
  rw [hvar] at hp
  obtain ⟨a1, a2⟩ := toSet_spec h (qs ++ [.atom none])
  have hnone : ∀ q ∈ qs, eqv q (.atom none) = false := by
    intro q hq'
    by_contra hc
    rw [Bool.not_eq_false] at hc
    have : contains (.union qs) (.atom none) = true := by
      rw [contains_union]
      intro v hv
      simp only [variants, List.mem_singleton] at hv
      subst hv
      exact ⟨q, hq', hc⟩
    rw [this] at hn
    cases hn
  have hatom : ∀ y : Ty A, eqv y (.atom none) = true → y = .atom none := by
    intro y hy
    cases y <;> simp [eqv] at hy
    rw [hy]
  have hc : contains (.union ps) (.atom none) = true := by
    rw [contains_union]
    intro v hv
    simp only [variants, List.mem_singleton] at hv
    subst hv
    obtain ⟨y, hy, hyx⟩ := a2 (.atom none) (by simp)
    exact ⟨y, hp.mem_iff.2 hy, hyx⟩
  -- every variant of `t` is represented in what remains
  have hrep : ∀ q ∈ qs, ∃ p ∈ ps.filter (fun p => !eqv p (.atom none)), eqv p q = true := by
    intro q hq'
    obtain ⟨y, hy, hyx⟩ := a2 q (List.mem_append_left _ hq')
    refine ⟨y, List.mem_filter.2 ⟨hp.mem_iff.2 hy, ?_⟩, hyx⟩
    rw [Bool.not_eq_true']
    by_contra hcon
    rw [Bool.not_eq_false] at hcon
    have hy' := hatom y hcon
    subst hy'
    have : q = .atom none := by
      cases q <;> simp [eqv] at hyx
      rw [hyx]
    rw [this] at hq'
    have := hnone _ hq'
    rw [eqv_refl] at this
    cases this
  have hin : ∀ p ∈ ps.filter (fun p => !eqv p (.atom none)), p ∈ qs := by
    intro p hp'
    obtain ⟨hp1, hp2⟩ := List.mem_filter.1 hp'
    rcases List.mem_append.1 (a1 p (hp.mem_iff.1 hp1)) with h | h
    · exact h
    · rw [List.mem_singleton] at h
      subst h
      simp [eqv_refl] at hp2
  have hsub : ∀ p ∈ qs, Single p := by
    cases built_flat hb with
    | union _ _ h2 => exact h2
  have hres : ∀ rs : List (Ty A), (∀ q ∈ qs, ∃ p ∈ rs, eqv p q = true) → (∀ p ∈ rs, p ∈ qs) →
      ((∃ v ∈ rs, eqv v x = true) ↔ ∃ v ∈ qs, eqv v x = true) := by
    intro rs h1 h3
    constructor
    · rintro ⟨v, hv, hvx⟩
      exact ⟨v, h3 v hv, hvx⟩
    · rintro ⟨v, hv, hvx⟩
      obtain ⟨p, hp, hpv⟩ := h1 v hv
      exact ⟨p, hp, eqv_trans hpv hvx⟩
  unfold unwrapOptional
  dsimp only
  rw [if_pos hc]
  generalize ps.filter (fun p => !eqv p (.atom none)) = fs at hrep hin ⊢
  match fs, hrep, hin with
  | [], hrep, hin => exact hres [] hrep hin
  | [p], hrep, hin =>
    have hp : variants p = [p] := by
      have := hsub p (hin p (by simp))
      cases p <;> simp_all [variants, Single]
    show (∃ v ∈ variants p, eqv v x = true) ↔ _
    rw [hp]
    exact hres [p] hrep hin
  | p :: p' :: fs, hrep, hin => exact hres _ hrep hin

/-- **C49, deviation.**  Equality is not symmetric: a union equals every union of some of its variants. -/
theorem eqv_not_symmetric {a b : A} (hab : a ≠ b) :
    eqv (.union [.atom a, .atom b]) (.union [.atom a]) = true ∧
      eqv (.union [.atom a]) (.union [.atom a, .atom b]) = false := by
  simp [eqv_atom, eqv_unions, anyEq_nil, anyEq_cons, hab]

/-- **C49, deviation.**  Equality is not compatible with membership: with a type argument that is a union,
`x in t` can hold although `x` is not in the union of `t` with another type. -/
theorem membership_lost_in_union {a b c g : A} (hab : a ≠ b) {h : Ty A → Int} {u : Ty A}
    (hu : IsUnion h [.gen g [.union [.atom a]], .atom c] u) :
    contains (.gen g [.union [.atom a]]) (.gen g [.union [.atom a, .atom b]]) = true ∧
      contains u (.gen g [.union [.atom a, .atom b]]) = false := by
  constructor
  · simp [contains, eqv_atom, eqv_gen, eqv_unions, eqvs_nil, eqvs_cons, anyEq_nil, anyEq_cons]
  · rw [← Bool.not_eq_true, mem_union_iff hu]
    intro hall
    obtain ⟨t, ht, w, hw, hwv⟩ := hall (.gen g [.union [.atom a, .atom b]]) (List.mem_singleton.2 rfl)
    rcases List.mem_cons.1 ht with ht | ht
    · rw [ht] at hw
      rw [List.mem_singleton.1 hw, eqv_gen, eqvs_cons, eqv_unions] at hwv
      simp [anyEq_cons, anyEq_nil, eqv_atom, hab] at hwv
    · rw [List.mem_singleton.1 ht] at hw
      rw [List.mem_singleton.1 hw, eqv] at hwv
      · cases hwv
      all_goals simp

/-- **C49, deviation.**  The union of a type with itself is not that type. -/
theorem single_union_not_type {t u : Ty A} {h : Ty A → Int} (ht : Single t) (hu : IsUnion h [t, t] u) :
    eqv u t = false ∧ eqv t u = false := by
  obtain ⟨ps, _, rfl⟩ := hu
  cases t with
  | atom a => simp [eqv]
  | gen g qs => simp [eqv]
  | union qs => exact absurd ht id

/-- **C49, deviation.**  The hash follows the order of the parameters, so a union can list two equal generic
types as different variants. -/
theorem equal_variants_kept {a b g : A} {h : Ty A → Int}
    (hh : h (.gen g [.union [.atom a, .atom b]]) ≠ h (.gen g [.union [.atom b, .atom a]])) :
    eqv (.gen g [.union [.atom a, .atom b]]) (.gen g [.union [.atom b, .atom a]]) = true ∧
      toSet h [.gen g [.union [.atom a, .atom b]], .gen g [.union [.atom b, .atom a]]] =
        [.gen g [.union [.atom a, .atom b]], .gen g [.union [.atom b, .atom a]]] := by
  simp [eqv_atom, eqv_gen, eqv_unions, eqvs_nil, eqvs_cons, anyEq_nil, anyEq_cons, toSet, hh]

/-! ## Concrete cases -/

/-- `Tensor | None | list[int | None]`, as built from its parts: names 0 `None`, 1 `Tensor`, 2 `list`,
3 `int`. -/
example : Built (fun _ => 0) (.union [.atom 1, .atom 0, .gen 2 [.union [.atom 3, .atom 0]]] : Ty Nat) := by
  refine .union [.atom 1, .union [.atom 0, .gen 2 [.union [.atom 3, .atom 0]]]] _ ?_ ?_
  · intro t ht
    simp only [List.mem_cons, List.not_mem_nil, or_false] at ht
    rcases ht with rfl | rfl
    · exact .atom 1
    · refine .union [.atom 0, .gen 2 [.union [.atom 3, .atom 0]]] _ ?_ ⟨_, .refl _, rfl⟩
      intro t ht
      simp only [List.mem_cons, List.not_mem_nil, or_false] at ht
      rcases ht with rfl | rfl
      · exact .atom 0
      · refine .gen 2 _ ?_
        intro t ht
        simp only [List.mem_cons, List.not_mem_nil, or_false] at ht
        subst ht
        refine .union [.atom 3, .atom 0] _ ?_ ⟨_, .refl _, rfl⟩
        intro t ht
        simp only [List.mem_cons, List.not_mem_nil, or_false] at ht
        rcases ht with rfl | rfl <;> exact .atom _
  · exact ⟨_, .refl _, rfl⟩

/-- Both orders of a set are unions, and `Optional` of a union is one. -/
example : IsUnion (fun _ => 0) [.atom 1, .atom 3] (.union [.atom 3, .atom 1] : Ty Nat) ∧
    IsOptional (fun _ => 0) 0 (.union [.atom 3, .atom 1]) (.union [.atom 3, .atom 0, .atom 1] : Ty Nat) ∧
    contains (.union [.atom 3, .atom 1] : Ty Nat) (.atom 0) = false := by
  refine ⟨⟨_, ?_, rfl⟩, ⟨_, ?_, rfl⟩, by decide⟩
  · exact .swap _ _ _
  · exact .cons _ (.swap _ _ _)

end FF.Symtypes
