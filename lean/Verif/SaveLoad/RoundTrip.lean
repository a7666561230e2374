/-
Saving quantizer state and loading it into a model: the round trip, and what happens when files and
model do not fit.
-/
import Verif.SaveLoad.StateProps

set_option linter.unusedSectionVars false

namespace FF.SaveLoad
open FF

variable {M T : Type} [DecidableEq M]

/-! ## Specification -/

/-- Attribute `a` of module `o` is what `path` names, in the model with the given root. -/
def PlaceOf (lib : Lib M) (attr : Attr M) (root : M) (path : List Text) (o : M) (a : Text) : Prop :=
  ∃ p, path = p ++ [a] ∧ Path lib attr root p o

/-- A model into which quantizers can be loaded: every name leads to a quantizer — a stub, unless
existing quantizers are overwritten —, not through another quantizer.  Two names for one place stand
for one quantizer; and unless quantizers are overwritten there are no such names. -/
structure Ready (lib : Lib M) (policy : Policy) (root : M) (attr : Attr M)
    (named : List (List Text × M)) : Prop where
  place : ∀ e ∈ named, ∃ o a m, PlaceOf lib attr root e.1 o a ∧ attr o a = some m ∧
    lib.isQuantizer m = true ∧ (policy = .overwrite ∨ lib.isStub m = true)
  same : ∀ e ∈ named, ∀ e' ∈ named, ∀ o a, PlaceOf lib attr root e.1 o a →
    PlaceOf lib attr root e'.1 o a → e.2 = e'.2
  once : policy ≠ .overwrite → named.Pairwise (fun e e' => ∀ o a,
    PlaceOf lib attr root e.1 o a → ¬ PlaceOf lib attr root e'.1 o a)

/-- Names and parameters that can be saved: attribute names without the characters `. , = :`, every
quantizer has parameters, and equal full parameter names mean equal parameters. -/
structure Savable (sd : M → List (Text × Val T)) (named : List (List Text × M)) : Prop where
  names : (named.map Prod.fst).Nodup
  nonempty : ∀ e ∈ named, e.1 ≠ []
  dots : ∀ e ∈ named, ∀ c ∈ e.1, '.' ∉ c ∧ Clean c
  keys : ∀ e ∈ named, (Dict.keys (sd e.2)).Nodup ∧ ∀ k ∈ Dict.keys (sd e.2), Clean k
  params : ∀ e ∈ named, sd e.2 ≠ []
  consistent : ∀ e ∈ named, ∀ e' ∈ named, ∀ k t k' t', (k, Val.tensor t) ∈ sd e.2 →
    (k', Val.tensor t') ∈ sd e'.2 → Tags.join '.' e.1 ++ '.' :: k = Tags.join '.' e'.1 ++ '.' :: k' →
    t = t'

/-- The names as text. -/
def asText (named : List (List Text × M)) : List (Text × M) :=
  named.map (fun e => (Tags.join '.' e.1, e.2))

/-! ## Lemmas -/

theorem Restored_idem (s o : Option (Val T)) : Restored s (Restored s o) = Restored s o := by
  cases s with
  | none => rfl
  | some v => cases v <;> rfl

theorem loadOne_saved {allowLazy : Bool} {f : File M T} {params : M → List (Text × Val T)}
    {n first : Text} {q : M} {s : List (Text × Val T)}
    (hmeta : Dict.get f.metadata n = some (Tags.join ',' (s.map (entryText first))))
    (hne : s ≠ []) (hfirst : Clean first) (hclean : ∀ k ∈ Dict.keys s, Clean k)
    (hnd : (Dict.keys s).Nodup)
    (htens : ∀ k t, (k, Val.tensor t) ∈ s → Dict.get f.tensors (tensorKey first k) = some t)
    (hlazy : allowLazy = true ∨ ∀ e ∈ s, e.2.isLazy = false)
    (hown : ∀ k, k ∈ Dict.keys (params q) ↔ k ∈ Dict.keys s) :
    ∃ params', loadOne allowLazy f params n q = .ok params' ∧
      (∀ k, Dict.get (params' q) k = Restored (Dict.get s k) (Dict.get (params q) k)) ∧
      Dict.keys (params' q) = Dict.keys (params q) ∧
      ∀ q', q' ≠ q → params' q' = params q' := by
  have hcl : ∀ e ∈ s, Clean e.1 := fun e he => hclean _ (List.mem_map_of_mem (f := Prod.fst) he)
  have hsplit : Tags.split ',' (Tags.join ',' (s.map (entryText first))) = s.map (entryText first) := by
    apply Tags.split_join
    · simpa using hne
    · intro p hp
      obtain ⟨e, he, rfl⟩ := List.mem_map.1 hp
      exact entryText_no_comma hfirst (hcl e he)
  have hparse := parse_entries hfirst hcl
  -- the tensors that are fetched
  have hfil : ((s.map (fun e => (e.1, tensorKey first e.1, e.2.isLazy))).filter
      (fun e => !e.2.2)).map (fun e => (e.1, e.2.1)) =
      (s.filter (fun e => !e.2.isLazy)).map (fun e => (e.1, tensorKey first e.1)) := by
    rw [List.filter_map, List.map_map]
    rfl
  have hnd2 : (Dict.keys ((s.filter (fun e => !e.2.isLazy)).map
      (fun e => (e.1, tensorKey first e.1)))).Nodup := by
    unfold Dict.keys
    rw [List.map_map]
    exact hnd.sublist (List.Sublist.map _ List.filter_sublist)
  have hstate := Dict.ofList_nodup hnd2
  obtain ⟨given, hgiven, hgk, hgv⟩ := fetch_ok (tensors := f.tensors)
    (l := (s.filter (fun e => !e.2.isLazy)).map (fun e => (e.1, tensorKey first e.1)))
    (fun k => match Dict.get s k with | some (.tensor t) => some t | _ => none)
    (by
      intro x hx
      obtain ⟨e, he, rfl⟩ := List.mem_map.1 hx
      rw [List.mem_filter] at he
      obtain ⟨k, v⟩ := e
      cases v with
      | lazy => simp [Val.isLazy] at he
      | tensor t =>
        dsimp only
        rw [htens k t he.1, (Dict.get_eq_some_iff hnd).2 he.1]
        simp)
  have hgmem : ∀ k, k ∈ Dict.keys given ↔ ∃ t, Dict.get s k = some (.tensor t) := by
    intro k
    rw [hgk k]
    unfold Dict.keys
    rw [List.map_map, List.mem_map]
    constructor
    · rintro ⟨⟨k', v⟩, he, rfl⟩
      rw [List.mem_filter] at he
      cases v with
      | lazy => simp [Val.isLazy] at he
      | tensor t => exact ⟨t, (Dict.get_eq_some_iff hnd).2 he.1⟩
    · rintro ⟨t, ht⟩
      exact ⟨(k, .tensor t), by simp [Dict.get_mem ht, Val.isLazy], rfl⟩
  have hl : (((s.map (fun e => (e.1, tensorKey first e.1, e.2.isLazy))).filter
      (fun e => e.2.2)).map (fun e => e.1)) = (s.filter (fun e => e.2.isLazy)).map Prod.fst := by
    rw [List.filter_map, List.map_map]
    rfl
  refine ⟨fun q' => if q' = q then assignParams (params q) given else params q', ?_, ?_, ?_, ?_⟩
  · unfold loadOne
    rw [hmeta]
    dsimp only
    rw [hsplit, hparse]
    dsimp only
    rw [hfil, hstate, hgiven]
    dsimp only
    rw [hl, if_neg, if_neg]
    · simp only [Bool.or_eq_true, not_or, Bool.not_eq_true', Bool.not_eq_false,
        List.isEmpty_iff, List.filter_eq_nil_iff, List.mem_filter]
      refine ⟨?_, ?_⟩
      · rintro k ⟨hk, hnot⟩
        have hnot : k ∉ Dict.keys given := by simpa using hnot
        rw [hown] at hk
        obtain ⟨v, hv⟩ := Option.isSome_iff_exists.1 (Dict.get_isSome_iff.2 hk)
        cases v with
        | tensor t => exact absurd ((hgmem k).2 ⟨t, hv⟩) hnot
        | lazy =>
          have : k ∈ (s.filter (fun e => e.2.isLazy)).map Prod.fst :=
            List.mem_map.2 ⟨(k, .lazy), by simp [Dict.get_mem hv, Val.isLazy], rfl⟩
          simpa using this
      · intro k hk
        obtain ⟨t, ht⟩ := (hgmem k).1 hk
        have : k ∈ Dict.keys (params q) := by
          rw [hown]; exact Dict.get_isSome_iff.1 (by rw [ht]; rfl)
        simpa using this
    · simp only [Bool.and_eq_true, Bool.not_eq_true', not_and, Bool.not_eq_false]
      intro hne'
      rcases hlazy with h | h
      · exact h
      · exfalso
        rw [List.isEmpty_eq_false_iff] at hne'
        apply hne'
        rw [List.map_eq_nil_iff, List.filter_eq_nil_iff]
        intro e he
        simp [h e he]
  · intro k
    dsimp only
    rw [if_pos rfl, get_assignParams]
    cases hs : Dict.get s k with
    | none =>
      have : k ∉ Dict.keys (params q) := by
        rw [hown]; exact Dict.get_none_iff.1 hs
      rw [Dict.get_none_iff.2 this]
      rfl
    | some v =>
      have hk : k ∈ Dict.keys (params q) := by
        rw [hown]; exact Dict.get_isSome_iff.1 (by rw [hs]; rfl)
      obtain ⟨w, hw⟩ := Option.isSome_iff_exists.1 (Dict.get_isSome_iff.2 hk)
      rw [hw]
      cases v with
      | lazy =>
        have : Dict.get given k = none := by
          rw [Dict.get_none_iff, hgmem]
          rintro ⟨t, ht⟩
          rw [hs] at ht; cases ht
        simp [this, Restored]
      | tensor t =>
        have hin := (hgmem k).2 ⟨t, hs⟩
        have := hgv k ((hgk k).1 hin)
        rw [hs] at this
        dsimp only at this
        simp [this, Restored]
  · dsimp only
    rw [if_pos rfl, keys_assignParams]
  · intro q' hq
    dsimp only
    rw [if_neg hq]

theorem loadAll_saved {allowLazy : Bool} {f : File M T} {sd own : M → List (Text × Val T)} :
    ∀ {l : List (Text × M)} {params : M → List (Text × Val T)},
    (∀ e ∈ l, ∃ first, Dict.get f.metadata e.1 =
        some (Tags.join ',' ((sd e.2).map (entryText first))) ∧ sd e.2 ≠ [] ∧ Clean first ∧
      (∀ k ∈ Dict.keys (sd e.2), Clean k) ∧ (Dict.keys (sd e.2)).Nodup ∧
      (∀ k t, (k, Val.tensor t) ∈ sd e.2 → Dict.get f.tensors (tensorKey first k) = some t) ∧
      (allowLazy = true ∨ ∀ x ∈ sd e.2, x.2.isLazy = false) ∧
      (∀ k, k ∈ Dict.keys (own e.2) ↔ k ∈ Dict.keys (sd e.2))) →
    (∀ q, Dict.keys (params q) = Dict.keys (own q)) →
    (∀ q, (∀ k, Dict.get (params q) k = Dict.get (own q) k) ∨
      ∀ k, Dict.get (params q) k = Restored (Dict.get (sd q) k) (Dict.get (own q) k)) →
    ∃ params', loadAll allowLazy f l params = .ok params' ∧
      (∀ q, (q ∈ l.map Prod.snd ∨
          ∀ k, Dict.get (params q) k = Restored (Dict.get (sd q) k) (Dict.get (own q) k)) →
        ∀ k, Dict.get (params' q) k = Restored (Dict.get (sd q) k) (Dict.get (own q) k)) ∧
      ∀ q, q ∉ l.map Prod.snd → params' q = params q
  | [], params, _, _, _ => ⟨params, rfl, by simp, by simp⟩
  | (n, q) :: l, params, h, hk, hi => by
    obtain ⟨first, h1, h2, h3, h4, h5, h6, h7, h8⟩ := h (n, q) (by simp)
    obtain ⟨params1, e1, g1, k1, o1⟩ := loadOne_saved (params := params) h1 h2 h3 h4 h5 h6 h7
      (by intro k; rw [hk q]; exact h8 k)
    dsimp only at g1
    have hq1 : ∀ k, Dict.get (params1 q) k = Restored (Dict.get (sd q) k) (Dict.get (own q) k) := by
      intro k
      rw [g1 k]
      rcases hi q with hh | hh
      · rw [hh k]
      · rw [hh k, Restored_idem]
    have hi1 : ∀ q', (∀ k, Dict.get (params1 q') k = Dict.get (own q') k) ∨
        ∀ k, Dict.get (params1 q') k = Restored (Dict.get (sd q') k) (Dict.get (own q') k) := by
      intro q'
      by_cases hqq : q' = q
      · subst hqq; exact .inr hq1
      · rw [o1 q' hqq]; exact hi q'
    obtain ⟨params', e2, g2, o2⟩ := loadAll_saved (l := l) (params := params1) (f := f)
      (allowLazy := allowLazy) (fun e he => h e (by simp [he]))
      (by
        intro q'
        by_cases hqq : q' = q
        · subst hqq; rw [k1, hk]
        · rw [o1 q' hqq, hk]) hi1
    refine ⟨params', by simp [loadAll, e1, e2], ?_, ?_⟩
    · intro q' hq'
      apply g2
      by_cases hqq : q' = q
      · subst hqq; exact .inr hq1
      · rw [o1 q' hqq]
        rcases hq' with hq' | hq'
        · simp only [List.map_cons, List.mem_cons] at hq'
          exact .inl (hq'.resolve_left hqq)
        · exact .inr hq'
    · intro q' hq'
      simp only [List.map_cons, List.mem_cons, not_or] at hq'
      rw [o2 q' hq'.2, o1 q' hq'.1]

theorem path_follow {lib : Lib M} {attr : Attr M} {m o : M} {p : List Text}
    (h : Path lib attr m p o) : follow attr m p = some o := by
  induction h with
  | nil => rfl
  | cons h1 _ _ ih => simp [follow, h1, ih]

theorem path_assign {lib : Lib M} {attr : Attr M} {m x o cur new : M} {a : Text} {p : List Text}
    (hcur : attr o a = some cur) (hq : lib.isQuantizer cur = true) (h : Path lib attr m p x) :
    Path lib (assign attr o a new) m p x := by
  induction h with
  | nil => exact .nil _
  | @cons m m' x c cs h1 h2 _ ih =>
    refine .cons ?_ h2 ih
    have : ¬ (m = o ∧ c = a) := by
      rintro ⟨rfl, rfl⟩
      rw [hcur] at h1
      cases h1
      rw [hq] at h2
      cases h2
    simp [assign, this, h1]

theorem placeOf_unique {lib : Lib M} {attr : Attr M} {root o o' : M} {a a' : Text}
    {path : List Text} (h : PlaceOf lib attr root path o a) (h' : PlaceOf lib attr root path o' a') :
    o = o' ∧ a = a' := by
  obtain ⟨p, rfl, hp⟩ := h
  obtain ⟨p', he, hp'⟩ := h'
  obtain ⟨rfl, ha⟩ := List.append_inj' he rfl
  have h1 := path_follow hp
  rw [path_follow hp'] at h1
  cases h1
  simp at ha
  exact ⟨rfl, ha⟩

theorem placeOf_assign {lib : Lib M} {attr : Attr M} {root o cur new : M} {a : Text}
    (hcur : attr o a = some cur) (hq : lib.isQuantizer cur = true) {path : List Text} {x : M}
    {b : Text} (h : PlaceOf lib attr root path x b) :
    PlaceOf lib (assign attr o a new) root path x b := by
  obtain ⟨p, rfl, hp⟩ := h
  exact ⟨p, rfl, path_assign hcur hq hp⟩

theorem attachOne_ok {lib : Lib M} {policy : Policy} {root : M} {attr : Attr M}
    {path : List Text} {q o m : M} {a : Text} (hdot : ∀ c ∈ path, '.' ∉ c)
    (hp : PlaceOf lib attr root path o a) (hm : attr o a = some m) (hq : lib.isQuantizer m = true)
    (hpol : policy = .overwrite ∨ lib.isStub m = true) :
    attachOne lib policy root attr (Tags.join '.' path) q = .ok (assign attr o a (lib.obj q)) := by
  obtain ⟨p, rfl, hp⟩ := hp
  unfold attachOne
  rw [Tags.split_join '.' _ (by simp) hdot]
  simp only [List.dropLast_concat, path_follow hp, List.getLast?_append, List.getLast?_singleton,
    Option.some_or, Option.getD_some, hm, hq]
  rcases hpol with h | h
  · subst h; simp
  · simp [h]

theorem attachAll_ok {lib : Lib M} {policy : Policy} {root : M}
    (hobj : ∀ q, lib.isQuantizer (lib.obj q) = true) :
    ∀ {l : List (List Text × M)} {attr : Attr M}, (∀ e ∈ l, ∀ c ∈ e.1, '.' ∉ c) →
    Ready lib policy root attr l →
    ∃ attr', attachAll lib policy root (asText l) attr = (attr', none) ∧
      (∀ e ∈ l, ∀ o a, PlaceOf lib attr root e.1 o a → attr' o a = some (lib.obj e.2)) ∧
      ∀ o a, (∀ e ∈ l, ¬ PlaceOf lib attr root e.1 o a) → attr' o a = attr o a
  | [], attr, _, _ => ⟨attr, rfl, by simp, by simp⟩
  | (path, q) :: l, attr, hdot, hr => by
    obtain ⟨o, a, m, hp, hm, hq, hpol⟩ := hr.place (path, q) (by simp)
    dsimp only at hp
    have hone := attachOne_ok (q := q) (hdot (path, q) (by simp)) hp hm hq hpol
    have hback : ∀ e ∈ l, ∀ x b, PlaceOf lib (assign attr o a (lib.obj q)) root e.1 x b →
        PlaceOf lib attr root e.1 x b := by
      intro e he x b hx
      obtain ⟨x', b', _, hx', _⟩ := hr.place e (by simp [he])
      have := placeOf_unique hx (placeOf_assign (new := lib.obj q) hm hq hx')
      rw [this.1, this.2]
      exact hx'
    have hready : Ready lib policy root (assign attr o a (lib.obj q)) l := by
      refine ⟨?_, ?_, ?_⟩
      · intro e he
        obtain ⟨x, b, m', h1, h2, h3, h4⟩ := hr.place e (by simp [he])
        by_cases hxb : x = o ∧ b = a
        · obtain ⟨rfl, rfl⟩ := hxb
          refine ⟨x, b, lib.obj q, placeOf_assign hm hq h1, by simp [assign], hobj q, ?_⟩
          left
          by_contra hpo
          have := hr.once hpo
          rw [List.pairwise_cons] at this
          exact this.1 e he x b hp h1
        · exact ⟨x, b, m', placeOf_assign hm hq h1, by simp [assign, hxb, h2], h3, h4⟩
      · intro e he e' he' x b h1 h2
        exact hr.same e (by simp [he]) e' (by simp [he']) x b (hback e he x b h1) (hback e' he' x b h2)
      · intro hpo
        have := hr.once hpo
        rw [List.pairwise_cons] at this
        refine (List.Pairwise.and_mem.1 this.2).imp ?_
        rintro e e' ⟨he, he', hh⟩ x b h1 h2
        exact hh x b (hback e he x b h1) (hback e' he' x b h2)
    obtain ⟨attr', e1, e2, e3⟩ := attachAll_ok hobj (fun e he => hdot e (by simp [he])) hready
    refine ⟨attr', ?_, ?_, ?_⟩
    · have : attachAll lib policy root (asText ((path, q) :: l)) attr =
          attachAll lib policy root (asText l) (assign attr o a (lib.obj q)) := by
        show attachAll lib policy root ((Tags.join '.' path, q) :: asText l) attr = _
        rw [attachAll, hone]
      rw [this, e1]
    · intro e he x b hx
      by_cases hin : ∃ e' ∈ l, PlaceOf lib attr root e'.1 x b
      · obtain ⟨e', he', hx'⟩ := hin
        rw [hr.same e he e' (by simp [he']) x b hx hx']
        exact e2 e' he' x b (placeOf_assign hm hq hx')
      · have hnot : ∀ e' ∈ l, ¬ PlaceOf lib (assign attr o a (lib.obj q)) root e'.1 x b :=
          fun e' he' hh => hin ⟨e', he', hback e' he' x b hh⟩
        rw [e3 x b hnot]
        rcases List.mem_cons.1 he with rfl | he
        · obtain ⟨rfl, rfl⟩ := placeOf_unique hx hp
          simp [assign]
        · exact absurd ⟨e, he, hx⟩ hin
    · intro x b hno
      rw [e3 x b (fun e he hh => hno e (by simp [he]) (hback e he x b hh))]
      have : ¬ (x = o ∧ b = a) := by
        rintro ⟨rfl, rfl⟩
        exact hno (path, q) (by simp) hp
      simp [assign, this]

theorem clean_join : ∀ {path : List Text}, (∀ c ∈ path, Clean c) → Clean (Tags.join '.' path)
  | [], _ => by simp [Clean, Tags.join]
  | [p], h => h p (by simp)
  | p :: q :: ps, h => by
    have h1 := h p (by simp)
    have h2 := clean_join (path := q :: ps) (fun c hc => h c (by simp [hc]))
    rw [Tags.join_cons '.' (by simp)]
    obtain ⟨a, b, c⟩ := h1
    obtain ⟨d, e, f⟩ := h2
    simp [Clean, a, b, c, d, e, f]

theorem asText_mem {named : List (List Text × M)} {n : Text} {q : M} (h : (n, q) ∈ asText named) :
    ∃ path, (path, q) ∈ named ∧ n = Tags.join '.' path := by
  obtain ⟨e, he, h⟩ := List.mem_map.1 h
  cases h
  exact ⟨e.1, he, rfl⟩

theorem asText_nodup {sd : M → List (Text × Val T)} {named : List (List Text × M)}
    (h : Savable sd named) : (Dict.keys (asText named)).Nodup := by
  unfold Dict.keys asText
  rw [List.map_map]
  have hmap : named.map (Prod.fst ∘ fun e => (Tags.join '.' e.1, e.2)) =
      (named.map Prod.fst).map (Tags.join '.') := by
    rw [List.map_map]; rfl
  rw [hmap]
  apply List.Nodup.map_on _ h.names
  intro a ha b hb hab
  obtain ⟨e, he, rfl⟩ := List.mem_map.1 ha
  obtain ⟨e', he', rfl⟩ := List.mem_map.1 hb
  rw [← Tags.split_join '.' e.1 (h.nonempty e he) (fun c hc => (h.dots e he c hc).1), hab,
    Tags.split_join '.' e'.1 (h.nonempty e' he') (fun c hc => (h.dots e' he' c hc).1)]

/-- What the saved files hold. -/
theorem save_spec {allowLazy : Bool} {sd : M → List (Text × Val T)} {named : List (List Text × M)}
    {name : Text} {f : File M T} (hs : Savable sd named)
    (h : save allowLazy sd (asText named) name = .ok f) :
    f.version = "1.0".toList ∧ f.name = name ∧
    (∀ e, e ∈ f.quantizers ↔ e ∈ asText named) ∧ (Dict.keys f.quantizers).Nodup ∧
    ∀ e ∈ asText named, ∃ first, Dict.get f.metadata e.1 =
        some (Tags.join ',' ((sd e.2).map (entryText first))) ∧ Clean first ∧
      (∀ k t, (k, Val.tensor t) ∈ sd e.2 → Dict.get f.tensors (tensorKey first k) = some t) ∧
      (allowLazy = true ∨ ∀ x ∈ sd e.2, x.2.isLazy = false) := by
  unfold save at h
  split at h
  · cases h
  · rename_i state metadata hc
    cases h
    obtain ⟨h1, h2⟩ := collectLoop_ok allowLazy sd _ _ _ _ hc
    have hst : state = ((byQuantizer (asText named)).flatMap (writes sd)).foldl
        (fun d e => Dict.set d e.1 e.2) [] := congrArg Prod.fst h1
    have hme : metadata = ((byQuantizer (asText named)).flatMap (notes sd)).foldl
        (fun d e => Dict.set d e.1 e.2) [] := congrArg Prod.snd h1
    have hnd := asText_nodup hs
    have hgroup : ∀ q names n, (q, names) ∈ byQuantizer (asText named) →
        (n ∈ names ↔ (n, q) ∈ asText named) := by
      intro q names n hg
      obtain ⟨hn, _⟩ := byQuantizer_mem.1 hg
      rw [hn, List.mem_map]
      constructor
      · rintro ⟨⟨n', q'⟩, he, rfl⟩
        rw [List.mem_filter, decide_eq_true_iff] at he
        obtain ⟨h1, h2⟩ := he
        dsimp only at h2
        subst h2
        exact h1
      · intro he
        exact ⟨(n, q), by simp [he], rfl⟩
    have hquant : ∀ e, e ∈ (byQuantizer (asText named)).flatMap
        (fun g => g.2.map (fun n => (n, g.1))) ↔ e ∈ asText named := by
      rintro ⟨n, q⟩
      rw [List.mem_flatMap]
      constructor
      · rintro ⟨⟨q', names⟩, hg, he⟩
        obtain ⟨n', hn', he⟩ := List.mem_map.1 he
        cases he
        exact (hgroup _ _ _ hg).1 hn'
      · intro he
        obtain ⟨names, hg, hn⟩ := mem_byQuantizer he
        exact ⟨(q, names), hg, List.mem_map.2 ⟨n, hn, rfl⟩⟩
    refine ⟨rfl, rfl, hquant, ?_, ?_⟩
    · -- names are distinct, also over groups
      dsimp only
      unfold Dict.keys
      rw [List.map_flatMap]
      have : ∀ g : M × List Text, List.map Prod.fst (g.2.map (fun n => (n, g.1))) = g.2 := by
        intro g
        rw [List.map_map]
        exact List.map_id g.2
      simp only [this]
      rw [List.nodup_flatMap]
      refine ⟨?_, ?_⟩
      · rintro ⟨q, names⟩ hg
        obtain ⟨hn, _⟩ := byQuantizer_mem.1 hg
        rw [hn]
        exact List.Nodup.sublist (List.Sublist.map _ List.filter_sublist) hnd
      · have hk := (byQuantizer_spec (asText named)).1
        unfold Dict.keys at hk
        rw [List.nodup_iff_pairwise_ne, List.pairwise_map] at hk
        refine (List.Pairwise.and_mem.1 hk).imp ?_
        rintro ⟨q, ns⟩ ⟨q', ns'⟩ ⟨ha, hb, hne⟩ n hn hn'
        have e1 := (hgroup _ _ _ ha).1 hn
        have e2 := (hgroup _ _ _ hb).1 hn'
        have g1 := (Dict.get_eq_some_iff hnd).2 e1
        have g2 := (Dict.get_eq_some_iff hnd).2 e2
        rw [g1] at g2
        cases g2
        exact hne rfl
    · rintro ⟨n, q⟩ he
      obtain ⟨names, hg, hn⟩ := mem_byQuantizer he
      have hfirst := (hgroup _ _ _ hg).1 (minName_mem (byQuantizer_mem.1 hg).2)
      obtain ⟨fpath, hfp, hfe⟩ := asText_mem hfirst
      have hclean : Clean (minName names) := by
        rw [hfe]
        exact clean_join (fun c hc => (hs.dots _ hfp c hc).2)
      have hmeta : Dict.get metadata n =
          some (Tags.join ',' ((sd q).map (entryText (minName names)))) := by
        rw [hme]
        apply Dict.get_foldl_consistent
        · rintro ⟨a, b⟩ ha ⟨a', b'⟩ hb hab
          dsimp only at hab
          subst hab
          rw [List.mem_flatMap] at ha hb
          obtain ⟨⟨qa, na⟩, hga, ha⟩ := ha
          obtain ⟨⟨qb, nb⟩, hgb, hb⟩ := hb
          obtain ⟨x, hx, hxe⟩ := List.mem_map.1 ha
          obtain ⟨y, hy, hye⟩ := List.mem_map.1 hb
          cases hxe
          cases hye
          have e1 := (Dict.get_eq_some_iff hnd).2 ((hgroup _ _ _ hga).1 hx)
          have e2 := (Dict.get_eq_some_iff hnd).2 ((hgroup _ _ _ hgb).1 hy)
          rw [e1] at e2
          cases e2
          have hnn := (byQuantizer_mem.1 hga).1.trans (byQuantizer_mem.1 hgb).1.symm
          dsimp only
          rw [hnn]
        · rw [List.mem_flatMap]
          exact ⟨(q, names), hg, List.mem_map.2 ⟨n, hn, rfl⟩⟩
      refine ⟨minName names, ?_, hclean, ?_, ?_⟩
      · dsimp only
        rw [if_neg]
        · exact hmeta
        · simp only [Bool.and_eq_true, not_and]
          intro _ hemp
          rw [List.isEmpty_iff] at hemp
          rw [hemp] at hmeta
          cases hmeta
      · intro k t hkt
        dsimp only
        rw [hst]
        apply Dict.get_foldl_consistent
        · rintro ⟨a, b⟩ ha ⟨a', b'⟩ hb hab
          dsimp only at hab ⊢
          subst hab
          rw [List.mem_flatMap] at ha hb
          obtain ⟨⟨qa, na⟩, hga, ha⟩ := ha
          obtain ⟨⟨qb, nb⟩, hgb, hb⟩ := hb
          unfold writes at ha hb
          rw [List.mem_filterMap] at ha hb
          obtain ⟨⟨ka, va⟩, hka, hea⟩ := ha
          obtain ⟨⟨kb, vb⟩, hkb, heb⟩ := hb
          dsimp only at hka hkb hea heb
          cases va with
          | lazy => cases hea
          | tensor ta =>
            cases vb with
            | lazy => cases heb
            | tensor tb =>
              simp only [Option.some.injEq, Prod.mk.injEq] at hea heb
              obtain ⟨pa, hpa, hpae⟩ := asText_mem
                ((hgroup _ _ _ hga).1 (minName_mem (byQuantizer_mem.1 hga).2))
              obtain ⟨pb, hpb, hpbe⟩ := asText_mem
                ((hgroup _ _ _ hgb).1 (minName_mem (byQuantizer_mem.1 hgb).2))
              rw [← hea.2, ← heb.2]
              refine hs.consistent _ hpa _ hpb ka ta kb tb hka hkb ?_
              dsimp only
              rw [← hpae, ← hpbe]
              exact hea.1.trans heb.1.symm
        · rw [List.mem_flatMap]
          refine ⟨(q, names), hg, ?_⟩
          unfold writes
          rw [List.mem_filterMap]
          exact ⟨(k, .tensor t), hkt, rfl⟩
      · cases hal : allowLazy with
        | true => exact .inl rfl
        | false =>
          right
          intro x hx
          exact h2 (q, names) hg hal x hx

/-! ## Properties -/

theorem ready_perm {lib : Lib M} {policy : Policy} {root : M} {attr : Attr M}
    {l l' : List (List Text × M)} (hp : l'.Perm l) (h : Ready lib policy root attr l) :
    Ready lib policy root attr l' := by
  refine ⟨fun e he => h.place e (hp.mem_iff.1 he), fun e he e' he' => h.same e (hp.mem_iff.1 he) e'
    (hp.mem_iff.1 he'), ?_⟩
  intro hpol
  refine (hp.pairwise_iff ?_).2 (h.once hpol)
  intro a b hab o x h1 h2
  exact hab o x h2 h1

/-- **C41.**  What was saved can be loaded: every name gets the quantizer that was saved under it, with
the parameters it had (a parameter that was uninitialised stays as in a new quantizer), names that
shared a quantizer share it again, and nothing else in the model changes.

Not covered (see the deviations): quantizers without parameters, names with the characters `,=:`, and,
under the policies `"error"` and `"skip"`, layers that occur in the model under several names. -/
theorem save_load_round_trip_partial {lib : Lib M} {policy : Policy} {allowSave allowLoad : Bool}
    {sd own : M → List (Text × Val T)} {named : List (List Text × M)} {name : Text}
    {expected : Option Text} {root : M} {attr : Attr M} {f : File M T}
    (hs : Savable sd named) (hobj : ∀ q, lib.isQuantizer (lib.obj q) = true)
    (hown : ∀ e ∈ named, ∀ k, k ∈ Dict.keys (own e.2) ↔ k ∈ Dict.keys (sd e.2))
    (hsave : save allowSave sd (asText named) name = .ok f)
    (hlazy : allowSave = true → allowLoad = true)
    (hexp : expected = none ∨ expected = some name)
    (hready : Ready lib policy root attr named) :
    ∃ attr' params, load lib policy allowLoad expected f own root attr = (attr', params, none) ∧
      (∀ e ∈ named, ∀ o a, PlaceOf lib attr root e.1 o a → attr' o a = some (lib.obj e.2)) ∧
      (∀ o a, (∀ e ∈ named, ¬ PlaceOf lib attr root e.1 o a) → attr' o a = attr o a) ∧
      (∀ e ∈ named, ∀ k, Dict.get (params e.2) k =
        Restored (Dict.get (sd e.2) k) (Dict.get (own e.2) k)) := by
  obtain ⟨h1, h2, h3, h4, h5⟩ := save_spec hs hsave
  -- the quantizers in the file, as paths
  obtain ⟨named', hperm, hquant⟩ : ∃ named' : List (List Text × M), named'.Perm named ∧
      f.quantizers = asText named' := by
    have hnd := asText_nodup hs
    have hq : f.quantizers.Perm (asText named) := by
      rw [List.perm_ext_iff_of_nodup (List.Nodup.of_map _ h4) (List.Nodup.of_map _ hnd)]
      exact h3
    refine ⟨f.quantizers.map (fun e : Text × M => (Tags.split '.' e.1, e.2)), ?_, ?_⟩
    · have h6 := hq.map (fun e : Text × M => (Tags.split '.' e.1, e.2))
      have h7 : (asText named).map (fun e : Text × M => (Tags.split '.' e.1, e.2)) = named := by
        unfold asText
        rw [List.map_map]
        conv_rhs => rw [← List.map_id named]
        apply List.map_congr_left
        intro e he
        simp only [Function.comp_apply, id]
        rw [Tags.split_join '.' e.1 (hs.nonempty e he) (fun c hc => (hs.dots e he c hc).1)]
      rwa [h7] at h6
    · unfold asText
      rw [List.map_map]
      conv_lhs => rw [← List.map_id f.quantizers]
      apply List.map_congr_left
      intro e he
      simp only [Function.comp_apply, id]
      rw [Tags.join_split]
  obtain ⟨params', e1, e2, e3⟩ := loadAll_saved (allowLazy := allowLoad) (f := f) (sd := sd)
    (own := own) (l := f.quantizers) (params := own) (by
      intro e he
      have he' := (h3 e).1 he
      obtain ⟨first, g1, g2, g3, g4⟩ := h5 e he'
      obtain ⟨path, hp, _⟩ := asText_mem he'
      refine ⟨first, g1, hs.params _ hp, g2, (hs.keys _ hp).2, (hs.keys _ hp).1, g3, ?_,
        hown _ hp⟩
      rcases g4 with g4 | g4
      · exact .inl (hlazy g4)
      · exact .inr g4) (fun _ => rfl) (fun _ => .inl (fun _ => rfl))
  obtain ⟨attr', a1, a2, a3⟩ := attachAll_ok hobj
    (fun e he c hc => (hs.dots e (hperm.mem_iff.1 he) c hc).1) (ready_perm hperm hready)
  refine ⟨attr', params', ?_, ?_, ?_, ?_⟩
  · unfold load
    rw [if_neg (by rw [h1]; simp), e1]
    dsimp only
    rw [hquant, a1]
    rcases hexp with h | h
    · subst h; simp
    · subst h; simp [h2]
  · intro e he
    exact a2 e (hperm.mem_iff.2 he)
  · intro o a hno
    exact a3 o a (fun e he => hno e (hperm.mem_iff.1 he))
  · intro e he
    apply e2
    left
    exact List.mem_map.2 ⟨(Tags.join '.' e.1, e.2), (h3 _).2 (List.mem_map.2 ⟨e, he, rfl⟩), rfl⟩

/-! ### Loading is checked -/

/-- The file describes exactly the parameters `own` of the quantizer stored as `n`: every parameter is
listed — as uninitialised, which has to be allowed, or with a tensor that is in the file — and nothing
else is listed. -/
def Fits (allowLazy : Bool) (f : File M T) (n : Text) (own : List (Text × Val T)) : Prop :=
  ∃ entries, Lists f n entries ∧
    (∀ x ∈ entries, (∃ d, x.2.2 = some d ∧ "lazy".toList <:+: d) → allowLazy = true) ∧
    (∀ x ∈ entries, (¬ ∃ d, x.2.2 = some d ∧ "lazy".toList <:+: d) → x.1 ∈ Dict.keys own) ∧
    ∀ k ∈ Dict.keys own, ∃ x ∈ entries, x.1 = k ∧
      ((∃ d, x.2.2 = some d ∧ "lazy".toList <:+: d) ∨ ∃ t, Dict.get f.tensors x.2.1 = some t)

/-- **C42.**  A file of another version, or for another model, or in which the entries of some quantizer
are not exactly its parameters, is refused and leaves the model as it was. -/
theorem load_mismatch_refused {lib : Lib M} {policy : Policy} {allowLazy : Bool}
    {expected : Option Text} {f : File M T} {own : M → List (Text × Val T)} {root : M} {attr : Attr M}
    (h : f.version ≠ "1.0".toList ∨ (∃ n, expected = some n ∧ n ≠ f.name) ∨
      ∃ e ∈ f.quantizers, ¬ Fits allowLazy f e.1 (own e.2)) :
    ∃ err, load lib policy allowLazy expected f own root attr = (attr, own, some err) := by
  unfold load
  split
  · exact ⟨_, rfl⟩
  · rename_i hv
    split
    · exact ⟨_, rfl⟩
    · rename_i hname
      split
      · exact ⟨_, rfl⟩
      · rename_i params hl
        exfalso
        rcases h with h | ⟨n, rfl, hn⟩ | ⟨e, he, hf⟩
        · exact hv h
        · apply hname
          simpa using hn
        · exact hf (loadAll_spec hl e he)

theorem attachOne_replaces {lib : Lib M} {policy : Policy} {root : M} {attr attr' : Attr M}
    {n : Text} {q : M} (h : attachOne lib policy root attr n q = .ok attr') (o : M) (a : Text)
    (hne : attr' o a ≠ attr o a) : ∃ m, attr o a = some m ∧ lib.isQuantizer m = true ∧
      (policy = .overwrite ∨ lib.isStub m = true) := by
  unfold attachOne at h
  dsimp only at h
  split at h
  · cases h
  · rename_i parent hp
    cases hm : attr parent ((Tags.split '.' n).getLast?.getD []) with
    | none => simp [hm] at h
    | some m =>
      simp only [hm] at h
      by_cases hq : lib.isQuantizer m = true
      · have hor : attr' = attr ∨ (attr' = assign attr parent ((Tags.split '.' n).getLast?.getD [])
            (lib.obj q) ∧ (policy = .overwrite ∨ lib.isStub m = true)) := by
          by_cases hs : lib.isStub m = true
          · simp [hq, hs] at h
            exact .inr ⟨h.symm, .inr hs⟩
          · cases policy <;> simp [hq, hs] at h
            · exact .inl h.symm
            · exact .inr ⟨h.symm, .inl rfl⟩
        rcases hor with rfl | ⟨rfl, hpol⟩
        · exact absurd rfl hne
        · unfold assign at hne
          split at hne
          · rename_i hoa
            obtain ⟨rfl, rfl⟩ := hoa
            exact ⟨m, hm, hq, hpol⟩
          · exact absurd rfl hne
      · simp [hq] at h

theorem attachAll_replaces {lib : Lib M} {policy : Policy} {root : M} :
    ∀ {l : List (Text × M)} {attr : Attr M} (o : M) (a : Text),
    (attachAll lib policy root l attr).1 o a ≠ attr o a →
    ∃ m, attr o a = some m ∧ lib.isQuantizer m = true ∧ (policy = .overwrite ∨ lib.isStub m = true)
  | [], attr, o, a, h => absurd rfl h
  | (n, q) :: l, attr, o, a, h => by
    unfold attachAll at h
    split at h
    · exact absurd rfl h
    · rename_i attr1 h1
      by_cases hs : attr1 o a = attr o a
      · rw [← hs] at h ⊢
        exact attachAll_replaces o a h
      · exact attachOne_replaces h1 o a hs

/-- **C42.**  Whatever the file and the outcome, loading replaces quantizers only, and initialised ones
only if overwriting was asked for. -/
theorem load_replaces_only_quantizers {lib : Lib M} {policy : Policy} {allowLazy : Bool}
    {expected : Option Text} {f : File M T} {own : M → List (Text × Val T)} {root : M} {attr : Attr M}
    (o : M) (a : Text)
    (h : (load lib policy allowLazy expected f own root attr).1 o a ≠ attr o a) :
    ∃ m, attr o a = some m ∧ lib.isQuantizer m = true ∧
      (policy = .overwrite ∨ lib.isStub m = true) := by
  unfold load at h
  split at h
  · exact absurd rfl h
  · split at h
    · exact absurd rfl h
    · split at h
      · exact absurd rfl h
      · exact attachAll_replaces o a h

/-- `load_quantized_model`: save_load.py:690-746.  `tied` is the alias map of the manifest, `stored`
the tensors in weights.safetensors, `keysOf` the keys of `model.state_dict()` that do not belong to
quantizers, `weights` the values under these keys.  The result is the model, the parameters of the
loaded quantizers, the weights and the exception. -/
def loadModel (lib : Lib M) (policy : Policy) (allowLazy : Bool) (expected : Option Text)
    (version : Text) (tied : List (Text × Text)) (stored : List (Text × T)) (f : File M T)
    (keysOf : Attr M → List Text) (own : M → List (Text × Val T)) (root : M) (attr : Attr M)
    (weights : Text → Option T) :
    Attr M × (M → List (Text × Val T)) × (Text → Option T) × Option Err :=
  if version ≠ "1.0".toList then (attr, own, weights, some .version)
  else
    match load lib policy allowLazy expected f own root attr with
    | (attr', params, some e) => (attr', params, weights, some e)
    | (attr', params, none) =>
      match expand stored tied stored with
      | none => (attr', params, weights, some .missingTensor)
      | some full =>
        let keys := keysOf attr'
        let missing := keys.filter (fun k => !(Dict.keys full).contains k)
        let unexpected := (Dict.keys full).filter (fun k => !keys.contains k)
        if !missing.isEmpty || !unexpected.isEmpty then (attr', params, weights, some .weights)
        else (attr', params, fun k => match Dict.get full k with | some t => some t | none => weights k,
          none)

/-- **C42.**  No weight of the model changes unless the weights in the artifact are exactly the
weights of the model, and then every weight gets its stored value; the checks of the quantizer files
come before anything is changed.

Missing: if the weights do not fit, the quantizers have already been attached (see the deviation). -/
theorem load_model_checked_partial {lib : Lib M} {policy : Policy} {allowLazy : Bool}
    {expected : Option Text} {version : Text} {tied : List (Text × Text)} {stored : List (Text × T)}
    {f : File M T} {keysOf : Attr M → List Text} {own : M → List (Text × Val T)} {root : M}
    {attr : Attr M} {weights : Text → Option T} :
    let r := loadModel lib policy allowLazy expected version tied stored f keysOf own root attr weights
    (version ≠ "1.0".toList ∨ f.version ≠ "1.0".toList ∨ (∃ n, expected = some n ∧ n ≠ f.name) ∨
        (∃ e ∈ f.quantizers, ¬ Fits allowLazy f e.1 (own e.2)) →
      ∃ err, r = (attr, own, weights, some err)) ∧
    (r.2.2.2 ≠ none → r.2.2.1 = weights) ∧
    (r.2.2.2 = none → ∃ full, expand stored tied stored = some full ∧
      (∀ k, k ∈ Dict.keys full ↔ k ∈ keysOf r.1) ∧
      (∀ k ∈ Dict.keys full, r.2.2.1 k = Dict.get full k) ∧
      ∀ k, k ∉ Dict.keys full → r.2.2.1 k = weights k) := by
  intro r
  refine ⟨?_, ?_, ?_⟩
  · intro h
    by_cases hv : version = "1.0".toList
    · rcases h with h | h
      · exact absurd hv h
      · obtain ⟨err, he⟩ := load_mismatch_refused (lib := lib) (policy := policy) (root := root)
          (attr := attr) h
        refine ⟨err, ?_⟩
        show loadModel _ _ _ _ _ _ _ _ _ _ _ _ _ = _
        unfold loadModel
        rw [if_neg (by simpa using hv), he]
    · refine ⟨.version, ?_⟩
      show loadModel _ _ _ _ _ _ _ _ _ _ _ _ _ = _
      unfold loadModel
      rw [if_pos hv]
  · show (loadModel _ _ _ _ _ _ _ _ _ _ _ _ _).2.2.2 ≠ none → (loadModel _ _ _ _ _ _ _ _ _ _ _ _ _).2.2.1 = _
    unfold loadModel
    split
    · exact fun _ => rfl
    · split
      · exact fun _ => rfl
      · split
        · exact fun _ => rfl
        · dsimp only
          split
          · exact fun _ => rfl
          · intro h; exact absurd rfl h
  · show (loadModel _ _ _ _ _ _ _ _ _ _ _ _ _).2.2.2 = none → ∃ full, _ ∧
      (∀ k, _ ↔ k ∈ keysOf (loadModel _ _ _ _ _ _ _ _ _ _ _ _ _).1) ∧
      (∀ k ∈ Dict.keys full, (loadModel _ _ _ _ _ _ _ _ _ _ _ _ _).2.2.1 k = _) ∧
      ∀ k, _ → (loadModel _ _ _ _ _ _ _ _ _ _ _ _ _).2.2.1 k = _
    unfold loadModel
    split
    · intro h; cases h
    · split
      · intro h; cases h
      · rename_i attr' params hl
        split
        · intro h; cases h
        · rename_i full hf
          dsimp only
          split
          · intro h; cases h
          · rename_i hk
            intro _
            simp only [Bool.or_eq_true, not_or, Bool.not_eq_true', Bool.not_eq_false,
              List.isEmpty_iff, List.filter_eq_nil_iff] at hk
            refine ⟨full, hf, ?_, ?_, ?_⟩
            · intro k
              constructor
              · intro h
                simpa using hk.2 k h
              · intro h
                simpa using hk.1 k h
            · intro k h
              obtain ⟨t, ht⟩ := Option.isSome_iff_exists.1 (Dict.get_isSome_iff.2 h)
              simp [ht]
            · intro k h
              simp [Dict.get_none_iff.2 h]

/-- What `save_quantized_model` writes for the weights and `load_quantized_model` puts back: the weights
themselves (save_load.py:640-645, 721-746). -/
theorem weights_round_trip {C : Type} {lib : Lib M} {policy : Policy} {allowLazy : Bool}
    {expected : Option Text} {version : Text} (read : Tensor → C) {tensors : List (Text × Tensor)}
    (hn : (Dict.keys tensors).Nodup)
    (ht : ∀ a ∈ tensors, ∀ b ∈ tensors, SameView a.2 b.2 → a.2.dtype = b.2.dtype)
    {f : File M C} {keysOf : Attr M → List Text} {own : M → List (Text × Val C)} {root : M}
    {attr : Attr M} {weights : Text → Option C} :
    let s := dedupe tensors
    let r := loadModel lib policy allowLazy expected version s.2 (s.1.map (fun e => (e.1, read e.2))) f
      keysOf own root attr weights
    r.2.2.2 = none → ∀ k ∈ Dict.keys tensors, r.2.2.1 k = (Dict.get tensors k).map read := by
  intro s r hr k hk
  obtain ⟨_, _, h3⟩ := load_model_checked_partial (lib := lib) (policy := policy)
    (allowLazy := allowLazy) (expected := expected) (version := version) (tied := s.2)
    (stored := s.1.map (fun e => (e.1, read e.2))) (f := f) (keysOf := keysOf) (own := own)
    (root := root) (attr := attr) (weights := weights)
  obtain ⟨full, e1, e2, e3, e4⟩ := h3 hr
  obtain ⟨out, o1, o2⟩ := shared_tensors_survive_partial read tensors hn ht
  have : out = full := by
    have : expand (s.1.map (fun e => (e.1, read e.2))) s.2 (s.1.map (fun e => (e.1, read e.2))) =
        some out := o1
    rw [e1] at this
    cases this
    rfl
  subst this
  have hkk : k ∈ Dict.keys out := by
    rw [← Dict.get_isSome_iff, o2 k, Option.isSome_map, Dict.get_isSome_iff]
    exact hk
  rw [← o2 k]
  exact e3 k hkk

/-! ### Deviations

Objects are numbers: 0 the model, 1 and 2 layers, 10… stubs, 100… quantizers. -/

/-- Quantizers are the objects from 10, stubs those below 100; loaded quantizers get new numbers. -/
def demoLib : Lib Nat := ⟨fun m => 10 ≤ m, fun m => 10 ≤ m && m < 100, fun q => q + 1000⟩

/-- A model with layers `a` and `b`, each with a stub `q`. -/
def demoAttr : Attr Nat := fun o c =>
  if o = 0 ∧ c = "a".toList then some 1
  else if o = 0 ∧ c = "b".toList then some 2
  else if o = 1 ∧ c = "q".toList then some 10
  else if o = 2 ∧ c = "q".toList then some 11
  else none

/-- The same layer under two names. -/
def sharedAttr : Attr Nat := fun o c =>
  if o = 0 ∧ (c = "a".toList ∨ c = "b".toList) then some 1
  else if o = 1 ∧ c = "q".toList then some 10
  else none

/-- Quantizers with a scale (initialised for 100, not for 101), and one without parameters. -/
def demoState (q : Nat) : List (Text × Val Nat) :=
  if q = 100 then [("scale".toList, .tensor 7), ("offset".toList, .tensor 3)]
  else if q = 101 then [("scale".toList, .lazy)]
  else []

/-- **C41, deviation.**  A quantizer without parameters can be saved but the file cannot be loaded:
the empty list of entries is read as one (malformed) entry. -/
theorem quantizer_without_parameters_not_loadable :
    ∃ (named : List (Text × Nat)) (f : File Nat Nat), save false demoState named "m".toList = .ok f ∧
      ∀ policy allowLazy attr,
        (load demoLib policy allowLazy none f demoState 0 attr).2.2 = some .metadata := by
  refine ⟨[("a.q".toList, 102)],
    ⟨"1.0".toList, "m".toList, [("a.q".toList, 102)], [], [("a.q".toList, [])]⟩, rfl, ?_⟩
  intro policy allowLazy attr
  rfl

/-- **C41, deviation.**  A name with a comma can be saved but the file cannot be loaded. -/
theorem name_with_comma_not_loadable :
    ∃ (named : List (Text × Nat)) (f : File Nat Nat), save false demoState named "m".toList = .ok f ∧
      ∀ policy allowLazy attr,
        (load demoLib policy allowLazy none f demoState 0 attr).2.2 = some .metadata := by
  refine ⟨[("a,b.q".toList, 100)],
    ⟨"1.0".toList, "m".toList, [("a,b.q".toList, 100)],
      [("a,b.q.scale".toList, 7), ("a,b.q.offset".toList, 3)],
      [("a,b.q".toList, "scale=a,b.q.scale,offset=a,b.q.offset".toList)]⟩, rfl, ?_⟩
  intro policy allowLazy attr
  rfl

/-- **C41, deviation.**  A model that uses one layer under two names: its quantizers can be saved, but
loading them into such a model with stubs fails under the default policy. -/
theorem shared_layer_not_loadable :
    ∃ f : File Nat Nat,
      save false demoState [("a.q".toList, 100), ("b.q".toList, 100)] "m".toList = .ok f ∧
      (load demoLib .error false none f demoState 0 sharedAttr).2.2 = some .initialized ∧
      (load demoLib .overwrite false none f demoState 0 sharedAttr).2.2 = none := by
  refine ⟨⟨"1.0".toList, "m".toList, [("a.q".toList, 100), ("b.q".toList, 100)],
      [("a.q.scale".toList, 7), ("a.q.offset".toList, 3)],
      [("a.q".toList, "scale=a.q.scale,offset=a.q.offset".toList),
       ("b.q".toList, "scale=a.q.scale,offset=a.q.offset".toList)]⟩, rfl, rfl, rfl⟩

/-- **C42, deviation.**  If the second of two quantizers has no place in the model, the first has been
attached when the exception is raised. -/
theorem half_loaded :
    ∃ f : File Nat Nat,
      save false demoState [("a.q".toList, 100), ("c.q".toList, 100)] "m".toList = .ok f ∧
      (load demoLib .error false none f demoState 0 demoAttr).2.2 = some .noParent ∧
      demoAttr 1 "q".toList = some 10 ∧
      (load demoLib .error false none f demoState 0 demoAttr).1 1 "q".toList = some 1100 := by
  refine ⟨⟨"1.0".toList, "m".toList, [("a.q".toList, 100), ("c.q".toList, 100)],
      [("a.q.scale".toList, 7), ("a.q.offset".toList, 3)],
      [("a.q".toList, "scale=a.q.scale,offset=a.q.offset".toList),
       ("c.q".toList, "scale=a.q.scale,offset=a.q.offset".toList)]⟩, rfl, rfl, rfl, rfl⟩

/-- **C42, deviation.**  If the weights do not fit, the quantizers have been attached when the exception
is raised. -/
theorem weights_mismatch_after_attach :
    ∃ f : File Nat Nat, save false demoState [("a.q".toList, 100)] "m".toList = .ok f ∧
      (loadModel demoLib .error false none "1.0".toList [] [("a.bias".toList, 5)] f
        (fun _ => ["a.weight".toList]) demoState 0 demoAttr (fun _ => none)).2.2.2 = some .weights ∧
      demoAttr 1 "q".toList = some 10 ∧
      (loadModel demoLib .error false none "1.0".toList [] [("a.bias".toList, 5)] f
        (fun _ => ["a.weight".toList]) demoState 0 demoAttr (fun _ => none)).1 1 "q".toList =
        some 1100 := by
  refine ⟨⟨"1.0".toList, "m".toList, [("a.q".toList, 100)],
      [("a.q.scale".toList, 7), ("a.q.offset".toList, 3)],
      [("a.q".toList, "scale=a.q.scale,offset=a.q.offset".toList)]⟩, rfl, rfl, rfl, rfl⟩

/-! ## Concrete cases -/

/-- Two layers, the first with an initialised, the second with an uninitialised quantizer. -/
def demoNamed : List (List Text × Nat) :=
  [(["a".toList, "q".toList], 100), (["b".toList, "q".toList], 101)]

/-- Hypotheses of the round trip. -/
example : Savable demoState demoNamed := by
  refine ⟨by decide, by decide, ?_, ?_, by decide, ?_⟩
  · simp [demoNamed, Clean]
  · simp only [demoNamed, Clean]
    decide
  · intro e he e' he' k t k' t' h h' hk
    simp only [demoNamed, List.mem_cons, List.not_mem_nil, or_false] at he he'
    rcases he with rfl | rfl <;> rcases he' with rfl | rfl <;>
      simp [demoState] at h h'
    rcases h with ⟨rfl, rfl⟩ | ⟨rfl, rfl⟩ <;> rcases h' with ⟨rfl, rfl⟩ | ⟨rfl, rfl⟩ <;>
      first | rfl | (revert hk; decide)

theorem demo_place_a : PlaceOf demoLib demoAttr 0 ["a".toList, "q".toList] 1 "q".toList :=
  ⟨["a".toList], rfl, .cons (m' := 1) rfl rfl (.nil _)⟩

theorem demo_place_b : PlaceOf demoLib demoAttr 0 ["b".toList, "q".toList] 2 "q".toList :=
  ⟨["b".toList], rfl, .cons (m' := 2) rfl rfl (.nil _)⟩

example : Ready demoLib .error 0 demoAttr demoNamed := by
  refine ⟨?_, ?_, ?_⟩
  · intro e he
    simp only [demoNamed, List.mem_cons, List.not_mem_nil, or_false] at he
    rcases he with rfl | rfl
    · exact ⟨1, "q".toList, 10, demo_place_a, rfl, rfl, .inr rfl⟩
    · exact ⟨2, "q".toList, 11, demo_place_b, rfl, rfl, .inr rfl⟩
  · intro e he e' he' o a h h'
    simp only [demoNamed, List.mem_cons, List.not_mem_nil, or_false] at he he'
    rcases he with rfl | rfl <;> rcases he' with rfl | rfl
    · rfl
    · obtain ⟨rfl, _⟩ := placeOf_unique h demo_place_a
      obtain ⟨h2, _⟩ := placeOf_unique h' demo_place_b
      cases h2
    · obtain ⟨rfl, _⟩ := placeOf_unique h demo_place_b
      obtain ⟨h2, _⟩ := placeOf_unique h' demo_place_a
      cases h2
    · rfl
  · intro _
    simp only [demoNamed, List.pairwise_cons, List.mem_singleton, forall_eq, List.not_mem_nil,
      false_implies, implies_true, List.Pairwise.nil, and_true]
    intro o a h h'
    obtain ⟨rfl, _⟩ := placeOf_unique h demo_place_a
    obtain ⟨h2, _⟩ := placeOf_unique h' demo_place_b
    cases h2

example : (save true demoState (asText demoNamed) "m".toList).isOk = true := by rfl

theorem mem_join {c d : Char} {p : Text} (hc : d ∈ p) : ∀ {ps : List Text}, p ∈ ps →
    d ∈ Tags.join c ps
  | [q], h => by
    rw [List.mem_singleton] at h
    subst h
    exact hc
  | q :: q' :: ps, h => by
    rw [Tags.join_cons c (by simp)]
    rcases List.mem_cons.1 h with rfl | h
    · simp [hc]
    · simp [mem_join hc h]

/-- A file that lacks the offset of a quantizer does not fit. -/
example : ¬ Fits (T := Nat) (M := Nat) true
    ⟨"1.0".toList, "m".toList, [], [("s".toList, 7)], [("a".toList, "scale=s".toList)]⟩ "a".toList
    (demoState 100) := by
  rintro ⟨entries, ⟨_, h1⟩, _, _, h4⟩
  obtain ⟨x, hx, hk, _⟩ := h4 "offset".toList (by decide)
  have hs : "scale=s".toList =
      Tags.join ',' (entries.map (fun e => Entry.text e.1 e.2.1 e.2.2)) := Option.some.inj h1
  have : 'f' ∈ "scale=s".toList := by
    rw [hs]
    refine mem_join (p := Entry.text x.1 x.2.1 x.2.2) ?_ (List.mem_map.2 ⟨x, hx, rfl⟩)
    unfold Entry.text
    rw [hk]
    simp
  revert this
  decide

end FF.SaveLoad
