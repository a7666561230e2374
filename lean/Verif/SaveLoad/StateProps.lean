/-
Saving and loading quantizer state: properties.
-/
import Verif.SaveLoad.State
import Mathlib.Data.List.Infix

set_option linter.unusedSectionVars false

namespace FF.SaveLoad
open FF

variable {M T : Type} [DecidableEq M]

/-! ## Lemmas: the metadata text -/

theorem splitColons_ne_nil (s : Text) : splitColons s ≠ [] := by
  match s with
  | [] => simp [splitColons]
  | [c] => simp [splitColons]
  | c :: d :: r =>
    unfold splitColons
    split
    · simp
    · split <;> simp

/-- `"::".join(parts)`. -/
def joinColons : List Text → Text
  | [] => []
  | [p] => p
  | p :: q :: ps => p ++ ':' :: ':' :: joinColons (q :: ps)

theorem joinColons_cons {p : Text} {ps : List Text} (h : ps ≠ []) :
    joinColons (p :: ps) = p ++ ':' :: ':' :: joinColons ps := by
  cases ps with
  | nil => exact absurd rfl h
  | cons q ps => rfl

theorem join_splitColons : ∀ (n : Nat) (s : Text), s.length ≤ n → joinColons (splitColons s) = s
  | _, [], _ => rfl
  | _, [c], _ => rfl
  | 0, c :: d :: r, h => by simp at h
  | n + 1, c :: d :: r, h => by
    unfold splitColons
    split
    · rename_i hc
      rw [joinColons_cons (splitColons_ne_nil r), join_splitColons n r (by simp at h; omega)]
      simp [hc.1, hc.2]
    · have ih := join_splitColons n (d :: r) (by simp at h ⊢; omega)
      split
      · rename_i hs; exact absurd hs (splitColons_ne_nil _)
      · rename_i p ps hs
        rw [hs] at ih
        cases ps with
        | nil => simp only [joinColons] at ih ⊢; rw [ih]
        | cons q ps => simp only [joinColons] at ih ⊢; rw [List.cons_append, ih]

theorem splitColons_single : ∀ {s : Text}, ':' ∉ s → splitColons s = [s]
  | [], _ => rfl
  | [c], _ => rfl
  | c :: d :: r, h => by
    have ih := splitColons_single (s := d :: r) (fun hh => h (by simp [hh]))
    have hc : ¬ (c = ':' ∧ d = ':') := fun hh => h (by simp [hh.1])
    rw [splitColons, if_neg hc, ih]

theorem splitColons_append : ∀ {s : Text}, ':' ∉ s → ∀ t,
    splitColons (s ++ ':' :: ':' :: t) = s :: splitColons t
  | [], _, t => by simp [splitColons]
  | [c], h, t => by
    have hc : ¬ (c = ':' ∧ ':' = ':') := fun hh => h (by simp [hh.1])
    show splitColons (c :: ':' :: ':' :: t) = [c] :: splitColons t
    rw [splitColons, if_neg hc]
    have : splitColons (':' :: ':' :: t) = [] :: splitColons t := by simp [splitColons]
    rw [this]
  | c :: d :: r, h, t => by
    have ih := splitColons_append (s := d :: r) (fun hh => h (by simp [hh])) t
    have hc : ¬ (c = ':' ∧ d = ':') := fun hh => h (by simp [hh.1])
    show splitColons (c :: d :: (r ++ ':' :: ':' :: t)) = _
    rw [splitColons, if_neg hc]
    have e : splitColons (d :: (r ++ ':' :: ':' :: t)) = (d :: r) :: splitColons t := ih
    rw [e]

theorem mentionsLazy_iff (d : Text) : mentionsLazy d = true ↔ "lazy".toList <:+: d := by
  unfold mentionsLazy
  rw [List.any_eq_true]
  constructor
  · rintro ⟨s, hs, hp⟩
    rw [List.mem_tails] at hs
    exact (List.isPrefixOf_iff_prefix.1 hp).isInfix.trans hs.isInfix
  · rintro ⟨a, b, h⟩
    refine ⟨"lazy".toList ++ b, ?_, by simp⟩
    rw [List.mem_tails]
    exact ⟨a, by rw [← h]; simp⟩

/-- Whether a value is uninitialised. -/
def Val.isLazy : Val T → Bool
  | .lazy => true
  | .tensor _ => false

theorem Clean.key {first k : Text} (hf : Clean first) (hk : Clean k) : Clean (tensorKey first k) := by
  obtain ⟨a, b, c⟩ := hf
  obtain ⟨d, e, f⟩ := hk
  simp [Clean, tensorKey, a, b, c, d, e, f]

theorem parse_entryText {first : Text} (hf : Clean first) {e : Text × Val T} (he : Clean e.1) :
    parseEntry (entryText first e) = .ok (e.1, tensorKey first e.1, e.2.isLazy) := by
  have hk := hf.key he
  obtain ⟨k, v⟩ := e
  unfold parseEntry entryText
  dsimp only at he hk ⊢
  cases v with
  | lazy =>
    dsimp only
    have : '=' ∉ tensorKey first k ++ "::lazy".toList := by
      simp only [List.mem_append, not_or]
      exact ⟨hk.2.1, by decide⟩
    rw [List.append_assoc, List.cons_append, Tags.split_append, Tags.split_single _ he.2.1,
      Tags.split_single _ this]
    have hs : splitColons (tensorKey first k ++ "::lazy".toList) =
        [tensorKey first k, "lazy".toList] := by
      have := splitColons_append hk.2.2 "lazy".toList
      rw [splitColons_single (s := "lazy".toList) (by decide)] at this
      exact this
    simp only [List.cons_append, List.nil_append]
    rw [hs]
    rfl
  | tensor t =>
    dsimp only
    rw [List.append_nil, Tags.split_append, Tags.split_single _ he.2.1, Tags.split_single _ hk.2.1]
    simp only [List.cons_append, List.nil_append]
    rw [splitColons_single hk.2.2]
    rfl

theorem parse_entries {first : Text} (hf : Clean first) : ∀ {l : List (Text × Val T)},
    (∀ e ∈ l, Clean e.1) → parseEntries (l.map (entryText first)) =
      .ok (l.map (fun e => (e.1, tensorKey first e.1, e.2.isLazy)))
  | [], _ => rfl
  | e :: l, h => by
    rw [List.map_cons, parseEntries, parse_entryText hf (h e (by simp)),
      parse_entries hf (fun e he => h e (by simp [he]))]
    rfl

theorem entryText_no_comma {first : Text} (hf : Clean first) {e : Text × Val T} (he : Clean e.1) :
    ',' ∉ entryText first e := by
  have hk := hf.key he
  unfold entryText
  simp only [List.mem_append, List.mem_cons, not_or]
  refine ⟨⟨he.1, by decide, hk.1⟩, ?_⟩
  cases e.2 <;> simp

/-- What a successful parse says about the text. -/
theorem splitColons_head : ∀ {d : Char} {r p : Text} {ps : List Text},
    splitColons (d :: r) = p :: ps → p = [] ∨ ∃ p', p = d :: p' := by
  intro d r p ps h
  cases r with
  | nil => simp [splitColons] at h; exact .inr ⟨[], h.1.symm⟩
  | cons e r =>
    unfold splitColons at h
    split at h
    · cases h; exact .inl rfl
    · split at h
      · cases h; exact .inr ⟨[], rfl⟩
      · cases h; exact .inr ⟨_, rfl⟩

theorem splitColons_parts : ∀ (n : Nat) (s : Text), s.length ≤ n →
    ∀ p ∈ splitColons s, ¬ "::".toList <:+: p
  | _, [], _, p, hp => by
    simp only [splitColons, List.mem_singleton] at hp
    subst hp
    intro h
    have := h.length_le
    simp at this
  | _, [c], _, p, hp => by
    simp only [splitColons, List.mem_singleton] at hp
    subst hp
    intro h
    have := h.length_le
    simp at this
  | 0, c :: d :: r, h, _, _ => by simp at h
  | n + 1, c :: d :: r, h, p, hp => by
    unfold splitColons at hp
    split at hp
    · rcases List.mem_cons.1 hp with rfl | hp
      · intro h
        have := h.length_le
        simp at this
      · exact splitColons_parts n r (by simp at h; omega) p hp
    · rename_i hc
      have ih := splitColons_parts n (d :: r) (by simp at h ⊢; omega)
      split at hp
      · rename_i hs; exact absurd hs (splitColons_ne_nil _)
      · rename_i p0 ps hs
        rw [hs] at ih
        rcases List.mem_cons.1 hp with rfl | hp
        · intro hin
          rcases List.infix_cons_iff.1 hin with hpre | hin
          · rcases splitColons_head hs with h0 | ⟨p', h0⟩
            · subst h0
              have := hpre.length_le
              simp at this
            · subst h0
              have h1 : ("::".toList : List Char) = [':', ':'] := rfl
              rw [h1, List.cons_prefix_cons, List.cons_prefix_cons] at hpre
              exact hc ⟨hpre.1.symm, hpre.2.1.symm⟩
          · exact ih p0 (by simp) hin
        · exact ih p (by simp [hp])

theorem parseEntry_text {s : Text} {k tk : Text} {lz : Bool} (h : parseEntry s = .ok (k, tk, lz)) :
    ∃ deco, s = Entry.text k tk deco ∧ ('=' ∉ k ∧ '=' ∉ tk ∧ ¬ "::".toList <:+: tk) ∧
      (lz = true ↔ ∃ d, deco = some d ∧ "lazy".toList <:+: d) := by
  unfold parseEntry at h
  split at h
  · rename_i key tk0 hs
    have hj := Tags.join_split '=' s
    rw [hs] at hj
    simp only [Tags.join] at hj
    have hc := join_splitColons tk0.length tk0 (Nat.le_refl _)
    have hparts := splitColons_parts tk0.length tk0 (Nat.le_refl _)
    have hno := fun p hp => Tags.split_no_sep '=' s p (hs ▸ hp)
    split at h
    · rename_i tk1 h1
      rw [h1] at hc hparts
      cases h
      refine ⟨none, ?_, ⟨hno _ (by simp), ?_, hparts _ (by simp)⟩, by simp⟩
      · rw [← hj, ← hc]
        simp [Entry.text, joinColons]
      · have := hno tk0 (by simp)
        rw [← hc] at this
        simpa [joinColons] using this
    · rename_i tk1 d h1
      rw [h1] at hc hparts
      cases h
      refine ⟨some d, ?_, ⟨hno _ (by simp), ?_, hparts _ (by simp)⟩, ?_⟩
      · rw [← hj, ← hc]
        simp [Entry.text, joinColons]
      · have := hno tk0 (by simp)
        rw [← hc] at this
        simp [joinColons] at this
        exact this.1
      · rw [mentionsLazy_iff]; simp
    · cases h
  · cases h

theorem parseEntries_text : ∀ {ss : List Text} {xs : List (Text × Text × Bool)},
    parseEntries ss = .ok xs → ∃ ents : List (Text × Text × Option Text),
      ss = ents.map (fun e => Entry.text e.1 e.2.1 e.2.2) ∧
      (∀ e ∈ ents, '=' ∉ e.1 ∧ '=' ∉ e.2.1 ∧ ¬ "::".toList <:+: e.2.1) ∧
      List.Forall₂ (fun x e => x.1 = e.1 ∧ x.2.1 = e.2.1 ∧
        (x.2.2 = true ↔ ∃ d, e.2.2 = some d ∧ "lazy".toList <:+: d)) xs ents
  | [], xs, h => by cases h; exact ⟨[], rfl, by simp, .nil⟩
  | s :: ss, xs, h => by
    unfold parseEntries at h
    split at h
    · cases h
    · rename_i x hx
      split at h
      · cases h
      · rename_i xs' hxs
        cases h
        obtain ⟨k, tk, lz⟩ := x
        obtain ⟨deco, h1, h0, h2⟩ := parseEntry_text hx
        obtain ⟨ents, h3, h5, h4⟩ := parseEntries_text hxs
        refine ⟨(k, tk, deco) :: ents, by rw [List.map_cons, ← h1, ← h3], ?_, .cons ⟨rfl, rfl, h2⟩ h4⟩
        intro e he
        rcases List.mem_cons.1 he with rfl | he
        · exact h0
        · exact h5 e he

/-! ## Lemmas: saving -/

theorem byQuantizer_spec (named : List (Text × M)) :
    (Dict.keys (byQuantizer named)).Nodup ∧ ∀ q, Dict.get (byQuantizer named) q =
      Dict.nonEmpty ((named.filter (fun e => decide (e.2 = q))).map Prod.fst) :=
  Dict.group_spec (fun e : Text × M => e.2) Prod.fst named

theorem byQuantizer_mem {named : List (Text × M)} {q : M} {names : List Text} :
    (q, names) ∈ byQuantizer named ↔
      names = (named.filter (fun e => decide (e.2 = q))).map Prod.fst ∧ names ≠ [] := by
  have h := byQuantizer_spec named
  rw [← Dict.get_eq_some_iff h.1, h.2 q, Dict.nonEmpty_some]
  constructor
  · rintro ⟨h1, h2⟩; exact ⟨h1.symm, h1 ▸ h2⟩
  · rintro ⟨h1, h2⟩; exact ⟨h1.symm, h1 ▸ h2⟩

theorem mem_byQuantizer {named : List (Text × M)} {n : Text} {q : M} (h : (n, q) ∈ named) :
    ∃ names, (q, names) ∈ byQuantizer named ∧ n ∈ names := by
  refine ⟨_, byQuantizer_mem.2 ⟨rfl, ?_⟩, ?_⟩
  · exact List.ne_nil_of_mem (List.mem_map.2 ⟨(n, q), by simp [h], rfl⟩)
  · exact List.mem_map.2 ⟨(n, q), by simp [h], rfl⟩

/-- The tensors written for one quantizer. -/
def writes (sd : M → List (Text × Val T)) (g : M × List Text) : List (Text × T) :=
  (sd g.1).filterMap (fun e => match e.2 with
    | .lazy => none
    | .tensor t => some (tensorKey (minName g.2) e.1, t))

/-- The metadata written for one quantizer. -/
def notes (sd : M → List (Text × Val T)) (g : M × List Text) : List (Text × Text) :=
  g.2.map (fun n => (n, Tags.join ',' ((sd g.1).map (entryText (minName g.2)))))

theorem collectLoop_ok (allowLazy : Bool) (sd : M → List (Text × Val T)) :
    ∀ (gs : List (M × List Text)) (state : List (Text × T)) (metadata : List (Text × Text)) r,
    collectLoop allowLazy sd gs state metadata = .ok r →
    r = ((gs.flatMap (writes sd)).foldl (fun d e => Dict.set d e.1 e.2) state,
      (gs.flatMap (notes sd)).foldl (fun d e => Dict.set d e.1 e.2) metadata) ∧
    ∀ g ∈ gs, allowLazy = false → ∀ e ∈ sd g.1, e.2.isLazy = false
  | [], state, metadata, r, h => by
    simp only [collectLoop] at h
    cases h
    simp
  | (q, names) :: rest, state, metadata, r, h => by
    unfold collectLoop at h
    dsimp only at h
    split at h
    · cases h
    · rename_i hl
      obtain ⟨h1, h2⟩ := collectLoop_ok allowLazy sd rest _ _ _ h
      refine ⟨?_, ?_⟩
      · rw [h1, List.flatMap_cons, List.flatMap_cons, List.foldl_append, List.foldl_append]
        congr 2
        · unfold writes
          dsimp only
          generalize minName names = first
          clear h h1 h2 hl
          generalize sd q = l
          induction l generalizing state with
          | nil => rfl
          | cons e l ih =>
            obtain ⟨k, v⟩ := e
            cases v with
            | lazy =>
              rw [List.foldl_cons, List.filterMap_cons_none (by rfl)]
              exact ih state
            | tensor t =>
              rw [List.foldl_cons, List.filterMap_cons_some (b := (tensorKey first k, t)) (by rfl),
                List.foldl_cons]
              exact ih _
        · unfold notes
          dsimp only
          rw [List.foldl_map]
      · intro g hg hal e he
        rcases List.mem_cons.1 hg with rfl | hg
        · by_contra hv
          apply hl
          rw [hal]
          simp only [Bool.not_false, Bool.and_true]
          rw [List.any_eq_true]
          refine ⟨e, he, ?_⟩
          cases hh : e.2 with
          | lazy => rfl
          | tensor t => rw [hh] at hv; simp [Val.isLazy] at hv
        · exact h2 g hg hal e he

/-! ## Lemmas: loading -/

theorem fetch_ok {tensors : List (Text × T)} : ∀ {l : List (Text × Text)} (g : Text → Option T),
    (∀ e ∈ l, Dict.get tensors e.2 = g e.1 ∧ (g e.1).isSome) →
    ∃ out, fetch tensors l = .ok out ∧ (∀ k, k ∈ Dict.keys out ↔ k ∈ Dict.keys l) ∧
      ∀ k ∈ Dict.keys l, Dict.get out k = g k
  | [], g, h => ⟨[], rfl, by simp [Dict.keys], by simp [Dict.keys]⟩
  | (k, tk) :: l, g, h => by
    obtain ⟨h1, h2⟩ := h (k, tk) (by simp)
    dsimp only at h1 h2
    obtain ⟨t, ht⟩ := Option.isSome_iff_exists.1 h2
    obtain ⟨out, ho, hk, hg⟩ := fetch_ok (tensors := tensors) (l := l) g (fun e he => h e (by simp [he]))
    refine ⟨(k, t) :: out, by simp [fetch, h1, ht, ho], ?_, ?_⟩
    · intro k'
      have := hk k'
      simp only [Dict.keys] at this
      simp [Dict.keys, this]
    · intro k' hk'
      rw [Dict.get]
      by_cases hkk : k = k'
      · subst hkk; rw [if_pos rfl, ht]
      · rw [if_neg hkk]
        apply hg
        simp only [Dict.keys, List.map_cons, List.mem_cons] at hk'
        exact hk'.resolve_left (fun hh => hkk hh.symm)

theorem fetch_some {tensors : List (Text × T)} : ∀ {l : List (Text × Text)} {out},
    fetch tensors l = .ok out →
    Dict.keys out = Dict.keys l ∧ ∀ e ∈ l, ∃ t, Dict.get tensors e.2 = some t
  | [], out, h => by cases h; simp [Dict.keys]
  | (k, tk) :: l, out, h => by
    unfold fetch at h
    split at h
    · cases h
    · rename_i t ht
      split at h
      · cases h
      · rename_i r hr
        cases h
        obtain ⟨h1, h2⟩ := fetch_some hr
        refine ⟨by simp only [Dict.keys, List.map_cons] at h1 ⊢; rw [h1], ?_⟩
        intro e he
        rcases List.mem_cons.1 he with rfl | he
        · exact ⟨t, ht⟩
        · exact h2 e he

theorem keys_assignParams (own : List (Text × Val T)) (given : List (Text × T)) :
    Dict.keys (assignParams own given) = Dict.keys own := by
  simp [Dict.keys, assignParams, List.map_map, Function.comp_def]

theorem get_assignParams (own : List (Text × Val T)) (given : List (Text × T)) (k : Text) :
    Dict.get (assignParams own given) k =
      (Dict.get own k).map (fun v => match Dict.get given k with | some t => .tensor t | none => v) := by
  induction own with
  | nil => rfl
  | cons e own ih =>
    unfold assignParams at ih ⊢
    simp only [List.map_cons, Dict.get]
    by_cases h : e.1 = k
    · subst h
      rw [if_pos rfl, if_pos rfl]
      rfl
    · rw [if_neg h, if_neg h]
      exact ih

/-- What loading one quantizer does, for any file. -/
theorem loadOne_spec {allowLazy : Bool} {f : File M T} {params params' : M → List (Text × Val T)}
    {n : Text} {q : M} (h : loadOne allowLazy f params n q = .ok params') :
    (∀ q', Dict.keys (params' q') = Dict.keys (params q')) ∧
    ∃ entries, Lists f n entries ∧
      (∀ e ∈ entries, (∃ d, e.2.2 = some d ∧ "lazy".toList <:+: d) → allowLazy = true) ∧
      (∀ e ∈ entries, (¬ ∃ d, e.2.2 = some d ∧ "lazy".toList <:+: d) → e.1 ∈ Dict.keys (params q)) ∧
      ∀ k ∈ Dict.keys (params q), ∃ e ∈ entries, e.1 = k ∧
        ((∃ d, e.2.2 = some d ∧ "lazy".toList <:+: d) ∨ ∃ t, Dict.get f.tensors e.2.1 = some t) := by
  unfold loadOne at h
  split at h
  · cases h
  · rename_i text htext
    split at h
    · cases h
    · rename_i entries hent
      dsimp only at h
      split at h
      · cases h
      · rename_i given hgiven
        split at h
        · cases h
        · rename_i hlazy
          split at h
          · cases h
          · rename_i hkeys
            cases h
            obtain ⟨ents, ht, hread, hf⟩ := parseEntries_text hent
            obtain ⟨hk, hfetch⟩ := fetch_some hgiven
            have hkk : ∀ k, k ∈ Dict.keys given ↔ ∃ x ∈ entries, x.2.2 = false ∧ x.1 = k := by
              intro k
              rw [hk, Dict.mem_keys_ofList]
              simp only [Dict.keys, List.map_map, List.mem_map, List.mem_filter, Function.comp_apply,
                Bool.not_eq_true']
              constructor
              · rintro ⟨x, ⟨h1, h2⟩, h3⟩; exact ⟨x, h1, h2, h3⟩
              · rintro ⟨x, h1, h2, h3⟩; exact ⟨x, ⟨h1, h2⟩, h3⟩
            have hto : ∀ e ∈ ents, ∃ x ∈ entries, x.1 = e.1 ∧ x.2.1 = e.2.1 ∧
                (x.2.2 = true ↔ ∃ d, e.2.2 = some d ∧ "lazy".toList <:+: d) := by
              clear hent ht hread hgiven hlazy hkeys hk hfetch hkk
              induction hf with
              | nil => intro e he; cases he
              | cons hx _ ih =>
                intro e he
                rcases List.mem_cons.1 he with rfl | he
                · exact ⟨_, by simp, hx⟩
                · obtain ⟨x, h1, h2⟩ := ih e he
                  exact ⟨x, by simp [h1], h2⟩
            have hfrom : ∀ x ∈ entries, ∃ e ∈ ents, x.1 = e.1 ∧ x.2.1 = e.2.1 ∧
                (x.2.2 = true ↔ ∃ d, e.2.2 = some d ∧ "lazy".toList <:+: d) := by
              clear hent ht hread hgiven hlazy hkeys hk hfetch hkk hto
              induction hf with
              | nil => intro e he; cases he
              | cons hx _ ih =>
                intro e he
                rcases List.mem_cons.1 he with rfl | he
                · exact ⟨_, by simp, hx⟩
                · obtain ⟨x, h1, h2⟩ := ih e he
                  exact ⟨x, by simp [h1], h2⟩
            simp only [Bool.or_eq_true, not_or, Bool.not_eq_true', Bool.not_eq_false,
              List.isEmpty_iff, List.filter_eq_nil_iff, List.contains_iff_mem, List.mem_filter] at hkeys
            refine ⟨?_, ents, ?_, ?_, ?_, ?_⟩
            · intro q'
              dsimp only
              split
              · rename_i hq; rw [hq, keys_assignParams]
              · rfl
            · refine ⟨?_, ?_⟩
              · intro e he
                refine ⟨?_, hread e he⟩
                exact Tags.split_no_sep ',' text _ (ht ▸ List.mem_map.2 ⟨e, he, rfl⟩)
              · rw [htext, ← ht, Tags.join_split]
            · intro e he hl
              obtain ⟨x, hx, _, _, h3⟩ := hto e he
              by_contra hal
              apply hlazy
              rw [Bool.not_eq_true] at hal
              rw [hal]
              simp only [Bool.not_false, Bool.and_true, Bool.not_eq_true', List.isEmpty_eq_false_iff]
              exact List.ne_nil_of_mem (List.mem_map.2 ⟨x, List.mem_filter.2 ⟨hx, h3.2 hl⟩, rfl⟩)
            · intro e he hl
              obtain ⟨x, hx, h1, _, h3⟩ := hto e he
              refine hkeys.2 e.1 ((hkk e.1).2 ⟨x, hx, ?_, h1⟩)
              rw [← Bool.not_eq_true]
              exact fun hh => hl (h3.1 hh)
            · intro k hkmem
              by_cases hg : k ∈ Dict.keys given
              · have hg' := hg
                rw [hk] at hg'
                obtain ⟨tk, htk⟩ := Option.isSome_iff_exists.1 (Dict.get_isSome_iff.2 hg')
                obtain ⟨t, hft⟩ := hfetch _ (Dict.get_mem htk)
                have hmem := Dict.ofList_get_mem htk
                obtain ⟨x, hx, hxe⟩ := List.mem_map.1 hmem
                obtain ⟨e, he, h1, h2, _⟩ := hfrom x (List.mem_filter.1 hx).1
                cases hxe
                exact ⟨e, he, h1.symm, .inr ⟨t, h2 ▸ hft⟩⟩
              · have hmiss := hkeys.1 k ⟨hkmem, by simpa using hg⟩
                obtain ⟨x, hx, hxe⟩ := List.mem_map.1 hmiss
                rw [List.mem_filter] at hx
                obtain ⟨e, he, h1, h2, h3⟩ := hfrom x hx.1
                exact ⟨e, he, h1 ▸ hxe, .inl (h3.1 hx.2)⟩

theorem loadAll_spec {allowLazy : Bool} {f : File M T} : ∀ {l : List (Text × M)}
    {params params' : M → List (Text × Val T)}, loadAll allowLazy f l params = .ok params' →
    ∀ e ∈ l, ∃ entries, Lists f e.1 entries ∧
      (∀ x ∈ entries, (∃ d, x.2.2 = some d ∧ "lazy".toList <:+: d) → allowLazy = true) ∧
      (∀ x ∈ entries, (¬ ∃ d, x.2.2 = some d ∧ "lazy".toList <:+: d) →
        x.1 ∈ Dict.keys (params e.2)) ∧
      ∀ k ∈ Dict.keys (params e.2), ∃ x ∈ entries, x.1 = k ∧
        ((∃ d, x.2.2 = some d ∧ "lazy".toList <:+: d) ∨ ∃ t, Dict.get f.tensors x.2.1 = some t)
  | [], params, params', h => by simp
  | (n, q) :: l, params, params', h => by
    unfold loadAll at h
    split at h
    · cases h
    · rename_i params1 h1
      obtain ⟨hk, hone⟩ := loadOne_spec h1
      intro e he
      rcases List.mem_cons.1 he with rfl | he
      · exact hone
      · have := loadAll_spec h e he
        rw [hk] at this
        exact this

end FF.SaveLoad
