/-
Tensors that share memory, when saving and loading a quantized model: quantization/save_load.py.

Simplifications: a tensor is its address, shape, strides, device and element type; what it contains
is an arbitrary function `read` of these.  Writing a SafeTensors file and reading it back gives the
same names with the same contents; so does JSON for the alias map.
-/
import Verif.Util.Dict

set_option linter.unusedSectionVars false

namespace FF.SaveLoad
open FF

/-- A Python string. -/
abbrev Text := List Char

/-- A tensor, as far as `_deduplicate_shared_tensors` looks at it. -/
structure Tensor where
  ptr : Nat
  shape : List Nat
  stride : List Int
  device : Nat
  dtype : Nat
  deriving DecidableEq, Repr

/-! ## Model -/

/-- The key of a tensor: save_load.py:86. -/
def Tensor.key (t : Tensor) : Nat × List Nat × List Int × Nat := (t.ptr, t.shape, t.stride, t.device)

/-- `groups`: save_load.py:84-87. -/
def groups (tensors : List (Text × Tensor)) : List ((Nat × List Nat × List Int × Nat) × List Text) :=
  tensors.foldl (fun g e =>
    Dict.set g e.2.key ((Dict.get g e.2.key).getD [] ++ [e.1])) []

/-- `a <= b` for strings: Python compares the code points from the left. -/
def leText : Text → Text → Bool
  | [], _ => true
  | _ :: _, [] => false
  | a :: as, b :: bs =>
    if a.toNat < b.toNat then true else if a.toNat = b.toNat then leText as bs else false

/-- The lesser of two strings. -/
def pick (a b : Text) : Text := if leText a b then a else b

/-- `min(names)`. -/
def minName : List Text → Text
  | [] => []
  | n :: ns => ns.foldl pick n

/-- The body of the loop over `groups`: save_load.py:91-96. -/
def dedupStep (tensors : List (Text × Tensor))
    (acc : List (Text × Tensor) × List (Text × Text)) (names : List Text) :
    List (Text × Tensor) × List (Text × Text) :=
  let rep := minName names
  (match Dict.get tensors rep with
    | some t => Dict.set acc.1 rep t
    | none => acc.1,
   names.foldl (fun al n => if n ≠ rep then Dict.set al n rep else al) acc.2)

/-- `_deduplicate_shared_tensors`: save_load.py:62-97. -/
def dedupe (tensors : List (Text × Tensor)) : List (Text × Tensor) × List (Text × Text) :=
  ((groups tensors).map Prod.snd).foldl (dedupStep tensors) ([], [])

/-- `_expand_shared_tensors`: save_load.py:100-125; `none` is the `RuntimeError`. -/
def expand {C : Type} (tensors : List (Text × C)) : List (Text × Text) → List (Text × C) →
    Option (List (Text × C))
  | [], acc => some acc
  | (n, r) :: rest, acc =>
    match Dict.get tensors r with
    | none => none
    | some c => expand tensors rest (Dict.set acc n c)

/-- What is read back after saving: save_load.py:640-651 and 721-723. -/
def saveLoad {C : Type} (read : Tensor → C) (tensors : List (Text × Tensor)) :
    Option (List (Text × C)) :=
  let s := dedupe tensors
  let stored := s.1.map (fun e => (e.1, read e.2))
  expand stored s.2 stored

/-! ## Specification -/

/-- Two tensors are the same view of the same memory. -/
def SameView (a b : Tensor) : Prop :=
  a.ptr = b.ptr ∧ a.shape = b.shape ∧ a.stride = b.stride ∧ a.device = b.device

/-! ## Lemmas -/

theorem sameView_iff (a b : Tensor) : SameView a b ↔ a.key = b.key := by
  simp [SameView, Tensor.key]

theorem le_refl (a : Text) : leText a a = true := by
  induction a with
  | nil => rfl
  | cons c a ih => simp [leText, ih]

theorem le_total (a b : Text) : leText a b = true ∨ leText b a = true := by
  induction a generalizing b with
  | nil => exact .inl rfl
  | cons c a ih =>
    cases b with
    | nil => exact .inr rfl
    | cons d b =>
      simp only [leText]
      rcases Nat.lt_trichotomy c.toNat d.toNat with h | h | h
      · simp [h]
      · simp only [h, Nat.lt_irrefl, if_false, if_true]; exact ih b
      · simp [h]

theorem le_trans' {a b c : Text} (h1 : leText a b = true) (h2 : leText b c = true) :
    leText a c = true := by
  induction a generalizing b c with
  | nil => rfl
  | cons x a ih =>
    cases b with
    | nil => cases h1
    | cons y b =>
      cases c with
      | nil => cases h2
      | cons z c =>
        simp only [leText] at h1 h2 ⊢
        split at h1
        · rename_i hxy
          split at h2
          · rw [if_pos (by omega)]
          · split at h2
            · rw [if_pos (by omega)]
            · cases h2
        · split at h1
          · rename_i hxy
            split at h2
            · rw [if_pos (by omega)]
            · split at h2
              · rw [if_neg (by omega), if_pos (by omega)]
                exact ih h1 h2
              · cases h2
          · cases h1

theorem pick_spec (a b : Text) :
    (pick a b = a ∨ pick a b = b) ∧ leText (pick a b) a = true ∧ leText (pick a b) b = true := by
  unfold pick
  split
  · rename_i h; exact ⟨.inl rfl, le_refl a, h⟩
  · rename_i h
    exact ⟨.inr rfl, (le_total a b).resolve_left h, le_refl b⟩

theorem foldl_min_mem (ns : List Text) (n : Text) : ns.foldl pick n ∈ n :: ns := by
  induction ns generalizing n with
  | nil => simp
  | cons m ns ih =>
    rw [List.foldl_cons]
    rcases List.mem_cons.1 (ih (pick n m)) with h | h
    · rw [h]
      rcases (pick_spec n m).1 with h | h <;> rw [h] <;> simp
    · simp [h]

theorem foldl_min_le (ns : List Text) (n : Text) :
    ∀ m ∈ n :: ns, leText (ns.foldl pick n) m = true := by
  induction ns generalizing n with
  | nil => intro m hm; simp at hm; simp [hm, le_refl]
  | cons k ns ih =>
    intro m hm
    rw [List.foldl_cons]
    have h0 := ih (pick n k) (pick n k) (by simp)
    rcases List.mem_cons.1 hm with rfl | hm
    · exact le_trans' h0 (pick_spec _ _).2.1
    · rcases List.mem_cons.1 hm with rfl | hm
      · exact le_trans' h0 (pick_spec _ _).2.2
      · exact ih (pick n k) m (by simp [hm])

theorem minName_mem {ns : List Text} (h : ns ≠ []) : minName ns ∈ ns := by
  cases ns with
  | nil => exact absurd rfl h
  | cons n ns => exact foldl_min_mem ns n

theorem minName_le {ns : List Text} {m : Text} (h : m ∈ ns) : leText (minName ns) m = true := by
  cases ns with
  | nil => cases h
  | cons n ns => exact foldl_min_le ns n m h

/-- What `groups` holds: the names of the tensors with a given key, in order. -/
theorem groups_spec (tensors : List (Text × Tensor)) :
    (Dict.keys (groups tensors)).Nodup ∧ ∀ k,
      Dict.get (groups tensors) k =
        Dict.nonEmpty ((tensors.filter (fun e => decide (e.2.key = k))).map Prod.fst) :=
  Dict.group_spec (fun e : Text × Tensor => e.2.key) Prod.fst tensors

/-- Every list of names in `groups` belongs to one key. -/
theorem groups_mem {tensors : List (Text × Tensor)} {ns : List Text}
    (h : ns ∈ (groups tensors).map Prod.snd) :
    ∃ k, ns = (tensors.filter (fun e => decide (e.2.key = k))).map Prod.fst ∧ ns ≠ [] := by
  obtain ⟨⟨k, ns'⟩, he, rfl⟩ := List.mem_map.1 h
  have hs := groups_spec tensors
  have := (Dict.get_eq_some_iff hs.1).2 he
  rw [hs.2 k] at this
  obtain ⟨h1, h2⟩ := Dict.nonEmpty_some.1 this
  exact ⟨k, h1.symm, h1 ▸ h2⟩

theorem mem_groups {tensors : List (Text × Tensor)} {e : Text × Tensor} (h : e ∈ tensors) :
    (tensors.filter (fun e' => decide (e'.2.key = e.2.key))).map Prod.fst ∈
      (groups tensors).map Prod.snd := by
  have hs := groups_spec tensors
  have := hs.2 e.2.key
  have hne : (tensors.filter (fun e' => decide (e'.2.key = e.2.key))).map Prod.fst ≠ [] := by
    intro hh
    have : e.1 ∈ (tensors.filter (fun e' => decide (e'.2.key = e.2.key))).map Prod.fst :=
      List.mem_map.2 ⟨e, by simp [h], rfl⟩
    rw [hh] at this
    cases this
  rw [Dict.nonEmpty_some.2 ⟨rfl, hne⟩] at this
  exact List.mem_map.2 ⟨_, Dict.get_mem this, rfl⟩

/-- The alias loop. -/
theorem alias_fold (rep : Text) (names : List Text) (al : List (Text × Text)) (n r : Text) :
    Dict.get (names.foldl (fun al n => if n ≠ rep then Dict.set al n rep else al) al) n = some r ↔
      (n ∈ names ∧ n ≠ rep ∧ r = rep) ∨
        (¬ (n ∈ names ∧ n ≠ rep) ∧ Dict.get al n = some r) := by
  induction names generalizing al with
  | nil => simp
  | cons m ns ih =>
    rw [List.foldl_cons, ih]
    by_cases hm : m = rep
    · subst hm
      simp only [ne_eq, not_true, if_false, List.mem_cons]
      by_cases hn : n = m <;> simp [hn]
    · simp only [ne_eq, hm, not_false_eq_true, if_true, Dict.get_set, List.mem_cons]
      by_cases hmn : m = n
      · subst hmn
        by_cases h2 : m ∈ ns <;> simp [hm, h2, eq_comm]
      · have : ¬ n = m := fun h => hmn h.symm
        simp [hmn, this]

section
variable {tensors : List (Text × Tensor)} (hn : (Dict.keys tensors).Nodup)
include hn

/-- The outer loop: the representatives and the aliases of the groups seen so far. -/
theorem dedupe_fold (gs : List (List Text))
    (hg : ∀ ns ∈ gs, ∃ k, ns = (tensors.filter (fun e => decide (e.2.key = k))).map Prod.fst ∧
      ns ≠ []) :
    ∀ acc : List (Text × Tensor) × List (Text × Text),
    let res := gs.foldl (dedupStep tensors) acc
    (∀ n t, Dict.get res.1 n = some t ↔
      (Dict.get tensors n = some t ∧ ∃ ns ∈ gs, n = minName ns) ∨
      ((∀ ns ∈ gs, n ≠ minName ns) ∧ Dict.get acc.1 n = some t)) ∧
    (∀ n r, (∃ ns ∈ gs, n ∈ ns ∧ n ≠ minName ns) → Dict.get res.2 n = some r →
      ∃ ns ∈ gs, n ∈ ns ∧ n ≠ minName ns ∧ r = minName ns) ∧
    (∀ n, (∃ ns ∈ gs, n ∈ ns ∧ n ≠ minName ns) → (Dict.get res.2 n).isSome) ∧
    (∀ n, (¬ ∃ ns ∈ gs, n ∈ ns ∧ n ≠ minName ns) → Dict.get res.2 n = Dict.get acc.2 n) := by
  induction gs with
  | nil => intro acc; simp
  | cons ns gs ih =>
    intro acc
    have ih := ih (fun x hx => hg x (by simp [hx])) (dedupStep tensors acc ns)
    obtain ⟨k, hk, hne⟩ := hg ns (by simp)
    have hmem := minName_mem hne
    obtain ⟨t0, ht0⟩ : ∃ t, Dict.get tensors (minName ns) = some t := by
      rw [hk] at hmem
      obtain ⟨e, he, hee⟩ := List.mem_map.1 hmem
      have := (Dict.get_eq_some_iff (K := Text) hn).2 (List.mem_filter.1 he).1
      rw [hk, ← hee]
      exact ⟨_, this⟩
    obtain ⟨i1, i2, i3, i4⟩ := ih
    rw [List.foldl_cons]
    have hstep1 : (dedupStep tensors acc ns).1 = Dict.set acc.1 (minName ns) t0 := by
      simp [dedupStep, ht0]
    have hstep2 : ∀ n r, Dict.get (dedupStep tensors acc ns).2 n = some r ↔
        (n ∈ ns ∧ n ≠ minName ns ∧ r = minName ns) ∨
        (¬ (n ∈ ns ∧ n ≠ minName ns) ∧ Dict.get acc.2 n = some r) := by
      intro n r
      exact alias_fold (minName ns) ns acc.2 n r
    refine ⟨?_, ?_, ?_, ?_⟩
    · intro n t
      rw [i1 n t, hstep1, Dict.get_set]
      simp only [List.mem_cons, exists_eq_or_imp, forall_eq_or_imp]
      by_cases hx : n = minName ns
      · subst hx
        simp only [if_true, true_or, and_true, ne_eq, not_true, false_and, or_false, ht0]
        constructor
        · rintro (⟨h, _⟩ | ⟨_, h⟩) <;> exact h
        · intro h
          by_cases h2 : ∃ ns' ∈ gs, minName ns = minName ns'
          · exact .inl ⟨h, h2⟩
          · refine .inr ⟨?_, h⟩
            intro ns' h' he
            exact h2 ⟨ns', h', he⟩
      · have hx' : ¬ minName ns = n := fun h => hx h.symm
        simp only [hx', hx, if_false, false_or, ne_eq, not_false_eq_true, true_and]
    · intro n r hex hget
      by_cases hrest : ∃ ns' ∈ gs, n ∈ ns' ∧ n ≠ minName ns'
      · obtain ⟨ns', h1, h2⟩ := i2 n r hrest hget
        exact ⟨ns', by simp [h1], h2⟩
      · rw [i4 n hrest, hstep2] at hget
        obtain ⟨ns', h1, h2, h3⟩ := hex
        rcases List.mem_cons.1 h1 with rfl | h1
        · rcases hget with h | h
          · exact ⟨ns', by simp, h⟩
          · exact absurd ⟨h2, h3⟩ h.1
        · exact absurd ⟨ns', h1, h2, h3⟩ hrest
    · intro n hex
      by_cases hrest : ∃ ns' ∈ gs, n ∈ ns' ∧ n ≠ minName ns'
      · exact i3 n hrest
      · rw [i4 n hrest]
        obtain ⟨ns', h1, h2, h3⟩ := hex
        rcases List.mem_cons.1 h1 with rfl | h1
        · rw [(hstep2 n (minName ns')).2 (.inl ⟨h2, h3, rfl⟩)]; rfl
        · exact absurd ⟨ns', h1, h2, h3⟩ hrest
    · intro n hno
      rw [i4 n (fun ⟨ns', h1, h2⟩ => hno ⟨ns', by simp [h1], h2⟩)]
      have hno' : ¬ (n ∈ ns ∧ n ≠ minName ns) := fun h => hno ⟨ns, by simp, h⟩
      cases hc : Dict.get acc.2 n with
      | none =>
        cases hd : Dict.get (dedupStep tensors acc ns).2 n with
        | none => rfl
        | some r =>
          rcases (hstep2 n r).1 hd with h | h
          · exact absurd ⟨h.1, h.2.1⟩ hno'
          · rw [hc] at h; cases h.2
      | some r => exact (hstep2 n r).2 (.inr ⟨hno', hc⟩)

/-- The representative of a tensor: the least name of its view. -/
def repOf (tensors : List (Text × Tensor)) (t : Tensor) : Text :=
  minName ((tensors.filter (fun e => decide (e.2.key = t.key))).map Prod.fst)

theorem repOf_mem {n : Text} {t : Tensor} (h : (n, t) ∈ tensors) :
    ∃ t', (repOf tensors t, t') ∈ tensors ∧ t'.key = t.key ∧ leText (repOf tensors t) n = true := by
  have hne : n ∈ (tensors.filter (fun e => decide (e.2.key = t.key))).map Prod.fst :=
    List.mem_map.2 ⟨(n, t), by simp [h], rfl⟩
  have := minName_mem (ns := (tensors.filter (fun e => decide (e.2.key = t.key))).map Prod.fst)
    (List.ne_nil_of_mem hne)
  obtain ⟨e, he, hee⟩ := List.mem_map.1 this
  rw [List.mem_filter, decide_eq_true_iff] at he
  refine ⟨e.2, ?_, he.2, minName_le hne⟩
  unfold repOf
  rw [← hee]
  exact he.1

theorem in_group {n : Text} {t : Tensor} (h : (n, t) ∈ tensors) {ns : List Text}
    (hg : ns ∈ (groups tensors).map Prod.snd) : (n ∈ ns ↔ minName ns = repOf tensors t) ∧
      (n ∈ ns → ns = (tensors.filter (fun e => decide (e.2.key = t.key))).map Prod.fst) := by
  obtain ⟨k, hk, hne⟩ := groups_mem hg
  have hin : n ∈ ns ↔ t.key = k := by
    rw [hk, List.mem_map]
    constructor
    · rintro ⟨⟨n', t'⟩, he, rfl⟩
      rw [List.mem_filter, decide_eq_true_iff] at he
      have h1 := (Dict.get_eq_some_iff hn).2 h
      have h2 := (Dict.get_eq_some_iff hn).2 he.1
      rw [h1] at h2
      cases h2
      exact he.2
    · intro hh
      exact ⟨(n, t), by simp [h, hh], rfl⟩
  have hkk : t.key = k → ns = (tensors.filter (fun e => decide (e.2.key = t.key))).map Prod.fst := by
    rintro rfl; exact hk
  refine ⟨⟨fun hh => ?_, fun hh => ?_⟩, fun hh => hkk (hin.1 hh)⟩
  · unfold repOf; rw [← hkk (hin.1 hh)]
  · rw [hin]
    have hm := minName_mem hne
    rw [hk] at hm
    obtain ⟨e, he, hee⟩ := List.mem_map.1 hm
    rw [List.mem_filter, decide_eq_true_iff] at he
    obtain ⟨t', h1, h2, _⟩ := repOf_mem hn h
    rw [← hh, hk, ← hee] at h1
    have h3 := (Dict.get_eq_some_iff hn).2 h1
    have h4 := (Dict.get_eq_some_iff (k := e.1) (v := e.2) hn).2 he.1
    rw [h3] at h4
    cases h4
    rw [← h2]
    exact he.2

theorem dedupe_spec :
    (∀ n t, Dict.get (dedupe tensors).1 n = some t ↔ (n, t) ∈ tensors ∧ n = repOf tensors t) ∧
    (∀ n r, Dict.get (dedupe tensors).2 n = some r ↔
      ∃ t, (n, t) ∈ tensors ∧ n ≠ r ∧ r = repOf tensors t) := by
  have h := dedupe_fold hn ((groups tensors).map Prod.snd) (fun ns hns => groups_mem hns) ([], [])
  obtain ⟨h1, h2, h3, h4⟩ := h
  constructor
  · intro n t
    unfold dedupe
    rw [h1 n t]
    simp only [Dict.get, reduceCtorEq, and_false, or_false]
    rw [Dict.get_eq_some_iff hn]
    constructor
    · rintro ⟨h, ns, hns, rfl⟩
      refine ⟨h, ?_⟩
      obtain ⟨k, _, hne⟩ := groups_mem hns
      exact (in_group hn h hns).1.1 (minName_mem hne)
    · rintro ⟨h, hr⟩
      exact ⟨h, _, mem_groups h, hr⟩
  · intro n r
    unfold dedupe
    constructor
    · intro hg
      by_cases hex : ∃ ns ∈ (groups tensors).map Prod.snd, n ∈ ns ∧ n ≠ minName ns
      · obtain ⟨ns, hns, hmem, hne, hr⟩ := h2 n r hex hg
        obtain ⟨k, hk, _⟩ := groups_mem hns
        have hmem' := hmem
        rw [hk] at hmem'
        obtain ⟨e, he, rfl⟩ := List.mem_map.1 hmem'
        have he' : (e.1, e.2) ∈ tensors := (List.mem_filter.1 he).1
        exact ⟨e.2, he', by rw [hr]; exact hne, by rw [hr]; exact (in_group hn he' hns).1.1 hmem⟩
      · rw [h4 n hex] at hg; cases hg
    · rintro ⟨t, ht, hne, hr⟩
      have hin : n ∈ (tensors.filter (fun e => decide (e.2.key = t.key))).map Prod.fst :=
        List.mem_map.2 ⟨(n, t), by simp [ht], rfl⟩
      have hex : ∃ ns ∈ (groups tensors).map Prod.snd, n ∈ ns ∧ n ≠ minName ns :=
        ⟨_, mem_groups ht, hin, by rw [hr] at hne; exact hne⟩
      obtain ⟨r', hr'⟩ := Option.isSome_iff_exists.1 (h3 n hex)
      obtain ⟨ns, hns, hmem, _, hr2⟩ := h2 n r' hex hr'
      rw [hr', hr2, (in_group hn ht hns).1.1 hmem, hr]

theorem dedupe_nodup : (Dict.keys (dedupe tensors).1).Nodup ∧ (Dict.keys (dedupe tensors).2).Nodup := by
  unfold dedupe
  suffices h : ∀ (gs : List (List Text)) (acc : List (Text × Tensor) × List (Text × Text)),
      (Dict.keys acc.1).Nodup → (Dict.keys acc.2).Nodup →
      (Dict.keys (gs.foldl (dedupStep tensors) acc).1).Nodup ∧
      (Dict.keys (gs.foldl (dedupStep tensors) acc).2).Nodup by
    exact h _ _ (by simp [Dict.keys]) (by simp [Dict.keys])
  intro gs
  induction gs with
  | nil => intro acc h1 h2; exact ⟨h1, h2⟩
  | cons ns gs ih =>
    intro acc h1 h2
    apply ih
    · simp only [dedupStep]
      split
      · exact Dict.nodup_set h1 _ _
      · exact h1
    · simp only [dedupStep]
      generalize minName ns = rep
      clear ih h1
      induction ns generalizing acc with
      | nil => exact h2
      | cons n ns ih =>
        rw [List.foldl_cons]
        split
        · exact ih (acc.1, Dict.set acc.2 n rep) (Dict.nodup_set h2 _ _)
        · exact ih acc h2

end

theorem expand_spec {C : Type} (stored : List (Text × C)) : ∀ (al : List (Text × Text))
    (acc : List (Text × C)), (Dict.keys al).Nodup → (∀ e ∈ al, (Dict.get stored e.2).isSome) →
    ∃ out, expand stored al acc = some out ∧ ∀ n, Dict.get out n =
      match Dict.get al n with
      | some r => Dict.get stored r
      | none => Dict.get acc n
  | [], acc, _, _ => ⟨acc, rfl, fun n => rfl⟩
  | (m, r) :: al, acc, hk, h => by
    obtain ⟨c, hc⟩ := Option.isSome_iff_exists.1 (h (m, r) (by simp))
    dsimp only at hc
    simp only [Dict.keys, List.map_cons, List.nodup_cons] at hk
    obtain ⟨out, e, ho⟩ := expand_spec stored al (Dict.set acc m c) hk.2
      (fun e he => h e (by simp [he]))
    refine ⟨out, by simp [expand, hc, e], ?_⟩
    intro n
    rw [ho n, Dict.get]
    by_cases hm : m = n
    · subst hm
      have : Dict.get al m = none := Dict.get_none_iff.2 hk.1
      simp [this, hc]
    · rw [if_neg hm, Dict.get_set_ne _ _ hm]

/-! ## Properties -/

/-- **C40.**  Saving and loading gives every name the contents of its tensor, and no other names, if
tensors that are the same view of the same memory have the same element type. -/
theorem shared_tensors_survive_partial {C : Type} (read : Tensor → C)
    (tensors : List (Text × Tensor)) (hn : (Dict.keys tensors).Nodup)
    (ht : ∀ a ∈ tensors, ∀ b ∈ tensors, SameView a.2 b.2 → a.2.dtype = b.2.dtype) :
    ∃ out, saveLoad read tensors = some out ∧
      ∀ n, Dict.get out n = (Dict.get tensors n).map read := by
  obtain ⟨s1, s2⟩ := dedupe_spec hn
  obtain ⟨out, e, ho⟩ := expand_spec ((dedupe tensors).1.map (fun e => (e.1, read e.2)))
    (dedupe tensors).2 ((dedupe tensors).1.map (fun e => (e.1, read e.2))) (dedupe_nodup hn).2
    (by
      rintro ⟨n, r⟩ he
      obtain ⟨t, h1, _, h3⟩ := (s2 n r).1 ((Dict.get_eq_some_iff (dedupe_nodup hn).2).2 he)
      obtain ⟨t', h4, h5, _⟩ := repOf_mem hn h1
      dsimp only
      rw [Dict.get_map, (s1 r t').2 ⟨h3 ▸ h4, by rw [h3]; unfold repOf; rw [h5]⟩]
      rfl)
  refine ⟨out, e, ?_⟩
  intro n
  rw [ho n]
  cases ha : Dict.get (dedupe tensors).2 n with
  | none =>
    dsimp only
    rw [Dict.get_map]
    congr 1
    cases hg : Dict.get tensors n with
    | none =>
      cases hd : Dict.get (dedupe tensors).1 n with
      | none => rfl
      | some t =>
        have := (Dict.get_eq_some_iff hn).2 ((s1 n t).1 hd).1
        rw [this] at hg; cases hg
    | some t =>
      have hm := Dict.get_mem hg
      refine (s1 n t).2 ⟨hm, ?_⟩
      by_contra hne
      rw [(s2 n _).2 ⟨t, hm, hne, rfl⟩] at ha
      cases ha
  | some r =>
    obtain ⟨t, h1, _, h3⟩ := (s2 n r).1 ha
    obtain ⟨t', h4, h5, _⟩ := repOf_mem hn h1
    dsimp only
    rw [Dict.get_map, (s1 r t').2 ⟨h3 ▸ h4, by rw [h3]; unfold repOf; rw [h5]⟩,
      (Dict.get_eq_some_iff hn).2 h1]
    have hd := ht _ h4 _ h1 ((sameView_iff _ _).2 h5)
    have : t' = t := by
      obtain ⟨h6, h7, h8, h9⟩ := (sameView_iff _ _).2 h5
      cases t'; cases t
      simp_all
    rw [this]

/-- **C40.**  Each view of memory is stored once, under the first of its names; nothing is stored
under a name it did not have. -/
theorem stored_once (tensors : List (Text × Tensor)) (hn : (Dict.keys tensors).Nodup) :
    (∀ e ∈ (dedupe tensors).1, e ∈ tensors ∧
      ∀ e' ∈ tensors, SameView e.2 e'.2 → leText e.1 e'.1 = true) ∧
    (dedupe tensors).1.Pairwise (fun a b => ¬ SameView a.2 b.2) ∧
    ∀ e ∈ tensors, ∃ e' ∈ (dedupe tensors).1, SameView e'.2 e.2 := by
  obtain ⟨s1, s2⟩ := dedupe_spec hn
  have hk := (dedupe_nodup hn).1
  have hmem : ∀ e ∈ (dedupe tensors).1, e ∈ tensors ∧ e.1 = repOf tensors e.2 := by
    rintro ⟨n, t⟩ he
    exact (s1 n t).1 ((Dict.get_eq_some_iff hk).2 he)
  refine ⟨?_, ?_, ?_⟩
  · intro e he
    refine ⟨(hmem e he).1, ?_⟩
    rintro ⟨n, t⟩ he' hsv
    rw [sameView_iff] at hsv
    rw [(hmem e he).2]
    unfold repOf
    rw [hsv]
    exact (repOf_mem hn he').choose_spec.2.2
  · have : (dedupe tensors).1.Pairwise (fun a b => a.1 ≠ b.1) := List.pairwise_map.1 hk
    refine (List.Pairwise.and_mem.1 this).imp ?_
    rintro a b ⟨ha, hb, hne⟩ hsv
    rw [sameView_iff] at hsv
    apply hne
    rw [(hmem a ha).2, (hmem b hb).2]
    unfold repOf
    rw [hsv]
  · rintro ⟨n, t⟩ he
    obtain ⟨t', h4, h5, _⟩ := repOf_mem hn he
    refine ⟨_, Dict.get_mem ((s1 _ t').2 ⟨h4, ?_⟩), (sameView_iff _ _).2 h5⟩
    unfold repOf
    rw [h5]

/-- **C40, deviation.**  The key leaves out the element type: of two views of the same memory as
different types one comes back as the other. -/
theorem view_with_other_type_lost :
    ∃ (tensors : List (Text × Tensor)) (n : Text) (t t' : Tensor), (Dict.keys tensors).Nodup ∧
      Dict.get tensors n = some t ∧ t'.dtype ≠ t.dtype ∧
      ∃ out, saveLoad id tensors = some out ∧ Dict.get out n = some t' := by
  refine ⟨[("a".toList, ⟨7, [2], [1], 0, 0⟩), ("b".toList, ⟨7, [2], [1], 0, 1⟩)], "b".toList,
    ⟨7, [2], [1], 0, 1⟩, ⟨7, [2], [1], 0, 0⟩, by decide, by decide, by decide,
    [("a".toList, ⟨7, [2], [1], 0, 0⟩), ("b".toList, ⟨7, [2], [1], 0, 0⟩)], ?_, ?_⟩
  · decide
  · decide

/-! ## Concrete cases -/

/-- A tied pair and another tensor. -/
def demoTensors : List (Text × Tensor) :=
  [("lm_head.weight".toList, ⟨100, [4, 2], [2, 1], 0, 0⟩),
   ("norm.weight".toList, ⟨200, [2], [1], 0, 0⟩),
   ("embed.weight".toList, ⟨100, [4, 2], [2, 1], 0, 0⟩)]

example : (Dict.keys demoTensors).Nodup ∧
    ∀ a ∈ demoTensors, ∀ b ∈ demoTensors, a.2.key = b.2.key → a.2.dtype = b.2.dtype := by
  decide

example : dedupe demoTensors =
    ([("embed.weight".toList, ⟨100, [4, 2], [2, 1], 0, 0⟩),
      ("norm.weight".toList, ⟨200, [2], [1], 0, 0⟩)],
     [("lm_head.weight".toList, "embed.weight".toList)]) := by
  decide

end FF.SaveLoad
