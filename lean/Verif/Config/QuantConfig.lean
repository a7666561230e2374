/-
Initialising quantizers: quantization/quant_init.py and the replacement of modules in
mpath/_search.py.

Simplifications:
* modules are objects of a type `M`; which submodule an attribute of a module refers to is a map
  `attr` (assigning to a module attribute replaces the submodule);
* a factory, with its keyword arguments, is an element of a type `F`; `make f name current` is the
  quantizer it returns (`_ensure_factory_func`, quant_init.py:103-114, turns a class into such a
  function); calls of factories are logged;
* the searches of `initialize` all happen before the first replacement, so `find q` is the list of
  results of `mpath.search` for the query `q` on the given model.
-/
import Verif.MPath.Collection
import Mathlib.Data.List.Induction

set_option linter.unusedSectionVars false

namespace FF.QConfig
open FF.MPath

variable {N M Q F : Type} [DecidableEq N] [DecidableEq M]

/-! ## Model -/

/-- The submodules of the model, and the factory calls made so far. -/
structure St (N M F : Type) where
  attr : M → N → Option M
  calls : List (F × List N × M)

/-- Exceptions. -/
inductive Err where
  | stale
  | notQuantizer
  | alreadyInitialized
  | badPolicy
  deriving DecidableEq, Repr

/-- `overwrite_policy`. -/
inductive Policy where
  | error
  | skip
  | overwrite
  | other
  deriving DecidableEq, Repr

/-- Facts about module classes, and the behaviour of factories. -/
structure Lib (N M F : Type) where
  isQuantizer : M → Bool
  isStub : M → Bool
  make : F → List N → M → M

/-- `setattr(parent, name, m)`. -/
def St.assign (st : St N M F) (p : M) (a : N) (m : M) : St N M F :=
  { st with attr := fun q b => if q = p ∧ b = a then some m else st.attr q b }

/-- `FilterResult.update_module`: _search.py:27-37.  (Results of a search always have a parent
attribute.) -/
def updateModule (safe : Bool) (st : St N M F) (r : Result N M) (m : M) :
    Except Err (St N M F × Result N M) :=
  match r.parentAttribute with
  | none => .error .stale
  | some a =>
    if safe && !decide (st.attr r.parent a = some r.module) then .error .stale
    else .ok (st.assign r.parent a m, { r with module := m })

/-- `_initialize_quantizer`: quant_init.py:74-101. -/
def initOne (lib : Lib N M F) (policy : Policy) (safe : Bool) (st : St N M F) (r : Result N M)
    (f : F) : Except Err (St N M F × Result N M) :=
  if !lib.isQuantizer r.module then .error .notQuantizer
  else if !lib.isStub r.module && policy = .error then .error .alreadyInitialized
  else if !lib.isStub r.module && policy = .skip then .ok (st, r)
  else if !lib.isStub r.module && !decide (policy = .overwrite) then .error .badPolicy
  else
    let st' := { st with calls := st.calls ++ [(f, r.fullName, r.module)] }
    updateModule safe st' r (lib.make f r.fullName r.module)

/-- Replacing one module after the other; an exception ends the loop, and what was replaced before
stays replaced.  The loops in quant_init.py:157-167 and 381-388. -/
def initAll (lib : Lib N M F) (policy : Policy) (safe : Bool) (st : St N M F) :
    List (Result N M × F) → St N M F × Except Err (List (Result N M))
  | [] => (st, .ok [])
  | (r, f) :: rest =>
    match initOne lib policy safe st r f with
    | .error e => (st, .error e)
    | .ok (st', r') =>
      match initAll lib policy safe st' rest with
      | (st'', .error e) => (st'', .error e)
      | (st'', .ok rs) => (st'', .ok (r' :: rs))

/-- `QuantizerCollection.initialize`: quant_init.py:151-167 and 169-213. -/
def collectionInit (lib : Lib N M F) (policy : Policy) (safe : Bool) (st : St N M F) (f : F)
    (rs : List (Result N M)) : St N M F × Except Err (List (Result N M)) :=
  initAll lib policy safe st (rs.map (fun r => (r, f)))

/-- `_QuantConfigRule`: quant_init.py:241-253. -/
structure Rule (Q F : Type) where
  query : Q
  factory : F

/-- `_RuleItem`: quant_init.py:264-277. -/
structure Item (N M Q F : Type) where
  rule : Rule Q F
  result : Result N M
  score : Int

/-- `find_quantizers`: quant_init.py:216-237 with the filter of `QuantizerCollection.__init__`,
131-132. -/
def findQuantizers (lib : Lib N M F) (find : Q → List (Result N M)) (q : Q) : List (Result N M) :=
  (find q).filter (fun r => lib.isQuantizer r.module)

/-- `matches[module]`, for the dictionary `matches` as list of its entries in order. -/
def lookup (d : List (M × Item N M Q F)) (m : M) : Option (Item N M Q F) :=
  (d.find? (fun e => e.1 = m)).map Prod.snd

/-- `matches[module] = item`: an existing entry keeps its place. -/
def put (d : List (M × Item N M Q F)) (m : M) (it : Item N M Q F) : List (M × Item N M Q F) :=
  if d.any (fun e => e.1 = m) then d.map (fun e => if e.1 = m then (m, it) else e)
  else d ++ [(m, it)]

/-- The body of the inner loop: quant_init.py:375-379. -/
def consider (score : Rule Q F → Result N M → Int) (rule : Rule Q F)
    (d : List (M × Item N M Q F)) (r : Result N M) : List (M × Item N M Q F) :=
  let new : Item N M Q F := ⟨rule, r, score rule r⟩
  match lookup d r.module with
  | none => put d r.module new
  | some old => if new.score ≥ old.score then put d r.module new else d

/-- The loops that fill `matches`: quant_init.py:372-379. -/
def gather (lib : Lib N M F) (find : Q → List (Result N M)) (score : Rule Q F → Result N M → Int)
    (rules : List (Rule Q F)) : List (M × Item N M Q F) :=
  rules.foldl (fun d rule => (findQuantizers lib find rule.query).foldl (consider score rule) d) []

/-- `QuantizationConfig.initialize`: quant_init.py:342-388. -/
def initializeAll (lib : Lib N M F) (find : Q → List (Result N M))
    (score : Rule Q F → Result N M → Int) (rules : List (Rule Q F)) (policy : Policy) (safe : Bool)
    (st : St N M F) : St N M F × Option Err :=
  match initAll lib policy safe st
      ((gather lib find score rules).map (fun e => (e.2.result, e.2.rule.factory))) with
  | (st', .ok _) => (st', none)
  | (st', .error e) => (st', some e)

/-- `MPathCollection.apply`: _search.py:91-117.  `func` returns `none` for Python's `None`; its calls
are logged. -/
def apply (func : List N → M → Option M) (update safe : Bool) (st : St N M Unit) :
    List (Result N M) → St N M Unit × Except Err (List (Result N M))
  | [] => (st, .ok [])
  | r :: rest =>
    let one : Except Err (St N M Unit × Result N M) :=
      if update then
        let st1 : St N M Unit := { st with calls := st.calls ++ [((), r.fullName, r.module)] }
        match func r.fullName r.module with
        | some m => updateModule safe st1 r m
        | none => .ok (st1, r)
      else .ok (st, r)
    match one with
    | .error e => (st, .error e)
    | .ok (st', r') =>
      match apply func update safe st' rest with
      | (st'', .error e) => (st'', .error e)
      | (st'', .ok rs) => (st'', .ok (r' :: rs))

/-! ## Specification -/

/-- A search result points to where the model has the module. -/
def At (st : St N M F) (r : Result N M) : Prop :=
  ∃ a, r.parentAttribute = some a ∧ st.attr r.parent a = some r.module

/-- Attribute `a` of module `p` is the place of result `r`. -/
def Place (r : Result N M) (p : M) (a : N) : Prop := r.parent = p ∧ r.parentAttribute = some a

/-- Rule number `i`, with search result `r`, takes precedence for quantizer `m`: no matching rule has
a higher score, and among those with the same score none was added later. -/
def Chosen (lib : Lib N M F) (find : Q → List (Result N M)) (score : Rule Q F → Result N M → Int)
    (rules : List (Rule Q F)) (m : M) (i : Nat) (rule : Rule Q F) (r : Result N M) : Prop :=
  rules[i]? = some rule ∧ r ∈ find rule.query ∧ r.module = m ∧ lib.isQuantizer m = true ∧
  ∀ j rule' r', rules[j]? = some rule' → r' ∈ find rule'.query → r'.module = m →
    score rule' r' < score rule r ∨ (score rule' r' = score rule r ∧ j ≤ i)

/-! ## Lemmas -/

theorem lookup_put (d : List (M × Item N M Q F)) (m m' : M) (it : Item N M Q F) :
    lookup (put d m it) m' = if m' = m then some it else lookup d m' := by
  unfold put lookup
  by_cases hm : d.any (fun e => e.1 = m) = true
  · rw [if_pos hm]
    induction d with
    | nil => simp at hm
    | cons e d ih =>
      by_cases he : e.1 = m
      · by_cases hmm : m' = m
        · subst hmm; simp [he]
        · have h1 : ¬ m = m' := fun h => hmm h.symm
          have h2 : ¬ e.1 = m' := he ▸ h1
          simp only [List.map_cons, he, if_true, List.find?_cons, h1, decide_false, hmm, if_false]
          by_cases hd : d.any (fun e => e.1 = m) = true
          · have := ih hd
            rw [if_neg hmm] at this
            exact this
          · have hmap : d.map (fun e => if e.1 = m then (m, it) else e) = d := by
              conv_rhs => rw [← List.map_id d]
              apply List.map_congr_left
              intro x hx
              have : ¬ x.1 = m := by
                intro h
                exact hd (List.any_eq_true.2 ⟨x, hx, by simpa using h⟩)
              simp [this]
            rw [hmap]
      · have hd : d.any (fun e => e.1 = m) = true := by simpa [he] using hm
        have := ih hd
        by_cases h2 : e.1 = m'
        · have hmm : ¬ m' = m := h2 ▸ he
          simp [h2, hmm]
        · simp only [List.map_cons, he, if_false, List.find?_cons, h2, decide_false]
          exact this
  · rw [if_neg hm]
    have hnone : d.find? (fun e => decide (e.1 = m)) = none := by
      rw [List.find?_eq_none]
      intro x hx
      have := fun h => hm (List.any_eq_true.2 ⟨x, hx, h⟩)
      exact this
    rw [List.find?_append]
    by_cases hmm : m' = m
    · subst hmm
      rw [hnone]; simp
    · have : ¬ m = m' := fun h => hmm h.symm
      simp [this, hmm]

theorem keys_put (d : List (M × Item N M Q F)) (m : M) (it : Item N M Q F)
    (h : (d.map Prod.fst).Nodup) : ((put d m it).map Prod.fst).Nodup := by
  unfold put
  split
  · have : (d.map (fun e => if e.1 = m then (m, it) else e)).map Prod.fst = d.map Prod.fst := by
      rw [List.map_map]
      apply List.map_congr_left
      intro x _
      simp only [Function.comp]
      split
      · rename_i h; exact h.symm
      · rfl
    rw [this]; exact h
  · rename_i hm
    rw [List.map_append, List.nodup_append]
    refine ⟨h, by simp, ?_⟩
    intro a ha b hb
    simp at hb
    subst hb
    rintro rfl
    obtain ⟨x, hx, rfl⟩ := List.mem_map.1 ha
    exact hm (List.any_eq_true.2 ⟨x, hx, by simp⟩)

theorem lookup_mem {d : List (M × Item N M Q F)} (hk : (d.map Prod.fst).Nodup) {m : M}
    {it : Item N M Q F} : lookup d m = some it ↔ (m, it) ∈ d := by
  induction d with
  | nil => simp [lookup]
  | cons e d ih =>
    simp only [List.map_cons, List.nodup_cons] at hk
    have ih := ih hk.2
    unfold lookup at ih ⊢
    by_cases he : e.1 = m
    · simp only [List.find?_cons, he, decide_true, Option.map_some, List.mem_cons]
      constructor
      · intro h
        left
        rw [← Option.some.inj h, ← he]
      · rintro (h | h)
        · rw [← h]
        · exact absurd (List.mem_map_of_mem (f := Prod.fst) h) (he ▸ hk.1)
    · simp only [List.find?_cons, he, decide_false, List.mem_cons]
      rw [ih]
      constructor
      · exact .inr
      · rintro (h | h)
        · exact absurd (by rw [← h]) he
        · exact h

variable {lib : Lib N M F} {find : Q → List (Result N M)} {score : Rule Q F → Result N M → Int}

/-- What one rule does to the entry of module `m`. -/
theorem lookup_consider (rule : Rule Q F) : ∀ (rs : List (Result N M))
    (d : List (M × Item N M Q F)), (rs.map Result.module).Nodup → ∀ m it,
    (lookup (rs.foldl (consider score rule) d) m = some it ↔
      (∃ r ∈ rs, r.module = m ∧ it = ⟨rule, r, score rule r⟩ ∧
        ∀ old, lookup d m = some old → old.score ≤ score rule r) ∨
      (lookup d m = some it ∧ ∀ r ∈ rs, r.module = m → score rule r < it.score))
  | [], d, _, m, it => by simp
  | r :: rs, d, hn, m, it => by
    simp only [List.map_cons, List.nodup_cons] at hn
    rw [List.foldl_cons, lookup_consider rule rs _ hn.2]
    have hnot : ∀ r' ∈ rs, r'.module ≠ r.module := by
      intro r' hr' h
      exact hn.1 (h ▸ List.mem_map_of_mem (f := Result.module) hr')
    have hcons : ∀ x, lookup (consider score rule d r) m = some x ↔
        (m = r.module ∧ x = ⟨rule, r, score rule r⟩ ∧
          ∀ old, lookup d m = some old → old.score ≤ score rule r) ∨
        (lookup d m = some x ∧ (m = r.module → score rule r < x.score)) := by
      intro x
      unfold consider
      dsimp only
      cases hl : lookup d r.module with
      | none =>
        dsimp only
        rw [lookup_put]
        by_cases hm : m = r.module
        · subst hm
          simp [hl, eq_comm]
        · simp [hm]
      | some old =>
        dsimp only
        split
        · rename_i hge
          rw [lookup_put]
          by_cases hm : m = r.module
          · subst hm
            simp only [if_true, hl, true_and, Option.some.injEq, forall_eq', true_implies]
            constructor
            · intro h; exact .inl ⟨h.symm, hge⟩
            · rintro (⟨h, _⟩ | ⟨h, h2⟩)
              · exact h.symm
              · subst h; exact absurd hge (by simpa using h2)
          · simp [hm]
        · rename_i hge
          by_cases hm : m = r.module
          · subst hm
            simp only [hl, true_and, Option.some.injEq, forall_eq', true_implies]
            constructor
            · intro h; subst h; exact .inr ⟨rfl, by simpa using hge⟩
            · rintro (⟨_, h⟩ | ⟨h, _⟩)
              · exact absurd h hge
              · exact h
          · simp [hm]
    by_cases hm : m = r.module
    · subst hm
      have hno : ¬ ∃ r' ∈ rs, r'.module = r.module ∧
          it = ⟨rule, r', score rule r'⟩ ∧ ∀ old, lookup (consider score rule d r) r.module = some old →
            old.score ≤ score rule r' := by
        rintro ⟨r', h1, h2, _⟩
        exact hnot r' h1 h2
      rw [or_iff_right hno, hcons]
      simp only [List.mem_cons, true_and, true_implies]
      constructor
      · rintro ⟨h1 | ⟨h1, h2⟩, h3⟩
        · exact .inl ⟨r, .inl rfl, rfl, h1.1, h1.2⟩
        · refine .inr ⟨h1, ?_⟩
          rintro r' (rfl | hr') hm
          · exact h2
          · exact absurd hm (hnot r' hr')
      · rintro (⟨r', hr', hm, h1, h2⟩ | ⟨h1, h2⟩)
        · rcases hr' with rfl | hr'
          · exact ⟨.inl ⟨h1, h2⟩, fun r' hr' hm => absurd hm (hnot r' hr')⟩
          · exact absurd hm (hnot r' hr')
        · exact ⟨.inr ⟨h1, h2 r (.inl rfl) rfl⟩, fun r' hr' hm => absurd hm (hnot r' hr')⟩
    · have hm' : ¬ r.module = m := fun h => hm h.symm
      have hold : lookup (consider score rule d r) m = lookup d m := by
        cases h : lookup d m with
        | none =>
          cases h' : lookup (consider score rule d r) m with
          | none => rfl
          | some x =>
            have := (hcons x).1 h'
            simp [hm, h] at this
        | some x => exact (hcons x).2 (.inr ⟨h, fun hh => absurd hh hm⟩)
      rw [hold]
      simp [hm']

theorem keys_consider (rule : Rule Q F) (rs : List (Result N M)) :
    ∀ d : List (M × Item N M Q F), (d.map Prod.fst).Nodup →
      ((rs.foldl (consider score rule) d).map Prod.fst).Nodup := by
  induction rs with
  | nil => intro d h; exact h
  | cons r rs ih =>
    intro d h
    rw [List.foldl_cons]
    apply ih
    unfold consider
    dsimp only
    split
    · exact keys_put _ _ _ h
    · split
      · exact keys_put _ _ _ h
      · exact h

theorem keys_gather (rules : List (Rule Q F)) :
    ((gather lib find score rules).map Prod.fst).Nodup := by
  have : ∀ (rules : List (Rule Q F)) (d : List (M × Item N M Q F)), (d.map Prod.fst).Nodup →
      ((rules.foldl (fun d rule => (findQuantizers lib find rule.query).foldl
        (consider score rule) d) d).map Prod.fst).Nodup := by
    intro rules
    induction rules with
    | nil => intro d h; exact h
    | cons rule rules ih => intro d h; exact ih _ (keys_consider rule _ d h)
  exact this rules [] (by simp)

/-- Every query reports each module once. -/
def Distinct (find : Q → List (Result N M)) (rules : List (Rule Q F)) : Prop :=
  ∀ rule ∈ rules, ((find rule.query).map Result.module).Nodup

theorem isSome_consider (rule : Rule Q F) (rs : List (Result N M)) (m : M) :
    ∀ d : List (M × Item N M Q F), (lookup (rs.foldl (consider score rule) d) m).isSome ↔
      (lookup d m).isSome ∨ ∃ r ∈ rs, r.module = m := by
  induction rs with
  | nil => intro d; simp
  | cons r rs ih =>
    intro d
    have h1 : (lookup (consider score rule d r) m).isSome ↔ (lookup d m).isSome ∨ r.module = m := by
      unfold consider
      dsimp only
      by_cases hm : m = r.module
      · subst hm
        cases hl : lookup d r.module with
        | none => simp [lookup_put]
        | some old =>
          dsimp only
          split
          · simp [lookup_put]
          · simp [hl]
      · have hm' : ¬ r.module = m := fun h => hm h.symm
        split
        · simp [lookup_put, hm, hm']
        · split
          · simp [lookup_put, hm, hm']
          · simp [hm']
    rw [List.foldl_cons, ih, h1]
    simp only [List.mem_cons, exists_eq_or_imp, or_assoc]

theorem isSome_gather (rules : List (Rule Q F)) (m : M) :
    (lookup (gather lib find score rules) m).isSome ↔
      ∃ rule ∈ rules, ∃ r ∈ find rule.query, r.module = m ∧ lib.isQuantizer m = true := by
  have : ∀ (rules : List (Rule Q F)) (d : List (M × Item N M Q F)),
      (lookup (rules.foldl (fun d rule => (findQuantizers lib find rule.query).foldl
        (consider score rule) d) d) m).isSome ↔ (lookup d m).isSome ∨
      ∃ rule ∈ rules, ∃ r ∈ find rule.query, r.module = m ∧ lib.isQuantizer m = true := by
    intro rules
    induction rules with
    | nil => intro d; simp
    | cons rule rules ih =>
      intro d
      have hf : (∃ r ∈ findQuantizers lib find rule.query, r.module = m) ↔
          ∃ r ∈ find rule.query, r.module = m ∧ lib.isQuantizer m = true := by
        simp only [findQuantizers, List.mem_filter]
        constructor
        · rintro ⟨r, ⟨h1, h2⟩, rfl⟩; exact ⟨r, h1, rfl, h2⟩
        · rintro ⟨r, h1, rfl, h2⟩; exact ⟨r, ⟨h1, h2⟩, rfl⟩
      rw [List.foldl_cons, ih, isSome_consider, hf]
      simp only [List.mem_cons, exists_eq_or_imp, or_assoc]
  rw [gather, this]
  simp [lookup]

theorem lookup_gather (rules : List (Rule Q F)) (hd : Distinct find rules) (m : M)
    (it : Item N M Q F) : lookup (gather lib find score rules) m = some it ↔
      ∃ i, Chosen lib find score rules m i it.rule it.result ∧
        it.score = score it.rule it.result := by
  induction rules using List.reverseRecOn generalizing it with
  | nil => simp [gather, lookup, Chosen]
  | append_singleton rules rule ih =>
    have ih := ih (fun r hr => hd r (by simp [hr]))
    have hfold : gather lib find score (rules ++ [rule]) =
        (findQuantizers lib find rule.query).foldl (consider score rule)
          (gather lib find score rules) := by
      simp [gather, List.foldl_append]
    have hnd : ((findQuantizers lib find rule.query).map Result.module).Nodup := by
      have := hd rule (by simp)
      exact List.Nodup.sublist (List.Sublist.map _ List.filter_sublist) this
    have hlast : (rules ++ [rule])[rules.length]? = some rule := by simp
    have hget : ∀ {j : Nat} {x : Rule Q F}, (rules ++ [rule])[j]? = some x →
        (rules[j]? = some x ∧ j < rules.length) ∨ (j = rules.length ∧ x = rule) := by
      intro j x hj
      rw [List.getElem?_append] at hj
      split at hj
      · rename_i h; exact .inl ⟨hj, h⟩
      · rename_i h
        right
        cases hk : j - rules.length with
        | zero => simp [hk] at hj; exact ⟨by omega, hj.symm⟩
        | succ n => simp [hk] at hj
    have hpre : ∀ {j : Nat} {x : Rule Q F}, rules[j]? = some x → (rules ++ [rule])[j]? = some x := by
      intro j x hj
      have := (List.getElem?_eq_some_iff.1 hj).1
      rw [List.getElem?_append_left this, hj]
    have hmemf : ∀ r, r ∈ findQuantizers lib find rule.query ↔
        r ∈ find rule.query ∧ lib.isQuantizer r.module = true := by
      intro r; simp [findQuantizers]
    rw [hfold, lookup_consider rule _ _ hnd]
    constructor
    · rintro (⟨r, hr, hm, rfl, hold⟩ | ⟨hl, hlt⟩)
      · obtain ⟨hr1, hr2⟩ := (hmemf r).1 hr
        refine ⟨rules.length, ⟨hlast, hr1, hm, hm ▸ hr2, ?_⟩, rfl⟩
        intro j rule' r' hj hr' hm'
        dsimp only
        rcases hget hj with ⟨hj', hlt⟩ | ⟨rfl, rfl⟩
        · cases hlk : lookup (gather lib find score rules) m with
          | none =>
            exfalso
            have := (isSome_gather (lib := lib) (score := score) rules m).2
              ⟨rule', List.mem_of_getElem? hj', r', hr', hm', hm ▸ hr2⟩
            rw [hlk] at this; cases this
          | some old =>
            obtain ⟨i, hc, hs⟩ := (ih old).1 hlk
            have h1 := hold old hlk
            have h2 := hc.2.2.2.2 j rule' r' hj' hr' hm'
            rw [← hs] at h2
            rcases h2 with h2 | ⟨h2, _⟩
            · left; omega
            · by_cases he : score rule' r' = score rule r
              · exact .inr ⟨he, by omega⟩
              · left; omega
        · have : r' = r := by
            have hnd' := hd rule' (by simp)
            exact List.inj_on_of_nodup_map hnd' hr' hr1 (hm'.trans hm.symm)
          subst this
          exact .inr ⟨rfl, Nat.le_refl _⟩
      · obtain ⟨i, hc, hs⟩ := (ih it).1 hl
        refine ⟨i, ⟨hpre hc.1, hc.2.1, hc.2.2.1, hc.2.2.2.1, ?_⟩, hs⟩
        intro j rule' r' hj hr' hm'
        rcases hget hj with ⟨hj', _⟩ | ⟨rfl, rfl⟩
        · exact hc.2.2.2.2 j rule' r' hj' hr' hm'
        · left
          have := hlt r' ((hmemf r').2 ⟨hr', hm' ▸ hc.2.2.2.1⟩) hm'
          rw [hs] at this
          exact this
    · rintro ⟨i, ⟨h1, h2, h3, h4, h5⟩, hs⟩
      rcases hget h1 with ⟨h1', hlt⟩ | ⟨rfl, hrule⟩
      · right
        have hc : Chosen lib find score rules m i it.rule it.result :=
          ⟨h1', h2, h3, h4, fun j rule' r' hj => h5 j rule' r' (hpre hj)⟩
        refine ⟨(ih it).2 ⟨i, hc, hs⟩, ?_⟩
        intro r hr hm
        have := h5 rules.length rule r hlast ((hmemf r).1 hr).1 hm
        rw [hs]
        rcases this with h | ⟨_, h⟩
        · exact h
        · omega
      · left
        refine ⟨it.result, (hmemf _).2 ⟨hrule ▸ h2, h3 ▸ h4⟩, h3, ?_, ?_⟩
        · cases it; simp at hrule hs; subst hrule; rw [hs]
        · intro old hold
          obtain ⟨k, hc, hs'⟩ := (ih old).1 hold
          have := h5 k old.rule old.result (hpre hc.1) hc.2.1 hc.2.2.1
          rw [← hrule, hs']
          rcases this with h | ⟨h, _⟩ <;> omega

/-- A quantizer is replaced: it is not initialised yet, or may be overwritten. -/
def Replaces (lib : Lib N M F) (policy : Policy) (m : M) : Prop :=
  lib.isStub m = true ∨ policy = .overwrite

instance (policy : Policy) (m : M) : Decidable (Replaces lib policy m) := by
  unfold Replaces; infer_instance

/-- No matched quantizer makes the policy raise an error. -/
def PolicyOk (lib : Lib N M F) (policy : Policy) (m : M) : Prop :=
  lib.isStub m = true ∨ policy = .overwrite ∨ policy = .skip

/-- The module found at the place of a result afterwards. -/
def after (lib : Lib N M F) (policy : Policy) (x : Result N M × F) : M :=
  if Replaces lib policy x.1.module then lib.make x.2 x.1.fullName x.1.module else x.1.module

theorem updateModule_ok {F : Type} {safe : Bool} {st : St N M F} {r : Result N M} {a : N}
    (ha : r.parentAttribute = some a) (h : st.attr r.parent a = some r.module) (m : M) :
    updateModule safe st r m = .ok (st.assign r.parent a m, { r with module := m }) := by
  simp [updateModule, ha, h]

theorem initAll_spec (policy : Policy) (safe : Bool) : ∀ (l : List (Result N M × F))
    (st : St N M F), (∀ x ∈ l, At st x.1) → (l.map (fun x => x.1.module)).Nodup →
    (∀ x ∈ l, lib.isQuantizer x.1.module = true ∧ PolicyOk lib policy x.1.module) →
    ∃ st', initAll lib policy safe st l =
        (st', .ok (l.map (fun x => { x.1 with module := after lib policy x }))) ∧
      st'.calls = st.calls ++ (l.filter (fun x => decide (Replaces lib policy x.1.module))).map
        (fun x => (x.2, x.1.fullName, x.1.module)) ∧
      (∀ x ∈ l, ∀ p a, Place x.1 p a → st'.attr p a = some (after lib policy x)) ∧
      ∀ p a, (∀ x ∈ l, ¬ Place x.1 p a) → st'.attr p a = st.attr p a
  | [], st, _, _, _ => ⟨st, by simp [initAll], by simp, by simp, by simp⟩
  | (r, f) :: l, st, hat, hnd, hq => by
    obtain ⟨a, ha, hsa⟩ := hat (r, f) (by simp)
    obtain ⟨hq1, hq2⟩ := hq (r, f) (by simp)
    dsimp only at ha hsa hq1 hq2
    simp only [List.map_cons, List.nodup_cons] at hnd
    have hother : ∀ x ∈ l, ¬ Place x.1 r.parent a := by
      rintro x hx ⟨h1, h2⟩
      obtain ⟨b, hb, hsb⟩ := hat x (by simp [hx])
      rw [h2] at hb
      rw [← Option.some.inj hb, h1, hsa] at hsb
      exact hnd.1 (List.mem_map.2 ⟨x, hx, (Option.some.inj hsb).symm⟩)
    by_cases hrep : Replaces lib policy r.module
    · -- replaced
      have hone : initOne lib policy safe st r f =
          .ok (({ st with calls := st.calls ++ [(f, r.fullName, r.module)] } : St N M F).assign
            r.parent a (lib.make f r.fullName r.module),
            { r with module := lib.make f r.fullName r.module }) := by
        unfold initOne
        rw [if_neg (by simp [hq1])]
        rcases hrep with h | h
        · simp only [h, Bool.not_true, Bool.false_and, Bool.false_eq_true, if_false]
          exact updateModule_ok (st := { st with calls := st.calls ++ [(f, r.fullName, r.module)] }) ha hsa _
        · rw [if_neg (by simp [h]), if_neg (by simp [h]), if_neg (by simp [h])]
          exact updateModule_ok (st := { st with calls := st.calls ++ [(f, r.fullName, r.module)] }) ha hsa _
      have hat' : ∀ x ∈ l, At (({ st with calls := st.calls ++ [(f, r.fullName, r.module)] } :
          St N M F).assign r.parent a (lib.make f r.fullName r.module)) x.1 := by
        intro x hx
        obtain ⟨b, hb, hsb⟩ := hat x (by simp [hx])
        refine ⟨b, hb, ?_⟩
        have : ¬ (x.1.parent = r.parent ∧ b = a) := by
          rintro ⟨h1, rfl⟩; exact hother x hx ⟨h1, hb⟩
        simp only [St.assign, if_neg this]
        exact hsb
      obtain ⟨st', e1, e2, e3, e4⟩ := initAll_spec policy safe l _ hat' hnd.2
        (fun x hx => hq x (by simp [hx]))
      have hafter : after lib policy (r, f) = lib.make f r.fullName r.module := by
        simp [after, hrep]
      refine ⟨st', ?_, ?_, ?_, ?_⟩
      · simp only [initAll, hone]
        rw [e1]
        simp [hafter]
      · rw [e2]
        simp [St.assign, hrep]
      · intro x hx p b hp
        rcases List.mem_cons.1 hx with rfl | hx
        · obtain ⟨rfl, hb⟩ := hp
          dsimp only at hb
          rw [ha] at hb
          obtain rfl := Option.some.inj hb
          rw [e4 _ _ hother, hafter]
          simp [St.assign]
        · exact e3 x hx p b hp
      · intro p b hno
        rw [e4 p b (fun x hx => hno x (by simp [hx]))]
        have : ¬ (p = r.parent ∧ b = a) := by
          rintro ⟨rfl, rfl⟩; exact hno (r, f) (by simp) ⟨rfl, ha⟩
        simp only [St.assign, if_neg this]
    · -- skipped
      have hstub : lib.isStub r.module = false := by
        cases h : lib.isStub r.module with
        | false => rfl
        | true => exact absurd (.inl h) hrep
      have hskip : policy = .skip := by
        rcases hq2 with h | h | h
        · rw [hstub] at h; cases h
        · exact absurd (.inr h) hrep
        · exact h
      have hone : initOne lib policy safe st r f = .ok (st, r) := by
        simp [initOne, hq1, hstub, hskip]
      obtain ⟨st', e1, e2, e3, e4⟩ := initAll_spec policy safe l st
        (fun x hx => hat x (by simp [hx])) hnd.2 (fun x hx => hq x (by simp [hx]))
      have hafter : after lib policy (r, f) = r.module := by simp [after, hrep]
      refine ⟨st', ?_, ?_, ?_, ?_⟩
      · simp only [initAll, hone]
        rw [e1]
        simp [hafter]
      · rw [e2]; simp [hrep]
      · intro x hx p b hp
        rcases List.mem_cons.1 hx with rfl | hx
        · obtain ⟨rfl, hb⟩ := hp
          dsimp only at hb
          rw [ha] at hb
          obtain rfl := Option.some.inj hb
          rw [e4 _ _ hother, hafter]
          exact hsa
        · exact e3 x hx p b hp
      · intro p b hno
        exact e4 p b (fun x hx => hno x (by simp [hx]))

theorem gather_mem (rules : List (Rule Q F)) (hd : Distinct find rules) (m : M)
    (it : Item N M Q F) : (m, it) ∈ gather lib find score rules ↔
      ∃ i, Chosen lib find score rules m i it.rule it.result ∧
        it.score = score it.rule it.result := by
  rw [← lookup_mem (keys_gather rules), lookup_gather rules hd]

/-! ## Properties -/

/-- **C38.**  Initialising a model from a configuration.  The queries may match anything, the score
of a rule may depend on the rule and on the match.  Each quantizer matched by some rule is replaced,
at the place the winning rule found it, by what that rule's factory makes for it — the winning rule
being the one with the highest score, and the last added among equals — unless it was already
initialised and the policy says to skip it.  Nothing else in the model changes, and each factory is
called exactly once for each quantizer it is responsible for. -/
theorem initialize_best_rule (rules : List (Rule Q F)) (policy : Policy) (safe : Bool)
    (st : St N M F) (hd : Distinct find rules)
    (hat : ∀ rule ∈ rules, ∀ r ∈ find rule.query, At st r)
    (hp : ∀ rule ∈ rules, ∀ r ∈ find rule.query, lib.isQuantizer r.module = true →
      PolicyOk lib policy r.module) :
    ∃ st', initializeAll lib find score rules policy safe st = (st', none) ∧
      (∀ m i rule r p a, Chosen lib find score rules m i rule r → Place r p a →
        st'.attr p a = some (if Replaces lib policy m then lib.make rule.factory r.fullName m
          else m)) ∧
      (∀ p a, (∀ m i rule r, Chosen lib find score rules m i rule r → ¬ Place r p a) →
        st'.attr p a = st.attr p a) ∧
      ∃ new, st'.calls = st.calls ++ new ∧ (new.map (fun c => c.2.2)).Nodup ∧
        ∀ f n m, (f, n, m) ∈ new ↔ Replaces lib policy m ∧ ∃ i rule r,
          Chosen lib find score rules m i rule r ∧ f = rule.factory ∧ n = r.fullName := by
  set d := gather lib find score rules with hdd
  have hmem := gather_mem (lib := lib) (score := score) rules hd
  have hkey : ∀ e ∈ d, ∃ i, Chosen lib find score rules e.1 i e.2.rule e.2.result := by
    rintro ⟨m, it⟩ he
    obtain ⟨i, h, _⟩ := (hmem m it).1 he
    exact ⟨i, h⟩
  have hin : ∀ e ∈ d, e.2.rule ∈ rules ∧ e.2.result ∈ find e.2.rule.query ∧
      e.2.result.module = e.1 ∧ lib.isQuantizer e.1 = true := by
    intro e he
    obtain ⟨i, h1, h2, h3, h4, _⟩ := hkey e he
    exact ⟨List.mem_of_getElem? h1, h2, h3, h4⟩
  set l := d.map (fun e => (e.2.result, e.2.rule.factory)) with hl
  have hmods : l.map (fun x => x.1.module) = d.map Prod.fst := by
    rw [hl, List.map_map]
    apply List.map_congr_left
    intro e he
    exact (hin e he).2.2.1
  obtain ⟨st', e1, e2, e3, e4⟩ := initAll_spec (lib := lib) policy safe l st
    (by
      intro x hx
      obtain ⟨e, he, rfl⟩ := List.mem_map.1 hx
      obtain ⟨h1, h2, _, _⟩ := hin e he
      exact hat _ h1 _ h2)
    (by rw [hmods]; exact keys_gather rules)
    (by
      intro x hx
      obtain ⟨e, he, rfl⟩ := List.mem_map.1 hx
      obtain ⟨h1, h2, h3, h4⟩ := hin e he
      exact ⟨by dsimp only; rw [h3]; exact h4, hp _ h1 _ h2 (by rw [h3]; exact h4)⟩)
  have hchosen : ∀ {m i rule r}, Chosen lib find score rules m i rule r →
      (r, rule.factory) ∈ l ∧ r.module = m := by
    intro m i rule r h
    refine ⟨List.mem_map.2 ⟨(m, ⟨rule, r, score rule r⟩), ?_, rfl⟩, h.2.2.1⟩
    exact (hmem m ⟨rule, r, score rule r⟩).2 ⟨i, h, rfl⟩
  refine ⟨st', ?_, ?_, ?_, _, e2, ?_, ?_⟩
  · unfold initializeAll
    rw [← hdd, ← hl, e1]
  · intro m i rule r p a h hpl
    obtain ⟨h1, h2⟩ := hchosen h
    rw [e3 _ h1 p a hpl]
    simp only [after, h2]
  · intro p a hno
    refine e4 p a ?_
    intro x hx hpl
    obtain ⟨e, he, rfl⟩ := List.mem_map.1 hx
    obtain ⟨i, h⟩ := hkey e he
    exact hno _ _ _ _ h hpl
  · rw [List.map_map]
    have : (l.filter (fun x => decide (Replaces lib policy x.1.module))).map
        ((fun c : F × List N × M => c.2.2) ∘ fun x => (x.2, x.1.fullName, x.1.module)) =
        (l.filter (fun x => decide (Replaces lib policy x.1.module))).map (fun x => x.1.module) := rfl
    rw [this]
    have hnd : (l.map (fun x => x.1.module)).Nodup := by rw [hmods]; exact keys_gather rules
    exact List.Nodup.sublist (List.Sublist.map _ List.filter_sublist) hnd
  · intro f n m
    simp only [List.mem_map, List.mem_filter, decide_eq_true_eq]
    constructor
    · rintro ⟨x, ⟨hx, hr⟩, he⟩
      simp only [Prod.mk.injEq] at he
      obtain ⟨rfl, rfl, rfl⟩ := he
      refine ⟨hr, ?_⟩
      obtain ⟨e, he, rfl⟩ := List.mem_map.1 hx
      obtain ⟨i, h⟩ := hkey e he
      dsimp only
      rw [(hin e he).2.2.1]
      exact ⟨i, _, _, h, rfl, rfl⟩
    · rintro ⟨hr, i, rule, r, h, rfl, rfl⟩
      obtain ⟨h1, h2⟩ := hchosen h
      exact ⟨_, ⟨h1, by dsimp only; rw [h2]; exact hr⟩, by dsimp only; rw [h2]⟩

/-- **C38.**  Every quantizer matched by some rule has exactly one winning rule and match. -/
theorem winner_unique (rules : List (Rule Q F)) (hd : Distinct find rules) (m : M)
    (hq : lib.isQuantizer m = true) {rule : Rule Q F} (hr : rule ∈ rules) {r : Result N M}
    (hf : r ∈ find rule.query) (hm : r.module = m) :
    ∃ i rule' r', Chosen lib find score rules m i rule' r' ∧
      ∀ j rule'' r'', Chosen lib find score rules m j rule'' r'' →
        j = i ∧ rule'' = rule' ∧ r'' = r' := by
  have hs := (isSome_gather (lib := lib) (find := find) (score := score) rules m).2
    ⟨rule, hr, r, hf, hm, hq⟩
  obtain ⟨it, hit⟩ := Option.isSome_iff_exists.1 hs
  obtain ⟨i, hc, _⟩ := (lookup_gather rules hd m it).1 hit
  refine ⟨i, _, _, hc, ?_⟩
  intro j rule'' r'' h
  have h1 := hc.2.2.2.2 j rule'' r'' h.1 h.2.1 h.2.2.1
  have h2 := h.2.2.2.2 i it.rule it.result hc.1 hc.2.1 hc.2.2.1
  have hij : j = i := by omega
  subst hij
  have hru : rule'' = it.rule := by
    have := h.1; rw [hc.1] at this; exact (Option.some.inj this).symm
  subst hru
  refine ⟨rfl, rfl, ?_⟩
  exact List.inj_on_of_nodup_map (hd _ (List.mem_of_getElem? h.1)) h.2.1 hc.2.1
    (h.2.2.1.trans hc.2.2.1.symm)

/-- **C38.**  With the scores every configuration has by default (all equal), the last matching rule
wins. -/
theorem last_rule_wins (rules : List (Rule Q F)) (m : M) (i : Nat) (rule : Rule Q F)
    (r : Result N M) : Chosen lib find (fun _ _ => 1) rules m i rule r ↔
      rules[i]? = some rule ∧ r ∈ find rule.query ∧ r.module = m ∧ lib.isQuantizer m = true ∧
      ∀ j rule' r', i < j → rules[j]? = some rule' → r' ∈ find rule'.query → r'.module ≠ m := by
  unfold Chosen
  constructor
  · rintro ⟨h1, h2, h3, h4, h5⟩
    refine ⟨h1, h2, h3, h4, ?_⟩
    intro j rule' r' hij hj hr' hm
    have := h5 j rule' r' hj hr' hm
    dsimp only at this
    omega
  · rintro ⟨h1, h2, h3, h4, h5⟩
    refine ⟨h1, h2, h3, h4, ?_⟩
    intro j rule' r' hj hr' hm
    right
    refine ⟨rfl, ?_⟩
    by_contra hlt
    exact h5 j rule' r' (by omega) hj hr' hm

theorem initAll_error (safe : Bool) : ∀ (l : List (Result N M × F)) (st : St N M F),
    (∀ x ∈ l, At st x.1) → (l.map (fun x => x.1.module)).Nodup →
    (∀ x ∈ l, lib.isQuantizer x.1.module = true) → (∃ x ∈ l, lib.isStub x.1.module = false) →
    (initAll lib .error safe st l).2 = .error .alreadyInitialized
  | [], st, _, _, _, h => by obtain ⟨x, hx, _⟩ := h; cases hx
  | (r, f) :: l, st, hat, hnd, hq, h => by
    have hq1 := hq (r, f) (by simp)
    dsimp only at hq1
    cases hs : lib.isStub r.module with
    | false =>
      have : initOne lib .error safe st r f = .error .alreadyInitialized := by
        simp [initOne, hq1, hs]
      simp [initAll, this]
    | true =>
      obtain ⟨a, ha, hsa⟩ := hat (r, f) (by simp)
      dsimp only at ha hsa
      simp only [List.map_cons, List.nodup_cons] at hnd
      have hone : initOne lib .error safe st r f =
          .ok (({ st with calls := st.calls ++ [(f, r.fullName, r.module)] } : St N M F).assign
            r.parent a (lib.make f r.fullName r.module),
            { r with module := lib.make f r.fullName r.module }) := by
        unfold initOne
        simp only [hq1, hs, Bool.not_true, Bool.false_and, Bool.false_eq_true, if_false]
        exact updateModule_ok (st := { st with calls := st.calls ++ [(f, r.fullName, r.module)] })
          ha hsa _
      have ih := initAll_error safe l (({ st with calls := st.calls ++ [(f, r.fullName, r.module)] } :
          St N M F).assign r.parent a (lib.make f r.fullName r.module))
        (by
          intro x hx
          obtain ⟨b, hb, hsb⟩ := hat x (by simp [hx])
          refine ⟨b, hb, ?_⟩
          have : ¬ (x.1.parent = r.parent ∧ b = a) := by
            rintro ⟨h1, rfl⟩
            rw [h1, hsa] at hsb
            exact hnd.1 (List.mem_map.2 ⟨x, hx, (Option.some.inj hsb).symm⟩)
          simp only [St.assign, if_neg this]
          exact hsb)
        hnd.2 (fun x hx => hq x (by simp [hx]))
        (by
          obtain ⟨x, hx, hxs⟩ := h
          rcases List.mem_cons.1 hx with rfl | hx
          · rw [hs] at hxs; cases hxs
          · exact ⟨x, hx, hxs⟩)
      simp only [initAll, hone]
      revert ih
      cases initAll lib .error safe _ l with
      | mk st'' res =>
        intro ih
        dsimp only at ih
        subst ih
        rfl

/-- **C38.**  Under the policy `"error"`, a match that is already initialised makes `initialize`
fail. -/
theorem initialize_refuses (rules : List (Rule Q F)) (safe : Bool) (st : St N M F)
    (hd : Distinct find rules) (hat : ∀ rule ∈ rules, ∀ r ∈ find rule.query, At st r)
    (h : ∃ rule ∈ rules, ∃ r ∈ find rule.query, lib.isQuantizer r.module = true ∧
      lib.isStub r.module = false) :
    (initializeAll lib find score rules .error safe st).2 = some .alreadyInitialized := by
  have hin : ∀ e ∈ gather lib find score rules, e.2.rule ∈ rules ∧
      e.2.result ∈ find e.2.rule.query ∧ e.2.result.module = e.1 ∧ lib.isQuantizer e.1 = true := by
    rintro ⟨m, it⟩ he
    obtain ⟨i, ⟨h1, h2, h3, h4, _⟩, _⟩ := (gather_mem rules hd m it).1 he
    exact ⟨List.mem_of_getElem? h1, h2, h3, h4⟩
  have := initAll_error (lib := lib) safe
    ((gather lib find score rules).map (fun e => (e.2.result, e.2.rule.factory))) st
    (by
      intro x hx
      obtain ⟨e, he, rfl⟩ := List.mem_map.1 hx
      exact hat _ (hin e he).1 _ (hin e he).2.1)
    (by
      have : ((gather lib find score rules).map (fun e => (e.2.result, e.2.rule.factory))).map
          (fun x => x.1.module) = (gather lib find score rules).map Prod.fst := by
        rw [List.map_map]
        apply List.map_congr_left
        intro e he
        exact (hin e he).2.2.1
      rw [this]; exact keys_gather rules)
    (by
      intro x hx
      obtain ⟨e, he, rfl⟩ := List.mem_map.1 hx
      dsimp only
      rw [(hin e he).2.2.1]; exact (hin e he).2.2.2)
    (by
      obtain ⟨rule, h1, r, h2, h3, h4⟩ := h
      have hs := (isSome_gather (lib := lib) (find := find) (score := score) rules r.module).2
        ⟨rule, h1, r, h2, rfl, h3⟩
      obtain ⟨it, hit⟩ := Option.isSome_iff_exists.1 hs
      have hmem := (lookup_mem (keys_gather rules)).1 hit
      refine ⟨_, List.mem_map.2 ⟨_, hmem, rfl⟩, ?_⟩
      dsimp only
      have := (hin _ hmem).2.2.1
      dsimp only at this
      rw [this]; exact h4)
  unfold initializeAll
  revert this
  cases initAll lib .error safe st _ with
  | mk st' res =>
    intro this
    dsimp only at this
    subst this
    rfl

/-- **C38.**  The same for rules given by queries without braces, on any module hierarchy: every
stub that some rule's query describes ends up replaced by the product of the winning rule's
factory. -/
theorem initialize_by_queries {heap : Nat → Frag N M} {children : M → List (N × M)} {root : M}
    (hs : SaneHeap heap) {find : Sel → List (Result N M)} {score : Rule Sel F → Result N M → Int}
    (rules : List (Rule Sel F))
    (hq : ∀ rule ∈ rules, rule.query ≠ .none ∧ Plain rule.query ∧
      Returns heap children rule.query root (find rule.query))
    (st : St N M F) (hst : ∀ p n m, (n, m) ∈ children p → st.attr p n = some m) (safe : Bool)
    (m : M) (hm1 : lib.isQuantizer m = true) (hm2 : lib.isStub m = true)
    (hsel : ∃ rule ∈ rules, Selected heap children rule.query root m) :
    ∃ i rule r p a, Chosen lib find score rules m i rule r ∧ Place r p a ∧ (a, m) ∈ children p ∧
      ∃ st', initializeAll lib find score rules .skip safe st = (st', none) ∧
        st'.attr p a = some (lib.make rule.factory r.fullName m) := by
  have hd : Distinct find rules := fun rule hr =>
    (search_exact_cyclic hs (hq rule hr).1 (hq rule hr).2.1 (hq rule hr).2.2).2.1
  have htruth : ∀ rule ∈ rules, ∀ r ∈ find rule.query,
      Truthful heap children rule.query root r := fun rule hr =>
    (search_exact_cyclic hs (hq rule hr).1 (hq rule hr).2.1 (hq rule hr).2.2).2.2
  have hat : ∀ rule ∈ rules, ∀ r ∈ find rule.query, At st r := by
    intro rule hr r hrm
    obtain ⟨w, n, _, h2, _, _, h5⟩ := htruth rule hr r hrm
    exact ⟨n, h5, hst _ _ _ h2⟩
  obtain ⟨st', e1, e2, _, _⟩ := initialize_best_rule (lib := lib) (score := score) rules .skip safe
    st hd hat (fun _ _ _ _ _ => .inr (.inr rfl))
  obtain ⟨rule, hr, hsel⟩ := hsel
  have := ((search_exact_cyclic hs (hq rule hr).1 (hq rule hr).2.1 (hq rule hr).2.2).1 m).2 hsel
  obtain ⟨r, hrm, hmod⟩ := List.mem_map.1 this
  obtain ⟨i, rule', r', hc, _⟩ := winner_unique (lib := lib) (score := score) rules hd m hm1 hr hrm hmod
  obtain ⟨w, n, _, h2, _, _, h5⟩ := htruth rule' (List.mem_of_getElem? hc.1) r' hc.2.1
  refine ⟨i, rule', r', r'.parent, n, hc, ⟨rfl, h5⟩, hc.2.2.1 ▸ h2, st', e1, ?_⟩
  rw [e2 m i rule' r' _ _ hc ⟨rfl, h5⟩, if_pos (.inl hm2)]

/-- **C68.**  `QuantizerCollection.initialize` replaces exactly the collected quantizers (those
already initialised only if they may be overwritten), calls the factory once for each, and leaves a
collection that refers to the new quantizers. -/
theorem collection_initialize (policy : Policy) (safe : Bool) (st : St N M F) (f : F)
    (rs : List (Result N M)) (hat : ∀ r ∈ rs, At st r) (hnd : (rs.map Result.module).Nodup)
    (hq : ∀ r ∈ rs, lib.isQuantizer r.module = true ∧ PolicyOk lib policy r.module) :
    ∃ st', collectionInit lib policy safe st f rs =
        (st', .ok (rs.map (fun r => { r with module := after lib policy (r, f) }))) ∧
      (∀ r ∈ rs, ∀ p a, Place r p a → st'.attr p a =
        some (if Replaces lib policy r.module then lib.make f r.fullName r.module else r.module)) ∧
      (∀ p a, (∀ r ∈ rs, ¬ Place r p a) → st'.attr p a = st.attr p a) ∧
      st'.calls = st.calls ++ (rs.filter (fun r => decide (Replaces lib policy r.module))).map
        (fun r => (f, r.fullName, r.module)) := by
  obtain ⟨st', e1, e2, e3, e4⟩ := initAll_spec (lib := lib) policy safe (rs.map (fun r => (r, f))) st
    (by simpa using hat) (by rw [List.map_map]; exact hnd) (by simpa using hq)
  refine ⟨st', ?_, ?_, ?_, ?_⟩
  · unfold collectionInit
    rw [e1, List.map_map]; rfl
  · intro r hr p a hp
    exact e3 (r, f) (List.mem_map.2 ⟨r, hr, rfl⟩) p a hp
  · intro p a hno
    refine e4 p a ?_
    intro x hx
    obtain ⟨r, hr, rfl⟩ := List.mem_map.1 hx
    exact hno r hr
  · rw [e2, List.filter_map, List.map_map]
    rfl

/-- **C68.**  `MPathCollection.apply` (with `update=True`) calls the function once for each collected
module, in order; where it returns a module that module takes the place of the old one, in the model
and in the collection, and everything else stays. -/
theorem apply_replaces (func : List N → M → Option M) (safe : Bool) :
    ∀ (rs : List (Result N M)) (st : St N M Unit), (∀ r ∈ rs, At st r) →
    (rs.map Result.module).Nodup →
    ∃ st', apply func true safe st rs =
        (st', .ok (rs.map (fun r => { r with
          module := (func r.fullName r.module).getD r.module }))) ∧
      st'.calls = st.calls ++ rs.map (fun r => ((), r.fullName, r.module)) ∧
      (∀ r ∈ rs, ∀ p a, Place r p a →
        st'.attr p a = some ((func r.fullName r.module).getD r.module)) ∧
      ∀ p a, (∀ r ∈ rs, ¬ Place r p a) → st'.attr p a = st.attr p a
  | [], st, _, _ => ⟨st, by simp [apply], by simp, by simp, by simp⟩
  | r :: rs, st, hat, hnd => by
    obtain ⟨a, ha, hsa⟩ := hat r (by simp)
    simp only [List.map_cons, List.nodup_cons] at hnd
    have hother : ∀ x ∈ rs, ¬ Place x r.parent a := by
      rintro x hx ⟨h1, h2⟩
      obtain ⟨b, hb, hsb⟩ := hat x (by simp [hx])
      rw [h2] at hb
      rw [← Option.some.inj hb, h1, hsa] at hsb
      exact hnd.1 (List.mem_map.2 ⟨x, hx, (Option.some.inj hsb).symm⟩)
    -- the state after the first module
    obtain ⟨st1, r1, hone, hr1, hc1, hs1, hs2⟩ : ∃ st1 r1,
        (match func r.fullName r.module with
          | some m => updateModule safe ({ st with
              calls := st.calls ++ [((), r.fullName, r.module)] } : St N M Unit) r m
          | none => .ok (({ st with
              calls := st.calls ++ [((), r.fullName, r.module)] } : St N M Unit), r)) =
            Except.ok (st1, r1) ∧
        r1 = { r with module := (func r.fullName r.module).getD r.module } ∧
        st1.calls = st.calls ++ [((), r.fullName, r.module)] ∧
        st1.attr r.parent a = some ((func r.fullName r.module).getD r.module) ∧
        ∀ p b, ¬ (p = r.parent ∧ b = a) → st1.attr p b = st.attr p b := by
      cases func r.fullName r.module with
      | none => exact ⟨_, _, rfl, rfl, rfl, hsa, fun _ _ _ => rfl⟩
      | some m =>
        refine ⟨_, _, updateModule_ok (st := { st with
          calls := st.calls ++ [((), r.fullName, r.module)] }) ha hsa m, rfl, rfl, ?_, ?_⟩
        · simp [St.assign]
        · intro p b h; simp [St.assign, h]
    obtain ⟨st', e1, e2, e3, e4⟩ := apply_replaces func safe rs st1
      (by
        intro x hx
        obtain ⟨b, hb, hsb⟩ := hat x (by simp [hx])
        refine ⟨b, hb, ?_⟩
        rw [hs2 _ _ (by rintro ⟨h1, rfl⟩; exact hother x hx ⟨h1, hb⟩)]
        exact hsb)
      hnd.2
    refine ⟨st', ?_, ?_, ?_, ?_⟩
    · simp only [apply, if_true]
      rw [hone]
      dsimp only
      rw [e1]
      simp [hr1]
    · rw [e2, hc1]; simp
    · intro x hx p b hp
      rcases List.mem_cons.1 hx with rfl | hx
      · obtain ⟨rfl, hb⟩ := hp
        rw [ha] at hb
        obtain rfl := Option.some.inj hb
        rw [e4 _ _ hother]; exact hs1
      · exact e3 x hx p b hp
    · intro p b hno
      rw [e4 p b (fun x hx => hno x (by simp [hx])), hs2]
      rintro ⟨rfl, rfl⟩
      exact hno r (by simp) ⟨rfl, ha⟩

/-- **C68.**  A safe replacement of a module that is no longer where it was found fails and changes
nothing; an unsafe one always assigns. -/
theorem safe_update (st : St N M F) (r : Result N M) (a : N) (ha : r.parentAttribute = some a)
    (m : M) :
    (st.attr r.parent a ≠ some r.module → updateModule true st r m = .error .stale) ∧
    ∃ st' r', updateModule false st r m = .ok (st', r') ∧ st'.attr r.parent a = some m ∧
      r'.module = m ∧ ∀ p b, (p, b) ≠ (r.parent, a) → st'.attr p b = st.attr p b := by
  constructor
  · intro h
    simp [updateModule, ha, h]
  · refine ⟨st.assign r.parent a m, { r with module := m },
      by simp only [updateModule, ha, Bool.false_and, Bool.false_eq_true, if_false],
      by simp [St.assign], rfl, ?_⟩
    intro p b h
    have : ¬ (p = r.parent ∧ b = a) := by rintro ⟨rfl, rfl⟩; exact h rfl
    simp [St.assign, this]

/-- **C68, deviation.**  With `update=False`, `apply` never calls the function: the condition is
tested before the call. -/
theorem apply_without_update_never_calls (func : List N → M → Option M) (safe : Bool)
    (st : St N M Unit) (rs : List (Result N M)) :
    apply func false safe st rs = (st, .ok rs) := by
  induction rs with
  | nil => rfl
  | cons r rs ih => simp [apply, ih]

/-! ## Concrete cases -/

section demo

/-- A model `0` with stubs 1, 2 and an initialised quantizer 3 as children `a`, `b`, `c`, and module
4, no quantizer, as child `d`. -/
def demoSt : St Char Nat Nat := ⟨fun p n =>
  if p = 0 then [('a', 1), ('b', 2), ('c', 3), ('d', 4)].lookup n else none, []⟩

def demoLib : Lib Char Nat Nat where
  isQuantizer m := m ≠ 0 && m ≠ 4
  isStub m := m = 1 || m = 2
  make f _ m := 100 * f + m

def demoRes (n : Char) (m : Nat) : Result Char Nat := ⟨[n], m, 0, some n, []⟩

/-- Query 0 finds everything, query 1 only `b`, query 2 only `a`. -/
def demoFind : Nat → List (Result Char Nat)
  | 0 => [demoRes 'a' 1, demoRes 'b' 2, demoRes 'c' 3, demoRes 'd' 4]
  | 1 => [demoRes 'b' 2]
  | _ => [demoRes 'a' 1]

/-- The rule for query 2 has a lower score than the others. -/
def demoScore (r : Rule Nat Nat) (_ : Result Char Nat) : Int := if r.query = 2 then 0 else 1

def demoRules : List (Rule Nat Nat) := [⟨0, 5⟩, ⟨1, 6⟩, ⟨2, 7⟩]

example : Distinct demoFind demoRules := by
  intro r hr
  simp [demoRules] at hr
  rcases hr with rfl | rfl | rfl <;> decide

/-- `a` and `b` are replaced by the products of rules 0 and 1, `c` is skipped, `d` is left alone. -/
example :
    let r := initializeAll demoLib demoFind demoScore demoRules .skip true demoSt
    r.2 = none ∧ "abcd".toList.map (r.1.attr 0) = [some 501, some 602, some 3, some 4] ∧
      r.1.calls = [(5, ['a'], 1), (6, ['b'], 2)] := by
  decide

/-- Under `"error"` the initialised quantizer is refused — after `a` and `b` have been replaced. -/
example :
    let r := initializeAll demoLib demoFind demoScore demoRules .error true demoSt
    r.2 = some .alreadyInitialized ∧
      "abcd".toList.map (r.1.attr 0) = [some 501, some 602, some 3, some 4] := by
  decide

/-- **C38, deviation.**  A quantizer that is shared — here stub 1 as `a` and as `b` — is only replaced
at one of its places. -/
theorem shared_quantizer_replaced_once :
    ∃ (st : St Char Nat Nat) (find : Nat → List (Result Char Nat)),
      Distinct find [(⟨0, 5⟩ : Rule Nat Nat)] ∧ (∀ r ∈ find 0, At st r) ∧
      st.attr 0 'a' = some 1 ∧ st.attr 0 'b' = some 1 ∧
      (initializeAll demoLib find (fun _ _ => 1) [⟨0, 5⟩] .error true st).2 = none ∧
      (initializeAll demoLib find (fun _ _ => 1) [⟨0, 5⟩] .error true st).1.attr 0 'b' = some 1 := by
  refine ⟨⟨fun p n => if p = 0 ∧ (n = 'a' ∨ n = 'b') then some 1 else none, []⟩,
    fun _ => [demoRes 'a' 1], ?_, ?_, ?_⟩
  · intro r _; simp
  · intro r hr
    simp at hr
    subst hr
    exact ⟨'a', rfl, rfl⟩
  · decide

end demo

end FF.QConfig
