import Verif.Autoquant.Dotted
import Mathlib.Data.Finset.Card

/-!
# Rewrite rules restricted to a scope

Models `_autoquant/cst/pattern.py` (`PatternRuleTransformer`); matching one pattern against one node is a parameter.
-/

namespace FF.Pattern

open FF.Dotted

/-! ## Model -/

/-- `PatternRule`: `apply` gives a new node, or `none` if the pattern does not match (the same node is returned). -/
structure Rule (N : Type) where
  apply : N → Option N
  on : Option (List Char)

/-- `str.startswith`. -/
def startsWith (s p : List Char) : Bool := p.isPrefixOf s

/-- `pattern.py:117-122` `_applicable_in_module`. -/
def applicableInModule (on : Option (List Char)) (module : List Char) : Bool :=
  match on with
  | none => true
  | some on =>
    if module = [] then true
    else if '.' ∉ on then true
    else startsWith on module || startsWith module on

/-- `pattern.py:161-166` `_current_scope_parts`. -/
def scopeParts (module : List Char) (stack : List (List Char)) : List (List Char) :=
  (if module = [] then [] else split module) ++ stack

/-- `pattern.py:168-173` `_scope_matches`. -/
def scopeMatches (on : Option (List Char)) (module : List Char) (stack : List (List Char)) : Bool :=
  match on with
  | none => true
  | some on => decide ((scopeParts module stack).take (split on).length = split on)

/-- `pattern.py:132-134`: the rules kept by the constructor. -/
def kept {N : Type} (rules : List (Rule N)) (module : List Char) : List (Rule N) :=
  rules.filter (fun r => applicableInModule r.on module)

section
variable {N K : Type} [DecidableEq K]

/-- `pattern.py:194-208`: one round of the `while` loop of `_apply_rules`, in the state (index, node, seen keys). -/
def step (key : N → K) (rules : List (Rule N)) (module : List Char) (stack : List (List Char)) (st : ℕ × N × List K) :
    Option (ℕ × N × List K) :=
  match rules[st.1]? with
  | none => none
  | some r =>
    if scopeMatches r.on module stack = false then some (st.1 + 1, st.2)
    else
      match r.apply st.2.1 with
      | none => some (st.1 + 1, st.2)
      | some n => if key n ∈ st.2.2 then some (st.1 + 1, st.2) else some (0, n, key n :: st.2.2)

/-- `pattern.py:190-209` `_apply_rules`, given up (`none`) after `fuel` rounds. -/
def loop (key : N → K) (rules : List (Rule N)) (module : List Char) (stack : List (List Char)) :
    ℕ → ℕ × N × List K → Option N
  | 0, _ => none
  | fuel + 1, st =>
    match step key rules module stack st with
    | none => some st.2.1
    | some st' => loop key rules module stack fuel st'

/-- `_apply_rules` from the start. -/
def applyRules (key : N → K) (rules : List (Rule N)) (module : List Char) (stack : List (List Char)) (fuel : ℕ) (n : N) : Option N :=
  loop key rules module stack fuel (0, n, [key n])

end

/-- A syntax tree: a node with a label, the name it has if it is a class or function definition, and its children. -/
inductive Tree
  | node (label : ℕ) (defn : Option (List Char)) (children : List Tree)

/-- `pattern.py:139, 151`: a definition pushes its name. -/
def push (d : Option (List Char)) (stack : List (List Char)) : List (List Char) :=
  match d with
  | some n => stack ++ [n]
  | none => stack

/-- `pattern.py:146, 158`: leaving a definition pops a name. -/
def pop (d : Option (List Char)) (stack : List (List Char)) : List (List Char) :=
  match d with
  | some _ => stack.dropLast
  | none => stack

mutual
/-- `pattern.py:137-180` with libcst's traversal: the nodes in the order in which rules are applied to them, each with the content of
`_scope_stack` at that time. A definition pushes its name before its children and pops it before the rules are applied to it. -/
def visit : Tree → List (List Char) → List (ℕ × List (List Char)) × List (List Char)
  | .node l d cs, stack =>
    ((visitAll cs (push d stack)).1 ++ [(l, pop d (visitAll cs (push d stack)).2)], pop d (visitAll cs (push d stack)).2)
/-- The children in order. -/
def visitAll : List Tree → List (List Char) → List (ℕ × List (List Char)) × List (List Char)
  | [], stack => ([], stack)
  | t :: ts, stack =>
    ((visit t stack).1 ++ (visitAll ts (visit t stack).2).1, (visitAll ts (visit t stack).2).2)
end

/-! ## Specification -/

mutual
/-- The nodes of a tree with the names of the definitions around them, outermost first. -/
inductive Within : Tree → List (List Char) → ℕ → List (List Char) → Prop
  | self (l d cs outer) : Within (.node l d cs) outer l outer
  | child (l d cs outer l' s) (h : WithinAll cs (outer ++ d.toList) l' s) : Within (.node l d cs) outer l' s
/-- The nodes of several trees. -/
inductive WithinAll : List Tree → List (List Char) → ℕ → List (List Char) → Prop
  | head (t ts outer l s) (h : Within t outer l s) : WithinAll (t :: ts) outer l s
  | tail (t ts outer l s) (h : WithinAll ts outer l s) : WithinAll (t :: ts) outer l s
end

/-- `on` is the dotted name of the scope, or of one of the scopes around it. -/
def Encloses (on : List Char) (scope : List (List Char)) : Prop :=
  ∃ ps rest, ps ≠ [] ∧ scope = ps ++ rest ∧ on = join ps

section
variable {N : Type}

/-- The possible rewrites: rules that are in scope, applied one after the other. -/
inductive Rewrites (rules : List (Rule N)) (module : List Char) (stack : List (List Char)) : N → N → Prop
  | refl (n) : Rewrites rules module stack n n
  | step (n m m') (r) (hr : r ∈ rules) (hon : scopeMatches r.on module stack = true) (h : Rewrites rules module stack n m)
      (hm : r.apply m = some m') : Rewrites rules module stack n m'

end

/-! ## Lemmas -/

theorem startsWith_iff (s p : List Char) : startsWith s p = true ↔ ∃ r, s = p ++ r := by
  unfold startsWith
  rw [List.isPrefixOf_iff_prefix]
  exact ⟨fun ⟨r, h⟩ => ⟨r, h.symm⟩, fun ⟨r, h⟩ => ⟨r, h.symm⟩⟩

theorem pop_push (d : Option (List Char)) (stack : List (List Char)) : pop d (push d stack) = stack := by
  cases d <;> simp [pop, push]

theorem push_eq (d : Option (List Char)) (stack : List (List Char)) : push d stack = stack ++ d.toList := by
  cases d <;> simp [push]

mutual
theorem visit_stack (t : Tree) (stack : List (List Char)) : (visit t stack).2 = stack := by
  match t with
  | .node l d cs =>
    rw [visit]
    dsimp only
    rw [visitAll_stack cs (push d stack), pop_push]
theorem visitAll_stack (ts : List Tree) (stack : List (List Char)) : (visitAll ts stack).2 = stack := by
  match ts with
  | [] => rw [visitAll]
  | t :: ts =>
    rw [visitAll]
    dsimp only
    rw [visit_stack t stack, visitAll_stack ts stack]
end

mutual
theorem visit_mem (t : Tree) (stack : List (List Char)) (l : ℕ) (s : List (List Char)) :
    (l, s) ∈ (visit t stack).1 ↔ Within t stack l s := by
  match t with
  | .node l' d cs =>
    rw [visit]
    dsimp only
    rw [visitAll_stack cs (push d stack), pop_push, List.mem_append, List.mem_singleton, visitAll_mem cs (push d stack) l s, push_eq]
    constructor
    · rintro (h | h)
      · exact .child _ _ _ _ _ _ h
      · rw [Prod.mk.injEq] at h
        obtain ⟨rfl, rfl⟩ := h
        exact .self _ _ _ _
    · intro h
      cases h with
      | self => exact .inr rfl
      | child _ _ _ _ _ _ h => exact .inl h
theorem visitAll_mem (ts : List Tree) (stack : List (List Char)) (l : ℕ) (s : List (List Char)) :
    (l, s) ∈ (visitAll ts stack).1 ↔ WithinAll ts stack l s := by
  match ts with
  | [] =>
    rw [visitAll]
    constructor
    · nofun
    · nofun
  | t :: ts =>
    rw [visitAll]
    dsimp only
    rw [visit_stack t stack, List.mem_append, visit_mem t stack l s, visitAll_mem ts stack l s]
    constructor
    · rintro (h | h)
      · exact .head _ _ _ _ _ h
      · exact .tail _ _ _ _ _ h
    · intro h
      cases h with
      | head _ _ _ _ _ h => exact .inl h
      | tail _ _ _ _ _ h => exact .inr h
end

theorem take_eq_iff {α : Type} (s p : List α) : s.take p.length = p ↔ ∃ r, s = p ++ r := by
  constructor
  · intro h
    exact ⟨s.drop p.length, by conv_lhs => rw [← List.take_append_drop p.length s, h]⟩
  · rintro ⟨r, rfl⟩
    simp

/-! ## Properties -/

/-- **C60.** Rules are applied to every node of the module, with the scope stack holding the names of the definitions around the
node; a definition itself belongs to the scope around it. -/
theorem scope_at_node (t : Tree) (l : ℕ) (s : List (List Char)) : (l, s) ∈ (visit t []).1 ↔ Within t [] l s :=
  visit_mem t [] l s

/-- **C60.** A rule with scope `on` matches at a node iff `on` is the dotted name (with the module) of the scope of the node or of a
scope around it; a rule without scope matches everywhere. -/
theorem scope_matches_iff (on : List Char) (module : List Char) (stack : List (List Char)) (hs : ∀ p ∈ stack, '.' ∉ p) :
    (scopeMatches (some on) module stack = true ↔ Encloses on ((if module = [] then [] else split module) ++ stack))
    ∧ scopeMatches none module stack = true := by
  refine ⟨?_, rfl⟩
  unfold scopeMatches
  simp only [decide_eq_true_eq]
  rw [take_eq_iff]
  have hnd : ∀ p ∈ (if module = [] then [] else split module) ++ stack, '.' ∉ p := by
    intro p hp
    rcases List.mem_append.1 hp with hp | hp
    · split at hp
      · cases hp
      · exact split_no_dot _ p hp
    · exact hs p hp
  constructor
  · rintro ⟨r, h⟩
    exact ⟨split on, r, split_ne_nil on, h, (join_split on).symm⟩
  · rintro ⟨ps, rest, h1, h2, rfl⟩
    refine ⟨rest, ?_⟩
    rw [split_join h1]
    · exact h2
    · intro p hp
      exact hnd p (by rw [h2]; exact List.mem_append_left _ hp)

/-- **C60.** The filter on modules never drops a rule that matches somewhere in the module. -/
theorem prefilter_keeps (on : Option (List Char)) (module : List Char) (stack : List (List Char))
    (h : scopeMatches on module stack = true) : applicableInModule on module = true := by
  cases on with
  | none => rfl
  | some on =>
    unfold applicableInModule
    dsimp only
    by_cases hm : module = []
    · rw [if_pos hm]
    rw [if_neg hm]
    by_cases hd : '.' ∉ on
    · rw [if_pos hd]
    rw [if_neg hd]
    unfold scopeMatches scopeParts at h
    simp only [decide_eq_true_eq] at h
    rw [take_eq_iff, if_neg hm] at h
    obtain ⟨r, h⟩ := h
    rw [Bool.or_eq_true, startsWith_iff, startsWith_iff]
    rcases List.append_eq_append_iff.1 h with ⟨a, h1, -⟩ | ⟨c, h1, -⟩
    · left
      cases a with
      | nil => exact ⟨[], by rw [← join_split on, h1]; simp [join_split]⟩
      | cons x a =>
        refine ⟨'.' :: join (x :: a), ?_⟩
        rw [← join_split on, h1, join_append (split_ne_nil _) (List.cons_ne_nil _ _), join_split]
    · right
      cases c with
      | nil => exact ⟨[], by rw [← join_split module, h1]; simp [join_split]⟩
      | cons x c =>
        refine ⟨'.' :: join (x :: c), ?_⟩
        rw [← join_split module, h1, join_append (split_ne_nil _) (List.cons_ne_nil _ _), join_split]

section
variable {N K : Type} [DecidableEq K]

theorem step_cases (key : N → K) (rules : List (Rule N)) (module : List Char) (stack : List (List Char)) (st st' : ℕ × N × List K)
    (hs : step key rules module stack st = some st') :
    st.1 < rules.length ∧ (st' = (st.1 + 1, st.2) ∨ ∃ r ∈ rules, scopeMatches r.on module stack = true ∧
      ∃ n, r.apply st.2.1 = some n ∧ key n ∉ st.2.2 ∧ st' = (0, n, key n :: st.2.2)) := by
  unfold step at hs
  cases hget : rules[st.1]? with
  | none => rw [hget] at hs; cases hs
  | some r =>
    rw [hget] at hs
    dsimp only at hs
    obtain ⟨hlt, hr⟩ := List.getElem?_eq_some_iff.1 hget
    refine ⟨hlt, ?_⟩
    split at hs
    · exact .inl (Option.some.inj hs).symm
    · next hm =>
      split at hs
      · exact .inl (Option.some.inj hs).symm
      · next n hap =>
        split at hs
        · exact .inl (Option.some.inj hs).symm
        · next hk =>
          exact .inr ⟨r, hr ▸ List.getElem_mem hlt, by simpa using hm, n, hap, hk, (Option.some.inj hs).symm⟩

theorem loop_sound (key : N → K) (rules : List (Rule N)) (module : List Char) (stack : List (List Char)) (fuel : ℕ) (n0 : N)
    (st : ℕ × N × List K) (n : N) (h : loop key rules module stack fuel st = some n)
    (h0 : Rewrites rules module stack n0 st.2.1) : Rewrites rules module stack n0 n := by
  induction fuel generalizing st with
  | zero => cases h
  | succ fuel ih =>
    rw [loop] at h
    cases hs : step key rules module stack st with
    | none =>
      rw [hs] at h
      simp only [Option.some.injEq] at h
      exact h ▸ h0
    | some st' =>
      rw [hs] at h
      obtain ⟨-, rfl | ⟨r, hr, hon, m, hap, hk, rfl⟩⟩ := step_cases key rules module stack st st' hs
      · exact ih _ h h0
      · exact ih _ h (.step _ _ _ r hr hon h0 hap)

theorem loop_terminates (key : N → K) (rules : List (Rule N)) (module : List Char) (stack : List (List Char)) (S : Finset K) (n0 : N)
    (hfin : ∀ m, Rewrites rules module stack n0 m → key m ∈ S) (fuel : ℕ) (st : ℕ × N × List K)
    (h0 : Rewrites rules module stack n0 st.2.1)
    (hfuel : (S \ st.2.2.toFinset).card * (rules.length + 1) + (rules.length - st.1) < fuel) :
    ∃ n, loop key rules module stack fuel st = some n := by
  induction fuel generalizing st with
  | zero => omega
  | succ fuel ih =>
    rw [loop]
    cases hs : step key rules module stack st with
    | none => exact ⟨_, rfl⟩
    | some st' =>
      dsimp only
      obtain ⟨hlt, rfl | ⟨r, hr, hon, m, hap, hk, rfl⟩⟩ := step_cases key rules module stack st st' hs
      · refine ih _ h0 ?_
        dsimp only
        omega
      · have hm := Rewrites.step _ _ _ r hr hon h0 hap
        refine ih _ hm ?_
        dsimp only
        have hcard : (S \ (key m :: st.2.2).toFinset).card + 1 ≤ (S \ st.2.2.toFinset).card := by
          apply Nat.succ_le_of_lt
          apply Finset.card_lt_card
          rw [Finset.ssubset_iff]
          refine ⟨key m, ?_, ?_⟩
          · simp
          · intro k hkm
            rw [Finset.mem_insert] at hkm
            rcases hkm with rfl | hkm
            · rw [Finset.mem_sdiff, List.mem_toFinset]
              exact ⟨hfin m hm, hk⟩
            · rw [Finset.mem_sdiff, List.mem_toFinset] at hkm ⊢
              exact ⟨hkm.1, fun hc => hkm.2 (List.mem_cons_of_mem _ hc)⟩
        have := Nat.mul_le_mul_right (rules.length + 1) hcard
        rw [Nat.add_mul] at this
        omega

theorem loop_done (key : N → K) (rules : List (Rule N)) (module : List Char) (stack : List (List Char)) (fuel : ℕ) (n0 : N)
    (st : ℕ × N × List K) (n : N) (h : loop key rules module stack fuel st = some n)
    (hseen : ∀ k ∈ st.2.2, ∃ m0, Rewrites rules module stack n0 m0 ∧ Rewrites rules module stack m0 st.2.1 ∧ key m0 = k)
    (h0 : Rewrites rules module stack n0 st.2.1)
    (hinv : ∀ i < st.1, ∀ r, rules[i]? = some r → scopeMatches r.on module stack = true →
      ∀ n', r.apply st.2.1 = some n' → key n' ∈ st.2.2) :
    ∀ r ∈ rules, scopeMatches r.on module stack = true → ∀ m, r.apply n = some m →
      ∃ m0, Rewrites rules module stack n0 m0 ∧ Rewrites rules module stack m0 n ∧ key m0 = key m := by
  induction fuel generalizing st with
  | zero => cases h
  | succ fuel ih =>
    rw [loop] at h
    cases hs : step key rules module stack st with
    | none =>
      rw [hs] at h
      simp only [Option.some.injEq] at h
      subst h
      intro r hr hm n' hn'
      obtain ⟨i, hi, rfl⟩ := List.mem_iff_getElem.1 hr
      have hlen : rules.length ≤ st.1 := by
        unfold step at hs
        cases hget : rules[st.1]? with
        | none => exact List.getElem?_eq_none_iff.1 hget
        | some r =>
          rw [hget] at hs
          dsimp only at hs
          split at hs
          · cases hs
          · split at hs
            · cases hs
            · split at hs <;> cases hs
      exact hseen _ (hinv i (by omega) _ (List.getElem?_eq_getElem hi) hm n' hn')
    | some st' =>
      rw [hs] at h
      dsimp only at h
      obtain ⟨-, he | ⟨r, hr, hon, m, hap, hk, rfl⟩⟩ := step_cases key rules module stack st st' hs
      · refine ih st' h (by rw [he]; exact hseen) (by rw [he]; exact h0) ?_
        intro i hi r hr hm n' hn'
        have hi' : i < st.1 + 1 := by rw [he] at hi; exact hi
        have hn2 : r.apply st.2.1 = some n' := by rw [he] at hn'; exact hn'
        have hgoal : key n' ∈ st.2.2 := by
          by_cases hii : i = st.1
          · subst hii
            unfold step at hs
            rw [hr] at hs
            dsimp only at hs
            rw [if_neg (by rw [hm]; decide), hn2] at hs
            dsimp only at hs
            by_cases hmem : key n' ∈ st.2.2
            · exact hmem
            · rw [if_neg hmem, he] at hs
              have := congrArg Prod.fst (Option.some.inj hs)
              simp only at this
              omega
          · exact hinv i (by omega) r hr hm n' hn2
        rw [he]
        exact hgoal
      · refine ih _ h ?_ (.step _ _ _ r hr hon h0 hap) (fun i hi => absurd hi (Nat.not_lt_zero i))
        intro k hk'
        rcases List.mem_cons.1 hk' with rfl | hk'
        · exact ⟨m, .step _ _ _ r hr hon h0 hap, .refl _, rfl⟩
        · obtain ⟨m0, h1, h2, h3⟩ := hseen k hk'
          exact ⟨m0, h1, .step _ _ _ r hr hon h2 hap, h3⟩

/-- **C60.** The constructor leaves no rule out that applies somewhere in the module: with the rules it keeps, the same rules apply in the same order at every place. -/
theorem kept_rules_apply {N : Type} (rules : List (Rule N)) (module : List Char) (stack : List (List Char)) :
    (kept rules module).filter (fun r => scopeMatches r.on module stack) = rules.filter fun r => scopeMatches r.on module stack := by
  unfold kept
  rw [List.filter_filter]
  refine List.filter_congr fun r _ => ?_
  cases h : scopeMatches r.on module stack
  · rfl
  · rw [prefilter_keeps r.on module stack h]; rfl

/-- **C60.** The rewritten node comes from the original one by rules that are in scope, and no rule that is in scope can change it
any further, except back to a form it had on the way. -/
theorem rules_applied_exhaustively (key : N → K) (rules : List (Rule N)) (module : List Char) (stack : List (List Char)) (fuel : ℕ)
    (n n' : N) (h : applyRules key rules module stack fuel n = some n') :
    Rewrites rules module stack n n'
    ∧ ∀ r ∈ rules, scopeMatches r.on module stack = true → ∀ m, r.apply n' = some m →
        ∃ m0, Rewrites rules module stack n m0 ∧ Rewrites rules module stack m0 n' ∧ key m0 = key m := by
  refine ⟨loop_sound key rules module stack fuel n _ n' h (.refl n), ?_⟩
  refine loop_done key rules module stack fuel n _ n' h ?_ (.refl n) (fun i hi => absurd hi (Nat.not_lt_zero i))
  intro k hk
  rw [List.mem_singleton] at hk
  exact ⟨n, .refl n, .refl n, hk.symm⟩

/-- **C60.** Rules without a matching scope never change a node. -/
theorem out_of_scope_unchanged (key : N → K) (rules : List (Rule N)) (module : List Char) (stack : List (List Char)) (n : N)
    (h : ∀ r ∈ rules, scopeMatches r.on module stack = false) :
    ∃ fuel, applyRules key rules module stack fuel n = some n := by
  obtain ⟨n', hn'⟩ := loop_terminates key rules module stack {key n} n (by
    intro m hm
    induction hm with
    | refl => simp
    | step m m' r hr hon => rw [h r hr] at hon; cases hon) _ (0, n, [key n]) (.refl n) (Nat.lt_succ_self _)
  refine ⟨_, hn'.trans ?_⟩
  have := loop_sound key rules module stack _ n _ n' hn' (.refl n)
  cases this with
  | refl => rfl
  | step m m' r hr hon => rw [h _ hr] at hon; cases hon

/-- **C60 (partial).** If only finitely many forms can be reached by rules that are in scope, rewriting terminates. -/
theorem rewriting_terminates_partial (key : N → K) (rules : List (Rule N)) (module : List Char) (stack : List (List Char)) (n : N)
    (forms : List K) (hfin : ∀ m, Rewrites rules module stack n m → key m ∈ forms) :
    ∃ fuel n', applyRules key rules module stack fuel n = some n' := by
  refine ⟨_, loop_terminates key rules module stack forms.toFinset n (fun m hm => List.mem_toFinset.2 (hfin m hm)) _ _ (.refl n)
    (Nat.lt_succ_self _)⟩

end

/-- The rule `x → f(x)` on terms `f(f(...f(x)))`, a term standing for its number of `f`s. -/
def growing : Rule ℕ := ⟨fun n => some (n + 1), none⟩

theorem growing_loop (fuel : ℕ) (n : ℕ) (seen : List ℕ) (h : ∀ k ∈ seen, k ≤ n) :
    loop (fun k => k) [growing] [] [] fuel (0, n, seen) = none := by
  induction fuel generalizing n seen with
  | zero => rfl
  | succ fuel ih =>
    rw [loop]
    have hs : step (fun k => k) [growing] [] [] (0, n, seen) = some (0, n + 1, (n + 1) :: seen) := by
      unfold step
      simp only [List.getElem?_cons_zero]
      rw [if_neg (by decide)]
      change (if n + 1 ∈ seen then _ else _) = _
      rw [if_neg (fun hm => by have := h _ hm; omega)]
    rw [hs]
    apply ih
    intro k hk
    rcases List.mem_cons.1 hk with rfl | hk
    · exact Nat.le_refl _
    · have := h k hk
      omega

/-- **C60, deviation.** A single rule whose replacement matches its own pattern, like `x → f(x)`, is applied forever. -/
theorem growing_rule_diverges (fuel n : ℕ) : applyRules (fun k => k) [growing] [] [] fuel n = none := by
  apply growing_loop
  intro k hk
  rw [List.mem_singleton] at hk
  exact Nat.le_of_eq hk

/-- **C60, deviation.** The scope of a rule is matched from the start of the qualified name, not as a contiguous part of it: the
name of a class on its own never matches inside a module. -/
theorem contiguous_part_not_matched (module cls : List Char) (stack : List (List Char)) (hd : '.' ∉ cls) (hm : module ≠ [])
    (hne : (split module).head? ≠ some cls) : scopeMatches (some cls) module (cls :: stack) = false := by
  unfold scopeMatches scopeParts
  rw [if_neg hm]
  simp only [decide_eq_false_iff_not]
  rw [take_eq_iff, split_of_no_dot hd]
  rintro ⟨r, hr⟩
  apply hne
  obtain ⟨a, l, hal⟩ := List.exists_cons_of_ne_nil (split_ne_nil module)
  rw [hal] at hr ⊢
  rw [List.cons_append, List.singleton_append, List.cons.injEq] at hr
  simp [hr.1]

/-! ## Concrete cases -/

example : scopeMatches (some "pkg.mod.C".toList) "pkg.mod".toList ["C".toList, "f".toList] = true := by decide +kernel
example : scopeMatches (some "pkg.mod.C.g".toList) "pkg.mod".toList ["C".toList, "f".toList] = false := by decide +kernel
example : applicableInModule (some "pkg.mod2.C".toList) "pkg.mod".toList = true := by decide +kernel
example : applicableInModule (some "pkg.other.C".toList) "pkg.mod".toList = false := by decide +kernel
example : (visit (.node 0 none [.node 1 (some ['C']) [.node 2 (some ['f']) [.node 3 none []], .node 4 none []]]) []).1
    = [(3, [['C'], ['f']]), (2, [['C']]), (4, [['C']]), (1, []), (0, [])] := by decide +kernel
/-- Two rules `0 → 1` and `1 → 0` stop at `1`. -/
example : applyRules (fun k => k) [⟨fun n => if n = 0 then some 1 else none, none⟩, ⟨fun n => if n = 1 then some 0 else none, none⟩]
    [] [] 10 0 = some 1 := by decide +kernel

end FF.Pattern
