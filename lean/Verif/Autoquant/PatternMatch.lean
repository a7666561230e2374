import Mathlib.Data.List.Basic
import Mathlib.Data.Nat.Notation

/-!
# What a rewrite rule matches and what it puts in place

Models `PatternRule.apply`, the conversion of a pattern to a matcher and the substitution of captures in
`/repo/src/fastforward/_autoquant/cst/pattern.py`, with the matching of `libcst.matchers`. Where rules are applied is modelled in
`Verif.Autoquant.Pattern`.
-/

namespace FF.PatMatch

/-! ### Model: matching and replacing -/

/-- A concrete syntax tree. `trivia` is whitespace, a comment, or an optional token that was left to the default; `leaf` a field that is a text;
a name may be a capture `{x}` in patterns and replacements (`PATTERN_PREFIX`). Parentheses of a name are its own, those of other nodes are among their
children, and so are sequences of nodes. -/
inductive Cst where
  | trivia (text : String)
  | leaf (text : String)
  | name (text : String) (parens : ℕ)
  | capture (x : String)
  | node (kind : String) (kids : List Cst)

/-- A matcher; `any` is `DoNotCare`, `save` is `SaveMatchedNode(DoNotCare(), x)`. -/
inductive Mat where
  | any
  | save (x : String)
  | leaf (text : String)
  | name (text : String) (parens : ℕ)
  | node (kind : String) (kids : List Mat)

/-- Captured nodes; of two with the same name the later one counts. -/
abbrev Env := List (String × Cst)

mutual
/-- `_convert_to_matcher_impl` (`pattern.py:215-276`). -/
def toMatcher : Cst → Mat
  | .trivia _ => .any
  | .leaf t => .leaf t
  | .name t p => .name t p
  | .capture x => .save x
  | .node k cs => .node k (toMatchers cs)
def toMatchers : List Cst → List Mat
  | [] => []
  | c :: cs => toMatcher c :: toMatchers cs
end

mutual
/-- `libcst.matchers.extract`: same kind, children match one by one; captures of later children replace those of earlier ones. -/
def extract : Mat → Cst → Option Env
  | .any, _ => some []
  | .save x, c => some [(x, c)]
  | .leaf t, .leaf t' => if t = t' then some [] else none
  | .name t p, .name t' p' => if t = t' ∧ p = p' then some [] else none
  | .node k ms, .node k' cs => if k = k' then extractAll ms cs else none
  | _, _ => none
def extractAll : List Mat → List Cst → Option Env
  | [], [] => some []
  | m :: ms, c :: cs => match extract m c with
    | none => none
    | some e => match extractAll ms cs with
      | none => none
      | some e' => some (e ++ e')
  | _, _ => none
end

/-- The capture of a name: the last one. -/
def look (e : Env) (x : String) : Option Cst := (e.reverse.find? fun p => p.1 = x).map (·.2)

mutual
/-- `_CaptureTransformer` (327-341); `none` is the `KeyError` for a name that is not captured. -/
def fill (e : Env) : Cst → Option Cst
  | .capture x => look e x
  | .node k cs => match fillAll e cs with
    | none => none
    | some cs' => some (.node k cs')
  | c => some c
def fillAll (e : Env) : List Cst → Option (List Cst)
  | [] => some []
  | c :: cs => match fill e c with
    | none => none
    | some c' => match fillAll e cs with
      | none => none
      | some cs' => some (c' :: cs')
end

/-- The result of a rule at one node. -/
inductive Result where
  | same
  | replaced (c : Cst)
  | keyError

/-- `PatternRule.apply` at a node for patterns and replacements of the kind of the node (41-66). -/
def apply (pattern replacement c : Cst) : Result :=
  match extract (toMatcher pattern) c with
  | none => .same
  | some e => match fill e replacement with
    | none => .keyError
    | some r => .replaced r

/-! ### Model: statements and expressions -/

/-- What a node is: an expression, a small statement, a line of small statements, or a compound statement. `α` are expressions and `β` small and compound
statements. `expr` as a small statement is an expression used as a statement. -/
inductive Slot (α β : Type) where
  | expression (a : α)
  | small (b : β)
  | exprStmt (a : α)
  | line (bs : List (α ⊕ β))
  | compound (b : β)
  deriving DecidableEq

/-- The kind of place a node can stand in. -/
inductive Place where
  | expression | small | statement
  deriving DecidableEq, Repr

def Slot.place {α β : Type} : Slot α β → Place
  | .expression _ => .expression
  | .small _ => .small
  | .exprStmt _ => .small
  | .line _ => .statement
  | .compound _ => .statement

/-- A small statement as a node. -/
def smallOf {α β : Type} : α ⊕ β → Slot α β
  | .inl a => .exprStmt a
  | .inr b => .small b

/-- A node that is a small statement, as an item of a line. -/
def itemOf {α β : Type} : Slot α β → Option (α ⊕ β)
  | .small b => some (.inr b)
  | .exprStmt a => some (.inl a)
  | _ => none

/-- How the filled replacement `r` is put in the place of the node `c` that matched (68-86); `none` leaves the node. -/
def wrap {α β : Type} (c r : Slot α β) : Option (Slot α β) :=
  match c.place with
  | .small => match r with
    | .expression a => some (.exprStmt a)
    | .line [b] => some (smallOf b)
    | .line _ => none
    | .compound _ => none
    | r => some r
  | .statement => match r with
    | .expression a => some (.line [.inl a])
    | .small b => some (.line [.inr b])
    | .exprStmt a => some (.line [.inl a])
    | r => some r
  | .expression => some r

/-! ### Model: the text of the result -/

/-- Expressions with sums, products and calls; `paren` is an expression with its parentheses, `hole` a capture in a replacement. -/
inductive Ex where
  | var (x : String)
  | hole (x : String)
  | add (a b : Ex)
  | mul (a b : Ex)
  | call (f : String) (a : Ex)
  | paren (a : Ex)
  deriving DecidableEq, Repr

/-- `_CaptureTransformer` on expressions: captured nodes are put in as they are. -/
def subst (σ : String → Ex) : Ex → Ex
  | .var x => .var x
  | .hole x => σ x
  | .add a b => .add (subst σ a) (subst σ b)
  | .mul a b => .mul (subst σ a) (subst σ b)
  | .call f a => .call f (subst σ a)
  | .paren a => .paren (subst σ a)

/-- The code of a tree (`code_for_node`): the tokens from left to right. -/
def text : Ex → List String
  | .var x => [x]
  | .hole x => ["{" ++ x ++ "}"]
  | .add a b => text a ++ "+" :: text b
  | .mul a b => text a ++ "*" :: text b
  | .call f a => f :: "(" :: text a ++ [")"]
  | .paren a => "(" :: text a ++ [")"]

/-! ### Specification -/

mutual
/-- The tree is the pattern with `σ x` in place of `{x}`, up to whitespace and comments. -/
inductive Instance (σ : String → Cst) : Cst → Cst → Prop
  | trivia (t c) : Instance σ (.trivia t) c
  | leaf (t) : Instance σ (.leaf t) (.leaf t)
  | name (t p) : Instance σ (.name t p) (.name t p)
  | capture (x) : Instance σ (.capture x) (σ x)
  | node (k ps cs) : Instances σ ps cs → Instance σ (.node k ps) (.node k cs)
inductive Instances (σ : String → Cst) : List Cst → List Cst → Prop
  | nil : Instances σ [] []
  | cons (p c ps cs) : Instance σ p c → Instances σ ps cs → Instances σ (p :: ps) (c :: cs)
end

mutual
/-- The tree is the replacement with `σ x` in place of `{x}`, exactly. -/
inductive Filled (σ : String → Cst) : Cst → Cst → Prop
  | trivia (t) : Filled σ (.trivia t) (.trivia t)
  | leaf (t) : Filled σ (.leaf t) (.leaf t)
  | name (t p) : Filled σ (.name t p) (.name t p)
  | capture (x) : Filled σ (.capture x) (σ x)
  | node (k ps cs) : FilledAll σ ps cs → Filled σ (.node k ps) (.node k cs)
inductive FilledAll (σ : String → Cst) : List Cst → List Cst → Prop
  | nil : FilledAll σ [] []
  | cons (p c ps cs) : Filled σ p c → FilledAll σ ps cs → FilledAll σ (p :: ps) (c :: cs)
end

mutual
/-- The names captured in a tree, from left to right. -/
def holes : Cst → List String
  | .capture x => [x]
  | .node _ cs => holesAll cs
  | _ => []
def holesAll : List Cst → List String
  | [] => []
  | c :: cs => holes c ++ holesAll cs
end

/-- The trees that Python's grammar gives: at level 0 sums, at level 1 products, at level 2 names, calls and expressions in parentheses. -/
inductive Grouped : ℕ → Ex → Prop
  | var (n x) : Grouped n (.var x)
  | hole (n x) : Grouped n (.hole x)
  | call (n f a) : Grouped 0 a → Grouped n (.call f a)
  | paren (n a) : Grouped 0 a → Grouped n (.paren a)
  | mul (n a b) : n ≤ 1 → Grouped 1 a → Grouped 2 b → Grouped n (.mul a b)
  | add (n a b) : n ≤ 0 → Grouped 0 a → Grouped 1 b → Grouped n (.add a b)

/-- The value of an expression. -/
def value (ρ : String → Int) (fn : String → Int → Int) (h : String → Int) : Ex → Int
  | .var x => ρ x
  | .hole x => h x
  | .add a b => value ρ fn h a + value ρ fn h b
  | .mul a b => value ρ fn h a * value ρ fn h b
  | .call f a => fn f (value ρ fn h a)
  | .paren a => value ρ fn h a

/-! ### Lemmas -/

theorem look_append (a b : Env) (x : String) : look (a ++ b) x = (look b x).or (look a x) := by
  unfold look
  rw [List.reverse_append, List.find?_append]
  cases h : b.reverse.find? (fun p => p.1 = x) <;> simp

theorem look_none {e : Env} {x : String} (h : x ∉ e.map (·.1)) : look e x = none := by
  unfold look
  rw [Option.map_eq_none_iff, List.find?_eq_none]
  intro p hp
  simp only [decide_eq_true_eq]
  rintro rfl
  exact h (List.mem_map.2 ⟨p, List.mem_reverse.1 hp, rfl⟩)

mutual
theorem extract_names : ∀ (p c : Cst) (e : Env), extract (toMatcher p) c = some e → e.map (·.1) = holes p
  | .trivia _, c, e, h => by cases c <;> (simp [toMatcher, extract] at h; subst h; simp [holes])
  | .leaf t, c, e, h => by
    cases c <;> simp [toMatcher, extract] at h
    obtain ⟨_, rfl⟩ := h; simp [holes]
  | .name t p, c, e, h => by
    cases c <;> simp [toMatcher, extract] at h
    obtain ⟨_, rfl⟩ := h; simp [holes]
  | .capture x, c, e, h => by cases c <;> (simp [toMatcher, extract] at h; subst h; simp [holes])
  | .node k ps, c, e, h => by
    cases c <;> simp [toMatcher, extract] at h
    obtain ⟨_, h⟩ := h
    rw [holes]; exact extractAll_names ps _ e h
theorem extractAll_names : ∀ (ps cs : List Cst) (e : Env), extractAll (toMatchers ps) cs = some e → e.map (·.1) = holesAll ps
  | [], cs, e, h => by
    cases cs <;> simp [toMatchers, extractAll] at h
    subst h; simp [holesAll]
  | p :: ps, cs, e, h => by
    cases cs with
    | nil => simp [toMatchers, extractAll] at h
    | cons c cs =>
      simp only [toMatchers, extractAll] at h
      cases h1 : extract (toMatcher p) c with
      | none => rw [h1] at h; cases h
      | some e1 =>
        rw [h1] at h
        cases h2 : extractAll (toMatchers ps) cs with
        | none => rw [h2] at h; cases h
        | some e2 =>
          rw [h2] at h
          simp only [Option.some.injEq] at h
          subst h
          rw [holesAll, List.map_append, extract_names p c e1 h1, extractAll_names ps cs e2 h2]
end

mutual
theorem extract_complete : ∀ (p c : Cst) (σ : String → Cst), Instance σ p c → ∃ e, extract (toMatcher p) c = some e
  | .trivia _, c, σ, _ => ⟨[], by cases c <;> rfl⟩
  | .leaf t, c, σ, h => by cases h; exact ⟨[], by simp [toMatcher, extract]⟩
  | .name t p, c, σ, h => by cases h; exact ⟨[], by simp [toMatcher, extract]⟩
  | .capture x, c, σ, _ => ⟨[(x, c)], by cases c <;> rfl⟩
  | .node k ps, c, σ, h => by
    cases h with
    | node _ _ cs h =>
      obtain ⟨e, he⟩ := extractAll_complete ps cs σ h
      exact ⟨e, by simp only [toMatcher, extract, if_true]; exact he⟩
theorem extractAll_complete : ∀ (ps cs : List Cst) (σ : String → Cst), Instances σ ps cs → ∃ e, extractAll (toMatchers ps) cs = some e
  | [], cs, σ, h => by cases h; exact ⟨[], rfl⟩
  | p :: ps, cs, σ, h => by
    cases h with
    | cons _ c _ cs h1 h2 =>
      obtain ⟨e1, he1⟩ := extract_complete p c σ h1
      obtain ⟨e2, he2⟩ := extractAll_complete ps cs σ h2
      exact ⟨e1 ++ e2, by simp only [toMatchers, extractAll, he1, he2]⟩
end

mutual
theorem extract_sound : ∀ (p c : Cst) (e : Env) (σ : String → Cst), extract (toMatcher p) c = some e → (∀ q ∈ e, σ q.1 = q.2) → Instance σ p c
  | .trivia t, c, e, σ, _, _ => .trivia t c
  | .leaf t, c, e, σ, h, _ => by
    cases c <;> simp [toMatcher, extract] at h
    obtain ⟨rfl, _⟩ := h; exact .leaf _
  | .name t p, c, e, σ, h, _ => by
    cases c <;> simp [toMatcher, extract] at h
    obtain ⟨⟨rfl, rfl⟩, _⟩ := h; exact .name _ _
  | .capture x, c, e, σ, h, hσ => by
    have he : e = [(x, c)] := by cases c <;> (simp [toMatcher, extract] at h; exact h.symm)
    have := hσ (x, c) (by rw [he]; simp)
    simp only at this
    rw [← this]; exact .capture x
  | .node k ps, c, e, σ, h, hσ => by
    cases c <;> simp [toMatcher, extract] at h
    obtain ⟨rfl, h⟩ := h
    exact .node _ _ _ (extractAll_sound ps _ e σ h hσ)
theorem extractAll_sound : ∀ (ps cs : List Cst) (e : Env) (σ : String → Cst), extractAll (toMatchers ps) cs = some e → (∀ q ∈ e, σ q.1 = q.2) →
    Instances σ ps cs
  | [], cs, e, σ, h, _ => by
    cases cs <;> simp [toMatchers, extractAll] at h
    exact .nil
  | p :: ps, cs, e, σ, h, hσ => by
    cases cs with
    | nil => simp [toMatchers, extractAll] at h
    | cons c cs =>
      simp only [toMatchers, extractAll] at h
      cases h1 : extract (toMatcher p) c with
      | none => rw [h1] at h; cases h
      | some e1 =>
        rw [h1] at h
        cases h2 : extractAll (toMatchers ps) cs with
        | none => rw [h2] at h; cases h
        | some e2 =>
          rw [h2] at h
          simp only [Option.some.injEq] at h
          subst h
          exact .cons _ _ _ _ (extract_sound p c e1 σ h1 fun q hq => hσ q (List.mem_append_left _ hq))
            (extractAll_sound ps cs e2 σ h2 fun q hq => hσ q (List.mem_append_right _ hq))
end

/-- What the captures say, as a function. -/
def asFun (e : Env) (x : String) : Cst := (look e x).getD (.trivia "")

theorem key_inj : ∀ {e : Env}, (e.map (·.1)).Nodup → ∀ {p q : String × Cst}, p ∈ e → q ∈ e → p.1 = q.1 → p = q
  | [], _, _, _, hp, _, _ => by cases hp
  | a :: e, hn, p, q, hp, hq, h => by
    rw [List.map_cons, List.nodup_cons] at hn
    rcases List.mem_cons.1 hp with hp' | hp' <;> rcases List.mem_cons.1 hq with hq' | hq'
    · rw [hp', hq']
    · exact absurd (List.mem_map.2 ⟨q, hq', by rw [← h, hp']⟩) hn.1
    · exact absurd (List.mem_map.2 ⟨p, hp', by rw [h, hq']⟩) hn.1
    · exact key_inj hn.2 hp' hq' h

theorem look_mem {e : Env} (hn : (e.map (·.1)).Nodup) {q : String × Cst} (hq : q ∈ e) : look e q.1 = some q.2 := by
  unfold look
  cases hf : e.reverse.find? (fun p => p.1 = q.1) with
  | none =>
    have := List.find?_eq_none.1 hf q (List.mem_reverse.2 hq)
    simp at this
  | some p =>
    have h1 := List.mem_reverse.1 (List.mem_of_find?_eq_some hf)
    have h2 := List.find?_some hf
    simp only [decide_eq_true_eq] at h2
    rw [key_inj hn h1 hq h2]
    rfl

theorem look_isSome {e : Env} {x : String} (h : x ∈ e.map (·.1)) : (look e x).isSome := by
  unfold look
  rw [Option.isSome_map, List.find?_isSome]
  obtain ⟨p, hp, rfl⟩ := List.mem_map.1 h
  exact ⟨p, List.mem_reverse.2 hp, by simp⟩

mutual
theorem fill_some : ∀ (e : Env) (r : Cst), (∀ x ∈ holes r, x ∈ e.map (·.1)) → ∃ c, fill e r = some c ∧ Filled (asFun e) r c
  | e, .trivia t, _ => ⟨_, rfl, .trivia t⟩
  | e, .leaf t, _ => ⟨_, rfl, .leaf t⟩
  | e, .name t p, _ => ⟨_, rfl, .name t p⟩
  | e, .capture x, h => by
    obtain ⟨c, hc⟩ := Option.isSome_iff_exists.1 (look_isSome (h x (by simp [holes])))
    refine ⟨c, by rw [fill]; exact hc, ?_⟩
    have : asFun e x = c := by simp [asFun, hc]
    rw [← this]; exact .capture x
  | e, .node k cs, h => by
    obtain ⟨cs', h1, h2⟩ := fillAll_some e cs (by rw [holes] at h; exact h)
    exact ⟨.node k cs', by simp only [fill, h1], .node _ _ _ h2⟩
theorem fillAll_some : ∀ (e : Env) (cs : List Cst), (∀ x ∈ holesAll cs, x ∈ e.map (·.1)) → ∃ cs', fillAll e cs = some cs' ∧ FilledAll (asFun e) cs cs'
  | e, [], _ => ⟨[], rfl, .nil⟩
  | e, c :: cs, h => by
    rw [holesAll] at h
    obtain ⟨c', h1, h2⟩ := fill_some e c fun x hx => h x (List.mem_append_left _ hx)
    obtain ⟨cs', h3, h4⟩ := fillAll_some e cs fun x hx => h x (List.mem_append_right _ hx)
    exact ⟨c' :: cs', by simp only [fillAll, h1, h3], .cons _ _ _ _ h2 h4⟩
end

mutual
theorem fill_none : ∀ (e : Env) (r : Cst) (x : String), x ∈ holes r → x ∉ e.map (·.1) → fill e r = none
  | e, .capture y, x, h, hx => by
    simp only [holes, List.mem_singleton] at h
    subst h
    rw [fill]; exact look_none hx
  | e, .node k cs, x, h, hx => by
    rw [holes] at h
    simp only [fill, fillAll_none e cs x h hx]
  | e, .trivia _, x, h, _ => by simp [holes] at h
  | e, .leaf _, x, h, _ => by simp [holes] at h
  | e, .name _ _, x, h, _ => by simp [holes] at h
theorem fillAll_none : ∀ (e : Env) (cs : List Cst) (x : String), x ∈ holesAll cs → x ∉ e.map (·.1) → fillAll e cs = none
  | e, [], x, h, _ => by simp [holesAll] at h
  | e, c :: cs, x, h, hx => by
    rw [holesAll, List.mem_append] at h
    rcases h with h | h
    · simp only [fillAll, fill_none e c x h hx]
    · cases hc : fill e c with
      | none => simp only [fillAll, hc]
      | some c' => simp only [fillAll, hc, fillAll_none e cs x h hx]
end

theorem grouped_le {n m : ℕ} {e : Ex} (h : Grouped n e) (hm : m ≤ n) : Grouped m e := by
  cases h with
  | var => exact .var _ _
  | hole => exact .hole _ _
  | call _ _ _ h => exact .call _ _ _ h
  | paren _ _ h => exact .paren _ _ h
  | mul _ _ _ hn h1 h2 => exact .mul _ _ _ (by omega) h1 h2
  | add _ _ _ hn h1 h2 => exact .add _ _ _ (by omega) h1 h2

/-! ### Properties -/

/-- **C118 (partial).** A rule applies to a node exactly if the node is its pattern with something in place of the captures, up to whitespace and comments; every other
node is left as it is. Missing: a capture that is in the pattern twice, see `repeated_capture_matches_anything`. -/
theorem applies_iff_instance_partial (pattern replacement c : Cst) (hl : (holes pattern).Nodup) :
    apply pattern replacement c ≠ .same ↔ ∃ σ, Instance σ pattern c := by
  constructor
  · intro h
    cases he : extract (toMatcher pattern) c with
    | none => exact absurd (by unfold apply; rw [he]) h
    | some e =>
      exact ⟨asFun e, extract_sound pattern c e (asFun e) he fun q hq => by
        simp [asFun, look_mem (extract_names pattern c e he ▸ hl) hq]⟩
  · rintro ⟨σ, h⟩
    obtain ⟨e, he⟩ := extract_complete pattern c σ h
    unfold apply
    rw [he]
    simp only
    cases fill e replacement <;> simp

/-- **C118.** With captures in the pattern twice too, a rule applies to every node that is an instance of its pattern. -/
theorem instance_applies (pattern replacement c : Cst) (σ : String → Cst) (h : Instance σ pattern c) : apply pattern replacement c ≠ .same := by
  obtain ⟨e, he⟩ := extract_complete pattern c σ h
  unfold apply
  rw [he]
  simp only
  cases fill e replacement <;> simp

/-- **C118 (partial).** Where a rule applies, the node is replaced by the replacement with every capture standing for what it stood for in the node. Missing: captures
that are in the pattern twice. -/
theorem replaced_by_instance_partial (pattern replacement c : Cst) (hl : (holes pattern).Nodup) (σ : String → Cst) (hi : Instance σ pattern c)
    (hc : ∀ x ∈ holes replacement, x ∈ holes pattern) :
    ∃ τ r, apply pattern replacement c = .replaced r ∧ Instance τ pattern c ∧ Filled τ replacement r := by
  obtain ⟨e, he⟩ := extract_complete pattern c σ hi
  have hn := extract_names pattern c e he
  obtain ⟨r, h1, h2⟩ := fill_some e replacement fun x hx => by rw [hn]; exact hc x hx
  refine ⟨asFun e, r, ?_, ?_, h2⟩
  · unfold apply
    rw [he]
    simp only [h1]
  · exact extract_sound pattern c e (asFun e) he fun q hq => by simp [asFun, look_mem (hn ▸ hl) hq]

mutual
theorem instance_unique : ∀ (p c : Cst) (σ τ : String → Cst), Instance σ p c → Instance τ p c → ∀ x ∈ holes p, σ x = τ x
  | .trivia _, c, σ, τ, _, _, x, hx => by simp [holes] at hx
  | .leaf _, c, σ, τ, _, _, x, hx => by simp [holes] at hx
  | .name _ _, c, σ, τ, _, _, x, hx => by simp [holes] at hx
  | .capture y, c, σ, τ, h1, h2, x, hx => by
    simp only [holes, List.mem_singleton] at hx
    subst hx
    generalize hd : σ x = d
    cases h1 with
    | capture => rw [← hd]; generalize σ x = z at h2; cases h2; rfl
  | .node k ps, c, σ, τ, h1, h2, x, hx => by
    rw [holes] at hx
    cases h1 with
    | node _ _ cs h1 => cases h2 with
      | node _ _ _ h2 => exact instances_unique ps cs σ τ h1 h2 x hx
theorem instances_unique : ∀ (ps cs : List Cst) (σ τ : String → Cst), Instances σ ps cs → Instances τ ps cs → ∀ x ∈ holesAll ps, σ x = τ x
  | [], cs, σ, τ, _, _, x, hx => by simp [holesAll] at hx
  | p :: ps, cs, σ, τ, h1, h2, x, hx => by
    cases h1 with
    | cons _ c _ cs a1 b1 => cases h2 with
      | cons _ _ _ _ a2 b2 =>
        rw [holesAll, List.mem_append] at hx
        rcases hx with hx | hx
        · exact instance_unique p c σ τ a1 a2 x hx
        · exact instances_unique ps cs σ τ b1 b2 x hx
end

/-- **C118.** What the captures stand for is determined by the pattern and the node. -/
theorem captures_determined (pattern c : Cst) (σ τ : String → Cst) (h1 : Instance σ pattern c) (h2 : Instance τ pattern c) (x : String)
    (hx : x ∈ holes pattern) : σ x = τ x := instance_unique pattern c σ τ h1 h2 x hx

/-- **C118.** A replacement with a capture that the pattern does not have is an error wherever the rule applies. -/
theorem unknown_capture_refused (pattern replacement c : Cst) (σ : String → Cst) (hi : Instance σ pattern c) (x : String) (hx : x ∈ holes replacement)
    (hp : x ∉ holes pattern) : apply pattern replacement c = .keyError := by
  obtain ⟨e, he⟩ := extract_complete pattern c σ hi
  unfold apply
  rw [he]
  simp only [fill_none e replacement x hx (by rw [extract_names pattern c e he]; exact hp)]

/-- **C118 (partial).** What takes the place of a statement is a statement of the kind that can stand there, and that of an expression an expression if the replacement is
one. Missing: replacing an expression by a statement, see `statement_in_expression`. -/
theorem place_kept_partial {α β : Type} (c r r' : Slot α β) (h : wrap c r = some r') (hr : c.place = .expression → r.place = .expression) :
    r'.place = c.place := by
  unfold wrap at h
  cases hc : c.place <;> rw [hc] at h <;> simp only at h
  · rw [← Option.some.inj h]; exact hr hc
  · cases r with
    | expression a => simp only [Option.some.injEq] at h; subst h; rfl
    | small b => simp only [Option.some.injEq] at h; subst h; rfl
    | exprStmt b => simp only [Option.some.injEq] at h; subst h; rfl
    | compound b => simp at h
    | line bs =>
      match bs with
      | [] => simp at h
      | [b] => simp only [Option.some.injEq] at h; subst h; cases b <;> rfl
      | _ :: _ :: _ => simp at h
  · cases r <;> simp only [Option.some.injEq] at h <;> subst h <;> rfl

/-- **C118 (partial).** The code of the result reads as the result: if captures stand for names, calls or expressions in parentheses, no operator takes an operand away from
another one. Missing: other captures, see `operand_taken_away`. -/
theorem grouping_kept_partial (σ : String → Ex) (hσ : ∀ x, Grouped 2 (σ x)) {n : ℕ} {r : Ex} (h : Grouped n r) (hn : n ≤ 2) : Grouped n (subst σ r) := by
  induction h with
  | var n x => exact .var _ _
  | hole n x => exact grouped_le (hσ x) hn
  | call n f a _ ih => exact .call _ _ _ (ih (by omega))
  | paren n a _ ih => exact .paren _ _ (ih (by omega))
  | mul n a b h _ _ ih1 ih2 => exact .mul _ _ _ h (ih1 (by omega)) (ih2 (by omega))
  | add n a b h _ _ ih1 ih2 => exact .add _ _ _ h (ih1 (by omega)) (ih2 (by omega))

/-- **C118.** The value of the result, as a tree, is the value of the replacement with the values of the captures. -/
theorem value_of_result (ρ : String → Int) (fn : String → Int → Int) (h : String → Int) (σ : String → Ex) (r : Ex) :
    value ρ fn h (subst σ r) = value ρ fn (fun x => value ρ fn h (σ x)) r := by
  induction r with
  | var x => rfl
  | hole x => rfl
  | add a b ih1 ih2 => simp only [subst, value, ih1, ih2]
  | mul a b ih1 ih2 => simp only [subst, value, ih1, ih2]
  | call f a ih => simp only [subst, value, ih]
  | paren a ih => simp only [subst, value, ih]

/-! ### Deviations -/

/-- **C118, deviation.** A capture that is in the pattern twice need not stand for the same twice: `{x} + {x}` matches every sum, and the capture is the right operand. The check for captures
that are used several times does not see this. -/
theorem repeated_capture_matches_anything (a b : Cst) :
    apply (.node "Sum" [.capture "x", .capture "x"]) (.node "Double" [.capture "x"]) (.node "Sum" [a, b]) = .replaced (.node "Double" [b]) := by
  simp [apply, toMatcher, toMatchers, extract, extractAll, fill, fillAll, look]

/-- **C118, deviation.** No parentheses are put around what a capture stands for: with the rule `f({x})` to `{x} * c`, the code for `f(a + b)` is `a + b * c`, which
reads as `a + (b * c)` and not as the result of the rule. -/
theorem operand_taken_away (a b c : String) :
    let r := subst (fun _ => .add (.var a) (.var b)) (.mul (.hole "x") (.var c))
    text r = text (.add (.var a) (.mul (.var b) (.var c))) ∧ Grouped 0 (.add (.var a) (.mul (.var b) (.var c))) ∧ ¬ Grouped 0 r
      ∧ ∃ ρ fn h, a ≠ b → a ≠ c → b ≠ c → value ρ fn h r ≠ value ρ fn h (.add (.var a) (.mul (.var b) (.var c))) := by
  refine ⟨rfl, .add _ _ _ (Nat.le_refl _) (.var _ _) (.mul _ _ _ (Nat.le_refl _) (.var _ _) (.var _ _)), ?_, ?_⟩
  · intro h
    cases h with
    | mul _ _ _ _ h1 _ =>
      cases h1 with
      | add _ _ _ h1 _ _ => omega
  · refine ⟨fun x => if x = a then 1 else if x = b then 0 else 2, fun _ x => x, fun _ => 0, ?_⟩
    intro h1 h2 h3
    have h2' : ¬ c = a := fun e => h2 e.symm
    have h1' : ¬ b = a := fun e => h1 e.symm
    have h3' : ¬ c = b := fun e => h3 e.symm
    simp [subst, value, h1', h2', h3']

/-- **C118, deviation.** Nodes with parentheses of their own do not match: the pattern `a.b` does not match `(a.b)`. -/
theorem parentheses_not_ignored (k : String) (kids : List Cst) (r : Cst) :
    apply (.node k (.node "seq" [] :: kids)) r (.node k (.node "seq" [.leaf "("] :: kids)) = .same := by
  simp [apply, toMatcher, toMatchers, extract, extractAll]

/-- **C118, deviation.** A rule for an expression whose replacement is a statement puts a statement inside an expression. -/
theorem statement_in_expression {α β : Type} (a : α) (b : β) : wrap (.expression a) (.small b : Slot α β) = some (.small b) := rfl

/-- **C118, deviation.** A statement is not replaced by several if it shares its line with another one: neither at the statement nor, since the line has two, at the line. -/
theorem several_statements_left {α β : Type} (b : β) (x y : α ⊕ β) : wrap (.small b) (.line [x, y] : Slot α β) = none := rfl

/-! ### Concrete cases -/

/-- `{f}({a})` with spaces against `g( x )`. -/
def exPattern : Cst := .node "Call" [.capture "f", .trivia "", .node "Arg" [.capture "a"]]

def exNode : Cst := .node "Call" [.name "g" 0, .trivia " ", .node "Arg" [.name "x" 0]]

example : (holes exPattern).Nodup := by decide

example : apply exPattern (.node "Call" [.node "Attr" [.capture "f", .leaf "new"], .node "Arg" [.capture "a"]]) exNode =
    .replaced (.node "Call" [.node "Attr" [.name "g" 0, .leaf "new"], .node "Arg" [.name "x" 0]]) := rfl

example : apply exPattern (.capture "a") (.node "Sum" [.name "g" 0]) = .same := rfl

/-- With parentheses in the source all is well: `f((a + b))`. -/
example : text (subst (fun _ => .paren (.add (.var "a") (.var "b"))) (.mul (.hole "x") (.var "c"))) = ["(", "a", "+", "b", ")", "*", "c"] := rfl

end FF.PatMatch
