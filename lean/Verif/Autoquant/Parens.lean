import Mathlib.Data.List.Basic
import Mathlib.Data.Nat.Notation

/-!
# Removing redundant parentheses from source code

Models `RemoveRedundantParenthesesTransformer` in `/repo/src/fastforward/_autoquant/cst/passes.py`, one of the passes that prepare every source file for conversion
(`autoquant.py:383-400`), with the checks that `libcst` makes whenever a node is built.
-/

namespace FF.Parens

/-! ### Model -/

/-- Whitespace: spaces, or a line break (`ParenthesizedWhitespace`), possibly with a comment. -/
inductive Ws where
  | spaces (n : ℕ)
  | lines (comment : Bool)
  deriving DecidableEq, Repr

/-- A pair of parentheses, with the whitespace after the left one and before the right one. -/
abbrev Pair := Ws × Ws

/-- Expressions with parentheses and whitespace: names, attributes, calls, subscripts, operators with two operands and with one. `call` has one argument. -/
inductive Ex where
  | name (p : List Pair) (x : String)
  | attr (p : List Pair) (a : Ex) (before after : Ws) (field : String)
  | call (p : List Pair) (f : Ex) (ws : Ws) (arg : Ex)
  | sub (p : List Pair) (a : Ex) (ws : Ws) (i : Ex)
  | bin (p : List Pair) (a : Ex) (w1 : Ws) (op : String) (w2 : Ws) (b : Ex)
  | un (p : List Pair) (op : String) (w : Ws) (a : Ex)
  deriving DecidableEq, Repr

/-- Operators that are words. -/
def isWord (op : String) : Bool := op ∈ ["and", "or", "in", "is", "not", "if", "else"]

def Ex.parens : Ex → List Pair
  | .name p _ => p
  | .attr p .. => p
  | .call p .. => p
  | .sub p .. => p
  | .bin p .. => p
  | .un p .. => p

/-- `libcst`'s `_safe_to_use_with_word_operator`, negated, for what follows a word: the text starts with a letter. -/
def startsWord : Ex → Bool
  | .name p _ => p.isEmpty
  | .attr p a .. => p.isEmpty && startsWord a
  | .call p a .. => p.isEmpty && startsWord a
  | .sub p a .. => p.isEmpty && startsWord a
  | .bin p a .. => p.isEmpty && startsWord a
  | .un p op .. => p.isEmpty && isWord op

/-- The same for what comes before a word: the text ends with a letter. -/
def endsWord : Ex → Bool
  | .name p _ => p.isEmpty
  | .attr p .. => p.isEmpty
  | .call .. => false
  | .sub .. => false
  | .bin p _ _ _ _ b => p.isEmpty && endsWord b
  | .un p _ _ a => p.isEmpty && endsWord a

def empty (w : Ws) : Bool := w = .spaces 0

/-- `libcst`'s checks when a node is built: a word operator needs whitespace or parentheses on both sides. -/
def valid : Ex → Bool
  | .bin _ a w1 op w2 b => !(isWord op && ((empty w1 && endsWord a) || (empty w2 && startsWord b)))
  | .un _ op w a => !(isWord op && empty w && startsWord a)
  | _ => true

def isLines : Ws → Bool
  | .lines _ => true
  | .spaces _ => false

def hasComment : Ws → Bool
  | .lines c => c
  | .spaces _ => false

/-- `_can_safely_remove_parens` (`passes.py:1024-1071`), without the case for concatenated strings. -/
def canRemove (p : List Pair) : Bool :=
  !(p.any fun q => isLines q.1) && !(p.any fun q => isLines q.2) && !(p.any fun q => hasComment q.1 || hasComment q.2)

/-- The parentheses that stay. -/
def keep (p : List Pair) : List Pair := if canRemove p then [] else p

/-- `_normalize_attribute_dot_whitespace` (938-952). -/
def normalize (w : Ws) : Ws := if isLines w then .spaces 0 else w

/-- A node as it is built again, or the exception of `libcst`. -/
def build (e : Ex) : Option Ex := if valid e then some e else none

/-- `on_leave` (996-1022), children first. -/
def strip : Ex → Option Ex
  | .name p x => some (.name (keep p) x)
  | .attr p a w1 w2 f => match strip a with
    | some a' => some (.attr (keep p) a' (normalize w1) w2 f)
    | none => none
  | .call p a w b => match strip a with
    | some a' => match strip b with
      | some b' => some (.call (keep p) a' w b')
      | none => none
    | none => none
  | .sub p a w b => match strip a with
    | some a' => match strip b with
      | some b' => some (.sub (keep p) a' w b')
      | none => none
    | none => none
  | .bin p a w1 op w2 b => match strip a with
    | some a' => match strip b with
      | some b' => build (.bin p a' w1 op w2 b')
      | none => none
    | none => none
  | .un p op w a => match strip a with
    | some a' => build (.un p op w a')
    | none => none

/-- A statement `return e`, `if e:`, `while e:`, `assert e`: the whitespace after the keyword, and the expression. -/
def stripStmt (w : Ws) (e : Ex) : Option (Ws × Ex) := match strip e with
  | some e' => if empty w && startsWord e' then none else some (w, e')
  | none => none

/-! ### Specification -/

/-- What an expression is, without parentheses and whitespace. -/
inductive Core where
  | name (x : String)
  | attr (a : Core) (f : String)
  | call (a b : Core)
  | sub (a b : Core)
  | bin (a : Core) (op : String) (b : Core)
  | un (op : String) (a : Core)
  deriving DecidableEq, Repr

def core : Ex → Core
  | .name _ x => .name x
  | .attr _ a _ _ f => .attr (core a) f
  | .call _ a _ b => .call (core a) (core b)
  | .sub _ a _ b => .sub (core a) (core b)
  | .bin _ a _ op _ b => .bin (core a) op (core b)
  | .un _ op _ a => .un op (core a)

/-- The text of the tree is read as the tree: an operator without parentheses stands only where one of its precedence may stand. Attributes, calls and subscripts are of things that bind
tighter than any operator (`top`). -/
def Grouped (prec : String → ℕ) (top : ℕ) : ℕ → Ex → Prop
  | _, .name _ _ => True
  | _, .attr _ a _ _ _ => Grouped prec top top a
  | _, .call _ a _ b => Grouped prec top top a ∧ Grouped prec top 0 b
  | _, .sub _ a _ b => Grouped prec top top a ∧ Grouped prec top 0 b
  | n, .bin p a _ op _ b => (p = [] → n ≤ prec op) ∧ Grouped prec top (prec op) a ∧ Grouped prec top (prec op + 1) b
  | n, .un p op _ a => (p = [] → n ≤ prec op) ∧ Grouped prec top (prec op) a

/-- A line break may stand only inside parentheses or brackets. -/
def Allowed (inside : Bool) (w : Ws) : Prop := inside = true ∨ ∃ n, w = .spaces n

/-- All line breaks of the text are inside parentheses or brackets. -/
def Legal : Bool → Ex → Prop
  | _, .name _ _ => True
  | i, .attr p a w1 w2 _ => Allowed (i || !p.isEmpty) w1 ∧ Allowed (i || !p.isEmpty) w2 ∧ Legal (i || !p.isEmpty) a
  | i, .call p a w b => Allowed (i || !p.isEmpty) w ∧ Legal (i || !p.isEmpty) a ∧ Legal true b
  | i, .sub p a w b => Allowed (i || !p.isEmpty) w ∧ Legal (i || !p.isEmpty) a ∧ Legal true b
  | i, .bin p a w1 _ w2 b => Allowed (i || !p.isEmpty) w1 ∧ Allowed (i || !p.isEmpty) w2 ∧ Legal (i || !p.isEmpty) a ∧ Legal (i || !p.isEmpty) b
  | i, .un p _ w a => Allowed (i || !p.isEmpty) w ∧ Legal (i || !p.isEmpty) a

/-- No line breaks after a dot, nor before the brackets of calls and subscripts. -/
def Tidy : Ex → Prop
  | .name _ _ => True
  | .attr _ a _ w2 _ => (∃ n, w2 = .spaces n) ∧ Tidy a
  | .call _ a w b => (∃ n, w = .spaces n) ∧ Tidy a ∧ Tidy b
  | .sub _ a w b => (∃ n, w = .spaces n) ∧ Tidy a ∧ Tidy b
  | .bin _ a _ _ _ b => Tidy a ∧ Tidy b
  | .un _ _ _ a => Tidy a

/-- Whitespace around operators that are words. -/
def Spaced : Ex → Prop
  | .name _ _ => True
  | .attr _ a _ _ _ => Spaced a
  | .call _ a _ b => Spaced a ∧ Spaced b
  | .sub _ a _ b => Spaced a ∧ Spaced b
  | .bin _ a w1 op w2 b => (isWord op = true → w1 ≠ .spaces 0 ∧ w2 ≠ .spaces 0) ∧ Spaced a ∧ Spaced b
  | .un _ op w a => (isWord op = true → w ≠ .spaces 0) ∧ Spaced a

/-- No parentheses are around a name, an attribute, a call or a subscript, except with a line break. -/
def Stripped : Ex → Prop
  | .name p _ => p = [] ∨ ∃ q ∈ p, isLines q.1 = true ∨ isLines q.2 = true
  | .attr p a _ _ _ => (p = [] ∨ ∃ q ∈ p, isLines q.1 = true ∨ isLines q.2 = true) ∧ Stripped a
  | .call p a _ b => (p = [] ∨ ∃ q ∈ p, isLines q.1 = true ∨ isLines q.2 = true) ∧ Stripped a ∧ Stripped b
  | .sub p a _ b => (p = [] ∨ ∃ q ∈ p, isLines q.1 = true ∨ isLines q.2 = true) ∧ Stripped a ∧ Stripped b
  | .bin _ a _ _ _ b => Stripped a ∧ Stripped b
  | .un _ _ _ a => Stripped a

/-! ### Lemmas -/

theorem build_some {e e' : Ex} (h : build e = some e') : e' = e := by
  unfold build at h
  split at h
  · exact (Option.some.inj h).symm
  · cases h

theorem strip_attr {p : List Pair} {a : Ex} {w1 w2 : Ws} {f : String} {e : Ex} (h : strip (.attr p a w1 w2 f) = some e) :
    ∃ a', strip a = some a' ∧ e = .attr (keep p) a' (normalize w1) w2 f := by
  rw [strip] at h
  cases ha : strip a with
  | none => rw [ha] at h; cases h
  | some a' => rw [ha] at h; exact ⟨a', rfl, (Option.some.inj h).symm⟩

theorem strip_call {p : List Pair} {a b : Ex} {w : Ws} {e : Ex} (h : strip (.call p a w b) = some e) :
    ∃ a' b', strip a = some a' ∧ strip b = some b' ∧ e = .call (keep p) a' w b' := by
  rw [strip] at h
  cases ha : strip a with
  | none => rw [ha] at h; cases h
  | some a' =>
    rw [ha] at h
    cases hb : strip b with
    | none => rw [hb] at h; cases h
    | some b' => rw [hb] at h; exact ⟨a', b', rfl, rfl, (Option.some.inj h).symm⟩

theorem strip_sub {p : List Pair} {a b : Ex} {w : Ws} {e : Ex} (h : strip (.sub p a w b) = some e) :
    ∃ a' b', strip a = some a' ∧ strip b = some b' ∧ e = .sub (keep p) a' w b' := by
  rw [strip] at h
  cases ha : strip a with
  | none => rw [ha] at h; cases h
  | some a' =>
    rw [ha] at h
    cases hb : strip b with
    | none => rw [hb] at h; cases h
    | some b' => rw [hb] at h; exact ⟨a', b', rfl, rfl, (Option.some.inj h).symm⟩

theorem strip_bin {p : List Pair} {a b : Ex} {w1 w2 : Ws} {op : String} {e : Ex} (h : strip (.bin p a w1 op w2 b) = some e) :
    ∃ a' b', strip a = some a' ∧ strip b = some b' ∧ e = .bin p a' w1 op w2 b' := by
  rw [strip] at h
  cases ha : strip a with
  | none => rw [ha] at h; cases h
  | some a' =>
    rw [ha] at h
    cases hb : strip b with
    | none => rw [hb] at h; cases h
    | some b' => rw [hb] at h; exact ⟨a', b', rfl, rfl, build_some h⟩

theorem strip_un {p : List Pair} {a : Ex} {w : Ws} {op : String} {e : Ex} (h : strip (.un p op w a) = some e) :
    ∃ a', strip a = some a' ∧ e = .un p op w a' := by
  rw [strip] at h
  cases ha : strip a with
  | none => rw [ha] at h; cases h
  | some a' => rw [ha] at h; exact ⟨a', rfl, build_some h⟩

theorem allowed_normalize (i : Bool) (w : Ws) : Allowed i (normalize w) := by
  right
  cases w with
  | spaces n => exact ⟨n, rfl⟩
  | lines c => exact ⟨0, rfl⟩

theorem keep_spec (p : List Pair) : keep p = [] ∨ ∃ q ∈ keep p, isLines q.1 = true ∨ isLines q.2 = true := by
  unfold keep
  by_cases h : canRemove p = true
  · rw [if_pos h]; exact .inl rfl
  · rw [if_neg h]
    right
    unfold canRemove at h
    simp only [Bool.and_eq_true, Bool.not_eq_true', List.any_eq_false, not_and, not_forall] at h
    by_cases h1 : ∃ q ∈ p, isLines q.1 = true
    · obtain ⟨q, hq, h1⟩ := h1; exact ⟨q, hq, .inl h1⟩
    · by_cases h2 : ∃ q ∈ p, isLines q.2 = true
      · obtain ⟨q, hq, h2⟩ := h2; exact ⟨q, hq, .inr h2⟩
      · exfalso
        obtain ⟨q, hq, h3⟩ := h ⟨fun q hq hl => h1 ⟨q, hq, hl⟩, fun q hq hl => h2 ⟨q, hq, hl⟩⟩
        apply h3
        rw [Bool.or_eq_true]
        rintro (h4 | h4)
        · apply h1; refine ⟨q, hq, ?_⟩
          cases hw : q.1 <;> rw [hw] at h4 <;> simp [hasComment, isLines] at h4 ⊢
        · apply h2; refine ⟨q, hq, ?_⟩
          cases hw : q.2 <;> rw [hw] at h4 <;> simp [hasComment, isLines] at h4 ⊢

/-! ### Properties -/

/-- **C121.** The code after the removal is the same expression: names, attributes, calls, subscripts and operators are the same in the same structure. -/
theorem same_expression : ∀ (e e' : Ex), strip e = some e' → core e' = core e
  | .name p x, e', h => by cases h; rfl
  | .attr p a w1 w2 f, e', h => by
    obtain ⟨a', h1, rfl⟩ := strip_attr h
    simp only [core, same_expression a a' h1]
  | .call p a w b, e', h => by
    obtain ⟨a', b', h1, h2, rfl⟩ := strip_call h
    simp only [core, same_expression a a' h1, same_expression b b' h2]
  | .sub p a w b, e', h => by
    obtain ⟨a', b', h1, h2, rfl⟩ := strip_sub h
    simp only [core, same_expression a a' h1, same_expression b b' h2]
  | .bin p a w1 op w2 b, e', h => by
    obtain ⟨a', b', h1, h2, rfl⟩ := strip_bin h
    simp only [core, same_expression a a' h1, same_expression b b' h2]
  | .un p op w a, e', h => by
    obtain ⟨a', h1, rfl⟩ := strip_un h
    simp only [core, same_expression a a' h1]

/-- **C121.** No parentheses are removed that grouping needs: if the source is read as its tree, so is the result, for all precedences of operators. -/
theorem grouping_kept (prec : String → ℕ) (top : ℕ) : ∀ (e e' : Ex) (n : ℕ), strip e = some e' → Grouped prec top n e → Grouped prec top n e'
  | .name p x, e', n, h, hg => by cases h; trivial
  | .attr p a w1 w2 f, e', n, h, hg => by
    obtain ⟨a', h1, rfl⟩ := strip_attr h
    exact grouping_kept prec top a a' top h1 hg
  | .call p a w b, e', n, h, hg => by
    obtain ⟨a', b', h1, h2, rfl⟩ := strip_call h
    exact ⟨grouping_kept prec top a a' _ h1 hg.1, grouping_kept prec top b b' _ h2 hg.2⟩
  | .sub p a w b, e', n, h, hg => by
    obtain ⟨a', b', h1, h2, rfl⟩ := strip_sub h
    exact ⟨grouping_kept prec top a a' _ h1 hg.1, grouping_kept prec top b b' _ h2 hg.2⟩
  | .bin p a w1 op w2 b, e', n, h, hg => by
    obtain ⟨a', b', h1, h2, rfl⟩ := strip_bin h
    exact ⟨hg.1, grouping_kept prec top a a' _ h1 hg.2.1, grouping_kept prec top b b' _ h2 hg.2.2⟩
  | .un p op w a, e', n, h, hg => by
    obtain ⟨a', h1, rfl⟩ := strip_un h
    exact ⟨hg.1, grouping_kept prec top a a' _ h1 hg.2⟩

/-- **C121.** Redundant parentheses are gone: in the result, names, attributes, calls and subscripts have none, except with a line break next to them. -/
theorem redundant_removed : ∀ (e e' : Ex), strip e = some e' → Stripped e'
  | .name p x, e', h => by cases h; exact keep_spec p
  | .attr p a w1 w2 f, e', h => by
    obtain ⟨a', h1, rfl⟩ := strip_attr h
    exact ⟨keep_spec p, redundant_removed a a' h1⟩
  | .call p a w b, e', h => by
    obtain ⟨a', b', h1, h2, rfl⟩ := strip_call h
    exact ⟨keep_spec p, redundant_removed a a' h1, redundant_removed b b' h2⟩
  | .sub p a w b, e', h => by
    obtain ⟨a', b', h1, h2, rfl⟩ := strip_sub h
    exact ⟨keep_spec p, redundant_removed a a' h1, redundant_removed b b' h2⟩
  | .bin p a w1 op w2 b, e', h => by
    obtain ⟨a', b', h1, h2, rfl⟩ := strip_bin h
    exact ⟨redundant_removed a a' h1, redundant_removed b b' h2⟩
  | .un p op w a, e', h => by
    obtain ⟨a', h1, rfl⟩ := strip_un h
    exact redundant_removed a a' h1

theorem keep_lines {p : List Pair} (h : ∃ q ∈ p, isLines q.1 = true ∨ isLines q.2 = true) : keep p = p := by
  unfold keep
  rw [if_neg]
  obtain ⟨q, hq, h | h⟩ := h
  · intro hc
    have : (p.any fun q => isLines q.1) = true := List.any_eq_true.2 ⟨q, hq, h⟩
    simp [canRemove, this] at hc
  · intro hc
    have : (p.any fun q => isLines q.2) = true := List.any_eq_true.2 ⟨q, hq, h⟩
    simp [canRemove, this] at hc

/-- **C121.** Parentheses with a line break next to one of them are kept, with their whitespace and comments. -/
theorem broken_kept (e e' : Ex) (h : strip e = some e') (hl : ∃ q ∈ e.parens, isLines q.1 = true ∨ isLines q.2 = true) : e'.parens = e.parens := by
  cases e with
  | name p x => cases h; exact keep_lines hl
  | attr p a w1 w2 f => obtain ⟨a', _, rfl⟩ := strip_attr h; exact keep_lines hl
  | call p a w b => obtain ⟨a', b', _, _, rfl⟩ := strip_call h; exact keep_lines hl
  | sub p a w b => obtain ⟨a', b', _, _, rfl⟩ := strip_sub h; exact keep_lines hl
  | bin p a w1 op w2 b => obtain ⟨a', b', _, _, rfl⟩ := strip_bin h; rfl
  | un p op w a => obtain ⟨a', _, rfl⟩ := strip_un h; rfl

/-- The removal keeps line breaks inside parentheses; below attributes, calls and subscripts even without those around. -/
theorem legal_both (prec : String → ℕ) (top : ℕ) (hp : ∀ op, prec op < top) : ∀ (e e' : Ex), strip e = some e' → Tidy e →
    (∀ i n, Grouped prec top n e → Legal i e → Legal i e') ∧ (∀ i, Grouped prec top top e → Legal true e → Legal i e')
  | .name p x, e', h, _ => by cases h; exact ⟨fun _ _ _ _ => trivial, fun _ _ _ => trivial⟩
  | .attr p a w1 w2 f, e', h, ht => by
    obtain ⟨a', h1, rfl⟩ := strip_attr h
    have ih := (legal_both prec top hp a a' h1 ht.2).2
    have B : ∀ i, Grouped prec top top a → Legal true a → Legal i (.attr (keep p) a' (normalize w1) w2 f) := fun i hg hl =>
      ⟨allowed_normalize _ _, .inr ht.1, ih _ hg hl⟩
    have up : ∀ i, Legal i a → Legal true a := fun i => by
      cases i with
      | true => exact id
      | false =>
        have : ∀ (e : Ex) (j : Bool), Legal j e → Legal true e := by
          intro e
          induction e with
          | name => intro _ _; trivial
          | attr p a w1 w2 f ih => intro j h; exact ⟨.inl (by simp), .inl (by simp), by simpa using ih _ h.2.2⟩
          | call p a w b ih1 ih2 => intro j h; exact ⟨.inl (by simp), by simpa using ih1 _ h.2.1, h.2.2⟩
          | sub p a w b ih1 ih2 => intro j h; exact ⟨.inl (by simp), by simpa using ih1 _ h.2.1, h.2.2⟩
          | bin p a w1 op w2 b ih1 ih2 => intro j h; exact ⟨.inl (by simp), .inl (by simp), by simpa using ih1 _ h.2.2.1, by simpa using ih2 _ h.2.2.2⟩
          | un p op w a ih => intro j h; exact ⟨.inl (by simp), by simpa using ih _ h.2⟩
        exact this a false
    exact ⟨fun i n hg hl => B i hg (up _ hl.2.2), fun i hg hl => B i hg (up _ hl.2.2)⟩
  | .call p a w b, e', h, ht => by
    obtain ⟨a', b', h1, h2, rfl⟩ := strip_call h
    have ih1 := (legal_both prec top hp a a' h1 ht.2.1).2
    have ih2 := (legal_both prec top hp b b' h2 ht.2.2).1
    have up : ∀ (e : Ex) (j : Bool), Legal j e → Legal true e := by
      intro e
      induction e with
      | name => intro _ _; trivial
      | attr p a w1 w2 f ih => intro j h; exact ⟨.inl (by simp), .inl (by simp), by simpa using ih _ h.2.2⟩
      | call p a w b ih1 ih2 => intro j h; exact ⟨.inl (by simp), by simpa using ih1 _ h.2.1, h.2.2⟩
      | sub p a w b ih1 ih2 => intro j h; exact ⟨.inl (by simp), by simpa using ih1 _ h.2.1, h.2.2⟩
      | bin p a w1 op w2 b ih1 ih2 => intro j h; exact ⟨.inl (by simp), .inl (by simp), by simpa using ih1 _ h.2.2.1, by simpa using ih2 _ h.2.2.2⟩
      | un p op w a ih => intro j h; exact ⟨.inl (by simp), by simpa using ih _ h.2⟩
    exact ⟨fun i n hg hl => ⟨.inr ht.1, ih1 _ hg.1 (up _ _ hl.2.1), ih2 _ _ hg.2 hl.2.2⟩,
      fun i hg hl => ⟨.inr ht.1, ih1 _ hg.1 (up _ _ hl.2.1), ih2 _ _ hg.2 hl.2.2⟩⟩
  | .sub p a w b, e', h, ht => by
    obtain ⟨a', b', h1, h2, rfl⟩ := strip_sub h
    have ih1 := (legal_both prec top hp a a' h1 ht.2.1).2
    have ih2 := (legal_both prec top hp b b' h2 ht.2.2).1
    have up : ∀ (e : Ex) (j : Bool), Legal j e → Legal true e := by
      intro e
      induction e with
      | name => intro _ _; trivial
      | attr p a w1 w2 f ih => intro j h; exact ⟨.inl (by simp), .inl (by simp), by simpa using ih _ h.2.2⟩
      | call p a w b ih1 ih2 => intro j h; exact ⟨.inl (by simp), by simpa using ih1 _ h.2.1, h.2.2⟩
      | sub p a w b ih1 ih2 => intro j h; exact ⟨.inl (by simp), by simpa using ih1 _ h.2.1, h.2.2⟩
      | bin p a w1 op w2 b ih1 ih2 => intro j h; exact ⟨.inl (by simp), .inl (by simp), by simpa using ih1 _ h.2.2.1, by simpa using ih2 _ h.2.2.2⟩
      | un p op w a ih => intro j h; exact ⟨.inl (by simp), by simpa using ih _ h.2⟩
    exact ⟨fun i n hg hl => ⟨.inr ht.1, ih1 _ hg.1 (up _ _ hl.2.1), ih2 _ _ hg.2 hl.2.2⟩,
      fun i hg hl => ⟨.inr ht.1, ih1 _ hg.1 (up _ _ hl.2.1), ih2 _ _ hg.2 hl.2.2⟩⟩
  | .bin p a w1 op w2 b, e', h, ht => by
    obtain ⟨a', b', h1, h2, rfl⟩ := strip_bin h
    have ih1 := (legal_both prec top hp a a' h1 ht.1).1
    have ih2 := (legal_both prec top hp b b' h2 ht.2).1
    refine ⟨fun i n hg hl => ⟨hl.1, hl.2.1, ih1 _ _ hg.2.1 hl.2.2.1, ih2 _ _ hg.2.2 hl.2.2.2⟩, ?_⟩
    intro i hg hl
    have hne : p ≠ [] := fun h0 => by have := hg.1 h0; have := hp op; omega
    have hi : (i || !p.isEmpty) = true := by cases p with
      | nil => exact absurd rfl hne
      | cons => simp
    have hl' : Legal true (.bin p a w1 op w2 b) := hl
    refine ⟨.inl hi, .inl hi, ?_, ?_⟩
    · rw [hi]; exact ih1 _ _ hg.2.1 (by simpa using hl'.2.2.1)
    · rw [hi]; exact ih2 _ _ hg.2.2 (by simpa using hl'.2.2.2)
  | .un p op w a, e', h, ht => by
    obtain ⟨a', h1, rfl⟩ := strip_un h
    have ih1 := (legal_both prec top hp a a' h1 ht).1
    refine ⟨fun i n hg hl => ⟨hl.1, ih1 _ _ hg.2 hl.2⟩, ?_⟩
    intro i hg hl
    have hne : p ≠ [] := fun h0 => by have := hg.1 h0; have := hp op; omega
    have hi : (i || !p.isEmpty) = true := by cases p with
      | nil => exact absurd rfl hne
      | cons => simp
    refine ⟨.inl hi, ?_⟩
    rw [hi]; exact ih1 _ _ hg.2 (by simpa using hl.2)

/-- **C121 (partial).** Line breaks stay inside parentheses, so that the code stays valid, if there are none after dots and before the brackets of calls and subscripts. Missing: those, see
`line_break_exposed`. -/
theorem line_breaks_inside_partial (prec : String → ℕ) (top : ℕ) (hp : ∀ op, prec op < top) (e e' : Ex) (h : strip e = some e') (ht : Tidy e) (n : ℕ)
    (hg : Grouped prec top n e) (hl : Legal false e) : Legal false e' := (legal_both prec top hp e e' h ht).1 false n hg hl

theorem empty_false {w : Ws} (h : w ≠ .spaces 0) : empty w = false := by simp [empty, h]

/-- **C121 (partial).** The removal succeeds if the operators that are words have whitespace around them. Missing: operators with only parentheses next to them, see `no_space_fails`. -/
theorem succeeds_partial : ∀ (e : Ex), Spaced e → ∃ e', strip e = some e'
  | .name p x, _ => ⟨_, rfl⟩
  | .attr p a w1 w2 f, h => by
    obtain ⟨a', h1⟩ := succeeds_partial a h
    exact ⟨.attr (keep p) a' (normalize w1) w2 f, by rw [strip, h1]⟩
  | .call p a w b, h => by
    obtain ⟨a', h1⟩ := succeeds_partial a h.1
    obtain ⟨b', h2⟩ := succeeds_partial b h.2
    exact ⟨.call (keep p) a' w b', by rw [strip, h1, h2]⟩
  | .sub p a w b, h => by
    obtain ⟨a', h1⟩ := succeeds_partial a h.1
    obtain ⟨b', h2⟩ := succeeds_partial b h.2
    exact ⟨.sub (keep p) a' w b', by rw [strip, h1, h2]⟩
  | .bin p a w1 op w2 b, h => by
    obtain ⟨a', h1⟩ := succeeds_partial a h.2.1
    obtain ⟨b', h2⟩ := succeeds_partial b h.2.2
    refine ⟨.bin p a' w1 op w2 b', ?_⟩
    rw [strip, h1, h2]
    refine if_pos ?_
    unfold valid
    by_cases hw : isWord op = true
    · obtain ⟨e1, e2⟩ := h.1 hw
      simp [empty_false e1, empty_false e2]
    · simp [hw]
  | .un p op w a, h => by
    obtain ⟨a', h1⟩ := succeeds_partial a h.2
    refine ⟨.un p op w a', ?_⟩
    rw [strip, h1]
    refine if_pos ?_
    unfold valid
    by_cases hw : isWord op = true
    · simp [empty_false (h.1 hw)]
    · simp [hw]

/-- **C121 (partial).** So does that of a statement with whitespace after its keyword. -/
theorem statement_succeeds_partial (w : Ws) (e : Ex) (hw : w ≠ .spaces 0) (h : Spaced e) : ∃ e', stripStmt w e = some (w, e') := by
  obtain ⟨e', he⟩ := succeeds_partial e h
  exact ⟨e', by simp [stripStmt, he, empty_false hw]⟩

/-! ### Specification: the text -/

def wsText : Ws → List Char
  | .spaces n => List.replicate n ' '
  | .lines _ => ['\n']

/-- Text in parentheses. -/
def wrap : List Pair → List Char → List Char
  | [], t => t
  | q :: p, t => '(' :: (wsText q.1 ++ wrap p t ++ wsText q.2) ++ [')']

/-- The text of an expression, without comments. -/
def text : Ex → List Char
  | .name p x => wrap p x.toList
  | .attr p a w1 w2 f => wrap p (text a ++ wsText w1 ++ '.' :: wsText w2 ++ f.toList)
  | .call p a w b => wrap p (text a ++ wsText w ++ '(' :: text b ++ [')'])
  | .sub p a w b => wrap p (text a ++ wsText w ++ '[' :: text b ++ [']'])
  | .bin p a w1 op w2 b => wrap p (text a ++ wsText w1 ++ op.toList ++ wsText w2 ++ text b)
  | .un p op w a => wrap p (op.toList ++ wsText w ++ text a)

/-- A character of words. -/
def letter (c : Char) : Bool := c.isAlphanum || c == '_'

/-- Words do not run together: where there is no space between an operator that is a word and its operand, the text of the operand begins, or ends, with something else than a letter. -/
def Separated : Ex → Prop
  | .name _ _ => True
  | .attr _ a _ _ _ => Separated a
  | .call _ a _ b => Separated a ∧ Separated b
  | .sub _ a _ b => Separated a ∧ Separated b
  | .bin _ a w1 op w2 b => (isWord op = true → (wsText w1 = [] → ∀ c, (text a).getLast? = some c → letter c = false) ∧
      (wsText w2 = [] → ∀ c, (text b).head? = some c → letter c = false)) ∧ Separated a ∧ Separated b
  | .un _ op w a => (isWord op = true → wsText w = [] → ∀ c, (text a).head? = some c → letter c = false) ∧ Separated a

/-- Names are not empty, and operators of one operand that are not words begin with something else than a letter. -/
def Sane : Core → Prop
  | .name x => x.toList ≠ []
  | .attr a _ => Sane a
  | .call a b => Sane a ∧ Sane b
  | .sub a b => Sane a ∧ Sane b
  | .bin a _ b => Sane a ∧ Sane b
  | .un op a => (isWord op = false → ∃ c cs, op.toList = c :: cs ∧ letter c = false) ∧ Sane a

theorem wrap_head {p : List Pair} {t : List Char} (h : p.isEmpty = false) : (wrap p t).head? = some '(' := by
  cases p with
  | nil => simp at h
  | cons q p => simp [wrap]

theorem wrap_last {p : List Pair} {t : List Char} (h : p.isEmpty = false) : (wrap p t).getLast? = some ')' := by
  cases p with
  | nil => simp at h
  | cons q p => rw [wrap, List.getLast?_append]; simp

theorem wrap_ne {p : List Pair} {t : List Char} (h : t ≠ []) : wrap p t ≠ [] := by
  cases p with
  | nil => exact h
  | cons q p => simp [wrap]

theorem wrap_nil {p : List Pair} {t : List Char} (h : p.isEmpty = true) : wrap p t = t := by
  cases p with
  | nil => rfl
  | cons q p => simp at h

theorem text_ne : ∀ e : Ex, Sane (core e) → text e ≠ []
  | .name p x, h => wrap_ne h
  | .attr .., _ => wrap_ne (by simp)
  | .call .., _ => wrap_ne (by simp)
  | .sub .., _ => wrap_ne (by simp)
  | .bin p a w1 op w2 b, h => wrap_ne (by simp [text_ne a h.1])
  | .un p op w a, h => wrap_ne (by simp [text_ne a h.2])

theorem head_append {s t : List Char} (h : s ≠ []) : (s ++ t).head? = s.head? := by
  cases s with
  | nil => exact absurd rfl h
  | cons => rfl

theorem last_append {s t : List Char} (h : t ≠ []) : (s ++ t).getLast? = t.getLast? := by
  rw [List.getLast?_append]
  cases ht : t.getLast? with
  | none => exact absurd (List.getLast?_eq_none_iff.1 ht) h
  | some c => rfl

theorem starts_sound : ∀ (e : Ex), Sane (core e) → startsWord e = false → ∀ c, (text e).head? = some c → letter c = false
  | .name p x, h, hs, c, hc => by
    simp only [startsWord] at hs
    rw [text, wrap_head hs] at hc
    cases hc; rfl
  | .attr p a w1 w2 f, h, hs, c, hc => by
    cases hp : p.isEmpty with
    | false => rw [text, wrap_head hp] at hc; cases hc; rfl
    | true =>
      simp only [startsWord, hp, Bool.true_and] at hs
      rw [text, wrap_nil hp, List.append_assoc, List.append_assoc, head_append (text_ne a h)] at hc
      exact starts_sound a h hs c hc
  | .call p a w b, h, hs, c, hc => by
    cases hp : p.isEmpty with
    | false => rw [text, wrap_head hp] at hc; cases hc; rfl
    | true =>
      simp only [startsWord, hp, Bool.true_and] at hs
      rw [text, wrap_nil hp, List.append_assoc, List.append_assoc, head_append (text_ne a h.1)] at hc
      exact starts_sound a h.1 hs c hc
  | .sub p a w b, h, hs, c, hc => by
    cases hp : p.isEmpty with
    | false => rw [text, wrap_head hp] at hc; cases hc; rfl
    | true =>
      simp only [startsWord, hp, Bool.true_and] at hs
      rw [text, wrap_nil hp, List.append_assoc, List.append_assoc, head_append (text_ne a h.1)] at hc
      exact starts_sound a h.1 hs c hc
  | .bin p a w1 op w2 b, h, hs, c, hc => by
    cases hp : p.isEmpty with
    | false => rw [text, wrap_head hp] at hc; cases hc; rfl
    | true =>
      simp only [startsWord, hp, Bool.true_and] at hs
      rw [text, wrap_nil hp, List.append_assoc, List.append_assoc, List.append_assoc, head_append (text_ne a h.1)] at hc
      exact starts_sound a h.1 hs c hc
  | .un p op w a, h, hs, c, hc => by
    cases hp : p.isEmpty with
    | false => rw [text, wrap_head hp] at hc; cases hc; rfl
    | true =>
      simp only [startsWord, hp, Bool.true_and] at hs
      obtain ⟨d, ds, h1, h2⟩ := h.1 hs
      rw [text, wrap_nil hp, List.append_assoc, h1] at hc
      simp only [List.cons_append, List.head?_cons, Option.some.injEq] at hc
      exact hc ▸ h2

theorem ends_sound : ∀ (e : Ex), Sane (core e) → endsWord e = false → ∀ c, (text e).getLast? = some c → letter c = false
  | .name p x, h, hs, c, hc => by
    simp only [endsWord] at hs
    rw [text, wrap_last hs] at hc
    cases hc; rfl
  | .attr p a w1 w2 f, h, hs, c, hc => by
    simp only [endsWord] at hs
    rw [text, wrap_last hs] at hc
    cases hc; rfl
  | .call p a w b, h, hs, c, hc => by
    cases hp : p.isEmpty with
    | false => rw [text, wrap_last hp] at hc; cases hc; rfl
    | true => rw [text, wrap_nil hp, last_append (by simp)] at hc; cases hc; rfl
  | .sub p a w b, h, hs, c, hc => by
    cases hp : p.isEmpty with
    | false => rw [text, wrap_last hp] at hc; cases hc; rfl
    | true => rw [text, wrap_nil hp, last_append (by simp)] at hc; cases hc; rfl
  | .bin p a w1 op w2 b, h, hs, c, hc => by
    cases hp : p.isEmpty with
    | false => rw [text, wrap_last hp] at hc; cases hc; rfl
    | true =>
      simp only [endsWord, hp, Bool.true_and] at hs
      rw [text, wrap_nil hp, last_append (text_ne b h.2)] at hc
      exact ends_sound b h.2 hs c hc
  | .un p op w a, h, hs, c, hc => by
    cases hp : p.isEmpty with
    | false => rw [text, wrap_last hp] at hc; cases hc; rfl
    | true =>
      simp only [endsWord, hp, Bool.true_and] at hs
      rw [text, wrap_nil hp, last_append (text_ne a h.2)] at hc
      exact ends_sound a h.2 hs c hc

theorem wsText_nil {w : Ws} (h : wsText w = []) : empty w = true := by
  cases w with
  | spaces n => cases n with
    | zero => rfl
    | succ n => simp [wsText, List.replicate_succ] at h
  | lines c => simp [wsText] at h

/-- **C121.** In the result, operators that are words do not run together with their operands. -/
theorem words_separated : ∀ (e e' : Ex), strip e = some e' → Sane (core e) → Separated e'
  | .name p x, e', h, _ => by rw [strip] at h; cases h; trivial
  | .attr p a w1 w2 f, e', h, hs => by
    obtain ⟨a', h1, rfl⟩ := strip_attr h
    exact words_separated a a' h1 hs
  | .call p a w b, e', h, hs => by
    obtain ⟨a', b', h1, h2, rfl⟩ := strip_call h
    exact ⟨words_separated a a' h1 hs.1, words_separated b b' h2 hs.2⟩
  | .sub p a w b, e', h, hs => by
    obtain ⟨a', b', h1, h2, rfl⟩ := strip_sub h
    exact ⟨words_separated a a' h1 hs.1, words_separated b b' h2 hs.2⟩
  | .bin p a w1 op w2 b, e', h, hs => by
    obtain ⟨a', b', h1, h2, rfl⟩ := strip_bin h
    have sa : Sane (core a') := by rw [same_expression a a' h1]; exact hs.1
    have sb : Sane (core b') := by rw [same_expression b b' h2]; exact hs.2
    have hv : valid (.bin p a' w1 op w2 b') = true := by
      rw [strip, h1, h2] at h
      simp only [build] at h
      split at h
      · assumption
      · cases h
    refine ⟨fun hw => ⟨fun he => ends_sound a' sa ?_, fun he => starts_sound b' sb ?_⟩, words_separated a a' h1 hs.1, words_separated b b' h2 hs.2⟩
    · simp only [valid, hw, wsText_nil he, Bool.true_and, Bool.not_or, Bool.and_eq_true, Bool.not_eq_true'] at hv
      exact hv.1
    · simp only [valid, hw, wsText_nil he, Bool.true_and, Bool.not_or, Bool.and_eq_true, Bool.not_eq_true'] at hv
      exact hv.2
  | .un p op w a, e', h, hs => by
    obtain ⟨a', h1, rfl⟩ := strip_un h
    have sa : Sane (core a') := by rw [same_expression a a' h1]; exact hs.2
    have hv : valid (.un p op w a') = true := by
      rw [strip, h1] at h
      simp only [build] at h
      split at h
      · assumption
      · cases h
    refine ⟨fun hw he => starts_sound a' sa ?_, words_separated a a' h1 hs.2⟩
    simp only [valid, hw, wsText_nil he, Bool.true_and, Bool.not_eq_true'] at hv
    exact hv

/-- **C121.** Nor do the keywords of statements with what follows them. -/
theorem keyword_separated (w w' : Ws) (e e' : Ex) (h : stripStmt w e = some (w', e')) (hs : Sane (core e)) :
    w' = w ∧ Separated e' ∧ (wsText w = [] → ∀ c, (text e').head? = some c → letter c = false) := by
  unfold stripStmt at h
  cases h1 : strip e with
  | none => rw [h1] at h; cases h
  | some d =>
    rw [h1] at h
    simp only at h
    split at h
    · cases h
    case isFalse hne =>
      cases h
      refine ⟨rfl, words_separated e e' h1 hs, fun he => starts_sound e' (by rw [same_expression e e' h1]; exact hs) ?_⟩
      simpa [wsText_nil he] using hne

/-- `not(a + b)` stays as it is. -/
example : Sane (core (.un [] "not" (.spaces 0) (.bin [(.spaces 0, .spaces 0)] (.name [] "a") (.spaces 1) "+" (.spaces 1) (.name [] "b")))) ∧
    strip (.un [] "not" (.spaces 0) (.bin [(.spaces 0, .spaces 0)] (.name [] "a") (.spaces 1) "+" (.spaces 1) (.name [] "b"))) ≠ none := by
  refine ⟨⟨fun h => by simp [isWord] at h, by simp [core, Sane]⟩, by decide⟩

/-! ### Deviations -/

/-- **C121, deviation.** `return(x)`, `if(x):`, `while(x):` and so on are valid Python, but fail: without the parentheses there would be no space, and `libcst` refuses the node. -/
theorem no_space_fails (x : String) (n m : ℕ) : stripStmt (.spaces 0) (.name [(.spaces n, .spaces m)] x) = none := by
  simp [stripStmt, strip, keep, canRemove, isLines, hasComment, empty, startsWord]

/-- **C121, deviation.** So does `not(x)`. -/
theorem not_without_space_fails (x : String) : strip (.un [] "not" (.spaces 0) (.name [(.spaces 0, .spaces 0)] x)) = none := by
  simp [strip, keep, canRemove, isLines, hasComment, build, valid, isWord, empty, startsWord]

/-- **C121, deviation.** A line break before the brackets of a call or a subscript, or after a dot, is left without parentheses: `(f⏎(x))` becomes `f⏎(x)`, which is two
statements or a syntax error. -/
theorem line_break_exposed (f x : String) (c : Bool) :
    Legal false (.call [(.spaces 0, .spaces 0)] (.name [] f) (.lines c) (.name [] x)) ∧
    strip (.call [(.spaces 0, .spaces 0)] (.name [] f) (.lines c) (.name [] x)) = some (.call [] (.name [] f) (.lines c) (.name [] x)) ∧
    ¬ Legal false (.call [] (.name [] f) (.lines c) (.name [] x)) := by
  refine ⟨⟨.inl rfl, trivial, trivial⟩, by simp [strip, keep, canRemove, isLines, hasComment], ?_⟩
  rintro ⟨h | ⟨n, h⟩, _⟩
  · simp at h
  · cases h

/-- **C121, deviation.** A comment in the line break before a dot is dropped. -/
theorem comment_dropped (p : List Pair) (x f : String) (w : Ws) :
    strip (.attr p (.name [] x) (.lines true) w f) = strip (.attr p (.name [] x) (.spaces 0) w f) := rfl

/-! ### Concrete cases -/

/-- `((a) + (b.c)) * (f(x))`. -/
def exSource : Ex :=
  .bin [] (.bin [(.spaces 0, .spaces 0)] (.name [(.spaces 0, .spaces 0)] "a") (.spaces 1) "+" (.spaces 1)
    (.attr [(.spaces 0, .spaces 0)] (.name [] "b") (.spaces 0) (.spaces 0) "c")) (.spaces 1) "*" (.spaces 1)
    (.call [(.spaces 0, .spaces 0)] (.name [] "f") (.spaces 0) (.name [] "x"))

/-- It becomes `(a + b.c) * f(x)`. -/
example : strip exSource = some (.bin [] (.bin [(.spaces 0, .spaces 0)] (.name [] "a") (.spaces 1) "+" (.spaces 1)
    (.attr [] (.name [] "b") (.spaces 0) (.spaces 0) "c")) (.spaces 1) "*" (.spaces 1) (.call [] (.name [] "f") (.spaces 0) (.name [] "x"))) := by decide

example : Spaced exSource ∧ Tidy exSource := by simp [exSource, Spaced, Tidy, isWord]

example : Grouped (fun op => if op = "*" then 2 else 1) 3 0 exSource := by simp [exSource, Grouped]

/-- The parentheses around the sum are needed. -/
example : ¬ Grouped (fun op => if op = "*" then 2 else 1) 3 0 (.bin [] (.bin [] (.name [] "a") (.spaces 1) "+" (.spaces 1) (.name [] "b")) (.spaces 1) "*" (.spaces 1) (.name [] "c")) := by
  simp [Grouped]

example : Legal false exSource := by simp [exSource, Legal, Allowed]

end FF.Parens
