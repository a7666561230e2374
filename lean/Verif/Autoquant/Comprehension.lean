import Mathlib.Data.List.Basic
import Mathlib.Data.Nat.Notation

/-!
# Quantization of the variables of comprehensions

Models `_InlineQuantization` and the visits of comprehensions in `/repo/src/fastforward/_autoquant/cst/quantizer_analysis/transformer.py`, and
`evaluate_CompFor` in `/repo/src/fastforward/_autoquant/cst/quantizer_analysis/annotator.py` with the lookup of names in `scope.py`. Inside a
comprehension no statement `x = quantizer(x)` can be inserted, so its uses are rewritten: a single use to `quantizer(x)`, several to
`(__ff0 := quantizer(x))` for the first and `__ff0` for the others.
-/

namespace FF.Compr

/-! ### Model: the element of a comprehension -/

/-- Expressions with the variable of the comprehension (`use`), over values `D`; `raw f` is an expression with other variables of the comprehension and outside of it. `cond b t e` is `b if t else e`. The last three are results of the rewrite:
`quantizer(x)`, `(tmp := quantizer(x))` and `tmp`. -/
inductive Ex (D : Type) where
  | use
  | raw (f : D → D)
  | un (f : D → D) (a : Ex D)
  | op (f : D → D → D) (a b : Ex D)
  | cond (body test orelse : Ex D)
  | and (a b : Ex D)
  | or (a b : Ex D)
  | quant
  | walrus
  | tmp

variable {D : Type}

/-- The number of uses of the variable. -/
def uses : Ex D → ℕ
  | .use => 1
  | .un _ a => uses a
  | .op _ a b => uses a + uses b
  | .cond b t e => uses b + uses t + uses e
  | .and a b => uses a + uses b
  | .or a b => uses a + uses b
  | _ => 0

/-- `maybe_quantize_expression` (`transformer.py:99-137`) for a variable with several uses, in the order in which the tree is visited: for a conditional expression
body, condition, alternative. `seen` tells that the first use was visited. -/
def rewriteMany : Ex D → Bool → Ex D × Bool
  | .use, seen => (if seen then .tmp else .walrus, true)
  | .un f a, seen => let (a', s) := rewriteMany a seen; (.un f a', s)
  | .op f a b, seen =>
    let (a', s) := rewriteMany a seen
    let (b', s) := rewriteMany b s
    (.op f a' b', s)
  | .cond b t e, seen =>
    let (b', s) := rewriteMany b seen
    let (t', s) := rewriteMany t s
    let (e', s) := rewriteMany e s
    (.cond b' t' e', s)
  | .and a b, seen =>
    let (a', s) := rewriteMany a seen
    let (b', s) := rewriteMany b s
    (.and a' b', s)
  | .or a b, seen =>
    let (a', s) := rewriteMany a seen
    let (b', s) := rewriteMany b s
    (.or a' b', s)
  | e, seen => (e, seen)

/-- The rewrite for a variable with one use. -/
def rewriteOne : Ex D → Ex D
  | .use => .quant
  | .un f a => .un f (rewriteOne a)
  | .op f a b => .op f (rewriteOne a) (rewriteOne b)
  | .cond b t e => .cond (rewriteOne b) (rewriteOne t) (rewriteOne e)
  | .and a b => .and (rewriteOne a) (rewriteOne b)
  | .or a b => .or (rewriteOne a) (rewriteOne b)
  | e => e

/-- `add_annotation` (88-97): one use or several. -/
def rewrite (e : Ex D) : Ex D := if uses e = 1 then rewriteOne e else (rewriteMany e false).1

/-! ### Model: names of the temporary variables -/

/-- `ExprOccurrence`. -/
inductive Occ where
  | unique | primary | secondary
  deriving DecidableEq, Repr

/-- `_InlineQuantization`: its dictionaries have annotations as keys, and annotations are equal if their variable names are
(`annotator.py:68-82`; `uses` does not count). `keys` are those in `_named_expr_tracker`. -/
structure St where
  keys : List String
  idx : String → ℕ
  occ : String → Occ

/-- The rewritten use. `bind i` is `(__ffi := quantizer(x))`, `ref i` is `__ffi`. -/
inductive Code where
  | quant | bind (i : ℕ) | ref (i : ℕ)
  deriving DecidableEq, Repr

/-- What happens in a visit of a function: a comprehension with an annotated variable is entered, or one of its uses is left. -/
inductive Event where
  | enter (x : String) (uses : ℕ)
  | use (x : String)
  deriving DecidableEq, Repr

def upd {α : Type} (f : String → α) (x : String) (v : α) : String → α := fun y => if y = x then v else f y

/-- `add_annotation` (88-97) and `maybe_quantize_expression` (99-137). -/
def step (s : St) : Event → St × Option Code
  | .enter x n =>
    if n = 1 then ({ s with occ := upd s.occ x .unique }, none)
    else ({ keys := if x ∈ s.keys then s.keys else s.keys ++ [x]
            idx := upd s.idx x s.keys.length
            occ := upd s.occ x .primary }, none)
  | .use x => match s.occ x with
    | .unique => (s, some .quant)
    | .primary => ({ s with occ := upd s.occ x .secondary }, some (.bind (s.idx x)))
    | .secondary => (s, some (.ref (s.idx x)))

/-- The state after events, and what each event wrote. -/
def steps (s : St) : List Event → St × List (Event × Option Code)
  | [] => (s, [])
  | e :: es => let (s', c) := step s e; let (s'', cs) := steps s' es; (s'', (e, c) :: cs)

def start : St := { keys := [], idx := fun _ => 0, occ := fun _ => .unique }

/-! ### Model: which variable a name in a comprehension means -/

/-- One `for target in iter if cond`: the target and the names in the other parts. -/
structure Clause where
  target : String
  iter : List String
  ifs : List String

/-- The place where a variable is assigned: the clause of the comprehension (counted from the outside), or outside of it. -/
inductive Binder where
  | outer
  | clause (i : ℕ)
  deriving DecidableEq, Repr

/-- Assignments in the scope of the comprehension: the last one of a name, if any (`record_assignment` replaces those of other nodes). -/
def lookup (env : List (String × ℕ)) (x : String) : List Binder :=
  match env.reverse.find? fun p => p.1 = x with
  | some p => [.clause p.2]
  | none => []

/-- `scope.py:348-359`: the assignments in the scope and also those of the scopes around it. -/
def resolve (env : List (String × ℕ)) (x : String) : List Binder := lookup env x ++ [.outer]

/-- `evaluate_CompFor` (`annotator.py:685-698`) and the element: for each name in the order of the visit, the assignments that are quantized if it has to be. `i` is the number of the
clause. The names are those in the iterator, the conditions, and at the end in the element. -/
def visit (env : List (String × ℕ)) (i : ℕ) (elt : List String) : List Clause → List (String × List Binder)
  | [] => elt.map fun x => (x, resolve env x)
  | c :: cs => (c.iter ++ c.ifs).map (fun x => (x, resolve env x)) ++ visit (env ++ [(c.target, i)]) (i + 1) elt cs

/-! ### Specification -/

/-- Python's evaluation, with the temporary variable (which belongs to the function and keeps its value between elements) and the number of calls of the quantizer. An
unbound temporary is an error. -/
structure Mem (D : Type) where
  tmp : Option D
  calls : ℕ

variable (truth : D → Bool) (q : D → D)

def eval (x : D) : Ex D → Mem D → Option D × Mem D
  | .use, m => (some x, m)
  | .raw f, m => (some (f x), m)
  | .un f a, m => match eval x a m with
    | (some v, m) => (some (f v), m)
    | (none, m) => (none, m)
  | .op f a b, m => match eval x a m with
    | (some v, m) => match eval x b m with
      | (some w, m) => (some (f v w), m)
      | (none, m) => (none, m)
    | (none, m) => (none, m)
  | .cond b t e, m => match eval x t m with
    | (some v, m) => if truth v then eval x b m else eval x e m
    | (none, m) => (none, m)
  | .and a b, m => match eval x a m with
    | (some v, m) => if truth v then eval x b m else (some v, m)
    | (none, m) => (none, m)
  | .or a b, m => match eval x a m with
    | (some v, m) => if truth v then (some v, m) else eval x b m
    | (none, m) => (none, m)
  | .quant, m => (some (q x), { m with calls := m.calls + 1 })
  | .walrus, m => (some (q x), ⟨some (q x), m.calls + 1⟩)
  | .tmp, m => (m.tmp, m)

/-- `[elt for x in xs]`. -/
def comp (elt : Ex D) : List D → Mem D → Option (List D) × Mem D
  | [], m => (some [], m)
  | x :: xs, m => match eval truth q x elt m with
    | (none, m) => (none, m)
    | (some v, m) => match comp elt xs m with
      | (none, m) => (none, m)
      | (some vs, m) => (some (v :: vs), m)

/-- What an expression of the source means for the element `x` if its variable has the value `v`. -/
def meaning (x v : D) : Ex D → D
  | .use => v
  | .raw f => f x
  | .un f a => f (meaning x v a)
  | .op f a b => f (meaning x v a) (meaning x v b)
  | .cond b t e => if truth (meaning x v t) then meaning x v b else meaning x v e
  | .and a b => if truth (meaning x v a) then meaning x v b else meaning x v a
  | .or a b => if truth (meaning x v a) then meaning x v a else meaning x v b
  | _ => v

/-- An expression of the source: nothing rewritten yet. -/
def Source : Ex D → Prop
  | .use => True
  | .raw _ => True
  | .un _ a => Source a
  | .op _ a b => Source a ∧ Source b
  | .cond b t e => Source b ∧ Source t ∧ Source e
  | .and a b => Source a ∧ Source b
  | .or a b => Source a ∧ Source b
  | _ => False

/-- The variable is used only where evaluation always comes: not in the branches of a conditional expression nor on the right of `and` and `or`. -/
def Always : Ex D → Prop
  | .un _ a => Always a
  | .op _ a b => Always a ∧ Always b
  | .cond b t e => uses b = 0 ∧ Always t ∧ uses e = 0
  | .and a b => Always a ∧ uses b = 0
  | .or a b => Always a ∧ uses b = 0
  | _ => True

/-- Python's scoping: a name in the iterator of a clause means the target of the nearest clause before it; in the conditions of a clause, of the nearest up to it; in the element, of
the nearest of all; and the variable around the comprehension if there is none. -/
def means (before : List Clause) (x : String) : Binder :=
  match before.zipIdx.reverse.find? fun p => p.1.target = x with
  | some p => .clause p.2
  | none => .outer

/-! ### Lemmas -/

omit truth q in
theorem rewriteMany_none : ∀ (e : Ex D) (b : Bool), Source e → uses e = 0 → rewriteMany e b = (e, b)
  | .use, b, _, h => by simp [uses] at h
  | .raw f, b, _, _ => rfl
  | .un f a, b, hs, h => by simp only [rewriteMany, rewriteMany_none a b hs h]
  | .op f a c, b, hs, h => by
    simp only [uses] at h
    simp only [rewriteMany, rewriteMany_none a b hs.1 (by omega), rewriteMany_none c b hs.2 (by omega)]
  | .cond a c d, b, hs, h => by
    simp only [uses] at h
    simp only [rewriteMany, rewriteMany_none a b hs.1 (by omega), rewriteMany_none c b hs.2.1 (by omega), rewriteMany_none d b hs.2.2 (by omega)]
  | .and a c, b, hs, h => by
    simp only [uses] at h
    simp only [rewriteMany, rewriteMany_none a b hs.1 (by omega), rewriteMany_none c b hs.2 (by omega)]
  | .or a c, b, hs, h => by
    simp only [uses] at h
    simp only [rewriteMany, rewriteMany_none a b hs.1 (by omega), rewriteMany_none c b hs.2 (by omega)]
  | .quant, _, h, _ => by cases h
  | .walrus, _, h, _ => by cases h
  | .tmp, _, h, _ => by cases h

theorem eval_noUse : ∀ (e : Ex D) (x v : D) (m : Mem D), Source e → uses e = 0 → eval truth q x e m = (some (meaning truth x v e), m)
  | .use, x, v, m, _, h => by simp [uses] at h
  | .raw f, x, v, m, _, _ => rfl
  | .un f a, x, v, m, hs, h => by simp only [eval, eval_noUse a x v m hs h, meaning]
  | .op f a c, x, v, m, hs, h => by
    simp only [uses] at h
    simp only [eval, eval_noUse a x v m hs.1 (by omega), eval_noUse c x v m hs.2 (by omega), meaning]
  | .cond a c d, x, v, m, hs, h => by
    simp only [uses] at h
    simp only [eval, eval_noUse a x v m hs.1 (by omega), eval_noUse c x v m hs.2.1 (by omega), eval_noUse d x v m hs.2.2 (by omega), meaning]
    split <;> rfl
  | .and a c, x, v, m, hs, h => by
    simp only [uses] at h
    simp only [eval, eval_noUse a x v m hs.1 (by omega), eval_noUse c x v m hs.2 (by omega), meaning]
    split <;> rfl
  | .or a c, x, v, m, hs, h => by
    simp only [uses] at h
    simp only [eval, eval_noUse a x v m hs.1 (by omega), eval_noUse c x v m hs.2 (by omega), meaning]
    split <;> rfl
  | .quant, _, _, _, h, _ => by cases h
  | .walrus, _, _, _, h, _ => by cases h
  | .tmp, _, _, _, h, _ => by cases h

/-- The memory after the rewritten expression: if it has the first use, the temporary is set and the quantizer was called. -/
def after (x : D) (seen : Bool) (n : ℕ) (m : Mem D) : Mem D := if seen = true ∨ n = 0 then m else ⟨some (q x), m.calls + 1⟩

theorem eval_many (x : D) : ∀ (e : Ex D) (seen : Bool) (m : Mem D), Source e → Always e → (seen = true → m.tmp = some (q x)) →
    eval truth q x (rewriteMany e seen).1 m = (some (meaning truth x (q x) e), after q x seen (uses e) m) ∧ (rewriteMany e seen).2 = (seen || uses e != 0)
  | .use, true, m, _, _, h => by
    refine ⟨?_, by simp [rewriteMany]⟩
    simp [rewriteMany, eval, h rfl, meaning, after]
  | .use, false, m, _, _, h => by
    refine ⟨?_, by simp [rewriteMany, uses]⟩
    simp [rewriteMany, eval, meaning, after, uses]
  | .raw f, seen, m, _, _, _ => by
    refine ⟨?_, by simp [rewriteMany, uses]⟩
    simp [rewriteMany, eval, meaning, after, uses]
  | .un f a, seen, m, hs, ha, h => by
    obtain ⟨h1, h2⟩ := eval_many x a seen m hs ha h
    exact ⟨by simp only [rewriteMany, eval, h1, meaning, uses], by simp only [rewriteMany, h2, uses]⟩
  | .op f a c, seen, m, hs, ha, h => by
    obtain ⟨h1, h2⟩ := eval_many x a seen m hs.1 ha.1 h
    obtain ⟨h3, h4⟩ := eval_many x c (seen || uses a != 0) (after q x seen (uses a) m) hs.2 ha.2 (by
      intro hh
      unfold after
      cases seen with
      | true => simp [h rfl]
      | false =>
        simp only [Bool.false_or, bne_iff_ne, ne_eq] at hh
        simp [hh])
    refine ⟨?_, ?_⟩
    · simp only [rewriteMany, eval, h1, h2, h3, meaning]
      congr 1
      unfold after
      cases seen with
      | true => simp
      | false => by_cases hu : uses a = 0 <;> simp [hu, uses]
    · simp only [rewriteMany, h2, h4, uses]
      cases seen
      · by_cases hu : uses a = 0
        · simp [hu]
        · have : uses a + uses c ≠ 0 := by omega
          rw [Bool.false_or, bne_iff_ne.2 hu, bne_iff_ne.2 this]; rfl
      · simp
  | .cond b t e, seen, m, hs, ha, h => by
    obtain ⟨hb, hs, he⟩ := hs
    obtain ⟨ub, ha, ue⟩ := ha
    obtain ⟨h1, h2⟩ := eval_many x t seen m hs ha h
    refine ⟨?_, ?_⟩
    · simp only [rewriteMany, rewriteMany_none b seen hb ub, rewriteMany_none e _ he ue, eval, h1, meaning, uses, ub, ue, Nat.zero_add, Nat.add_zero]
      rw [eval_noUse truth q b x (q x) _ hb ub, eval_noUse truth q e x (q x) _ he ue]
      split <;> rfl
    · simp only [rewriteMany, rewriteMany_none b seen hb ub, rewriteMany_none e _ he ue, h2, uses, ub, ue, Nat.zero_add, Nat.add_zero]
  | .and a c, seen, m, hs, ha, h => by
    obtain ⟨h1, h2⟩ := eval_many x a seen m hs.1 ha.1 h
    refine ⟨?_, ?_⟩
    · simp only [rewriteMany, rewriteMany_none c _ hs.2 ha.2, eval, h1, meaning, uses, ha.2, Nat.add_zero]
      rw [eval_noUse truth q c x (q x) _ hs.2 ha.2]
      split <;> rfl
    · simp only [rewriteMany, rewriteMany_none c _ hs.2 ha.2, h2, uses, ha.2, Nat.add_zero]
  | .or a c, seen, m, hs, ha, h => by
    obtain ⟨h1, h2⟩ := eval_many x a seen m hs.1 ha.1 h
    refine ⟨?_, ?_⟩
    · simp only [rewriteMany, rewriteMany_none c _ hs.2 ha.2, eval, h1, meaning, uses, ha.2, Nat.add_zero]
      rw [eval_noUse truth q c x (q x) _ hs.2 ha.2]
      split <;> rfl
    · simp only [rewriteMany, rewriteMany_none c _ hs.2 ha.2, h2, uses, ha.2, Nat.add_zero]
  | .quant, _, _, h, _, _ => by cases h
  | .walrus, _, _, h, _, _ => by cases h
  | .tmp, _, _, h, _, _ => by cases h

theorem eval_one (x : D) : ∀ (e : Ex D) (m : Mem D), Source e → ∃ k, k ≤ uses e ∧
    eval truth q x (rewriteOne e) m = (some (meaning truth x (q x) e), { m with calls := m.calls + k })
  | .use, m, _ => ⟨1, Nat.le_refl _, rfl⟩
  | .raw f, m, _ => ⟨0, Nat.le_refl _, rfl⟩
  | .un f a, m, hs => by
    obtain ⟨k, hk, h⟩ := eval_one x a m hs
    exact ⟨k, hk, by simp only [rewriteOne, eval, h, meaning]⟩
  | .op f a c, m, hs => by
    obtain ⟨k, hk, h⟩ := eval_one x a m hs.1
    obtain ⟨k', hk', h'⟩ := eval_one x c { m with calls := m.calls + k } hs.2
    exact ⟨k + k', by simp only [uses]; omega, by simp only [rewriteOne, eval, h, h', meaning, Nat.add_assoc]⟩
  | .cond b t e, m, hs => by
    obtain ⟨k, hk, h⟩ := eval_one x t m hs.2.1
    by_cases ht : truth (meaning truth x (q x) t) = true
    · obtain ⟨k', hk', h'⟩ := eval_one x b { m with calls := m.calls + k } hs.1
      exact ⟨k + k', by simp only [uses]; omega, by simp only [rewriteOne, eval, h, meaning, ht, if_true, h', Nat.add_assoc]⟩
    · obtain ⟨k', hk', h'⟩ := eval_one x e { m with calls := m.calls + k } hs.2.2
      refine ⟨k + k', by simp only [uses]; omega, ?_⟩
      simp only [rewriteOne, eval, h, meaning, if_neg ht, h', Nat.add_assoc]
  | .and a c, m, hs => by
    obtain ⟨k, hk, h⟩ := eval_one x a m hs.1
    by_cases ht : truth (meaning truth x (q x) a) = true
    · obtain ⟨k', hk', h'⟩ := eval_one x c { m with calls := m.calls + k } hs.2
      exact ⟨k + k', by simp only [uses]; omega, by simp only [rewriteOne, eval, h, meaning, ht, if_true, h', Nat.add_assoc]⟩
    · exact ⟨k, by simp only [uses]; omega, by simp only [rewriteOne, eval, h, meaning, if_neg ht]⟩
  | .or a c, m, hs => by
    obtain ⟨k, hk, h⟩ := eval_one x a m hs.1
    by_cases ht : truth (meaning truth x (q x) a) = true
    · exact ⟨k, by simp only [uses]; omega, by simp only [rewriteOne, eval, h, meaning, ht, if_true]⟩
    · obtain ⟨k', hk', h'⟩ := eval_one x c { m with calls := m.calls + k } hs.2
      exact ⟨k + k', by simp only [uses]; omega, by simp only [rewriteOne, eval, h, meaning, if_neg ht, h', Nat.add_assoc]⟩
  | .quant, _, h => by cases h
  | .walrus, _, h => by cases h
  | .tmp, _, h => by cases h

/-! ### Properties -/

/-- **C120 (partial).** A comprehension whose variable is quantized computes, for each element, the element expression with the quantized element, and calls the quantizer once for each element (not at
all if the variable is not used), if the variable is used only where evaluation always comes. Missing: several uses of which some are in branches, see `value_of_previous_element`. -/
theorem element_quantized_once_partial (e : Ex D) (hs : Source e) (ha : Always e) (h1 : uses e ≠ 1) : ∀ (xs : List D) (m : Mem D),
    ∃ m', comp truth q (rewrite e) xs m = (some (xs.map fun x => meaning truth x (q x) e), m') ∧ m'.calls = m.calls + (if uses e = 0 then 0 else xs.length)
  | [], m => ⟨m, rfl, by simp⟩
  | x :: xs, m => by
    have hr : rewrite e = (rewriteMany e false).1 := if_neg h1
    obtain ⟨h2, _⟩ := eval_many truth q x e false m hs ha (by simp)
    obtain ⟨m', h3, h4⟩ := element_quantized_once_partial e hs ha h1 xs (after q x false (uses e) m)
    refine ⟨m', ?_, ?_⟩
    · rw [comp, hr, h2]
      simp only
      rw [← hr, h3]
      rfl
    · rw [h4]
      by_cases hu : uses e = 0
      · simp [after, hu]
      · simp [after, hu]; omega

/-- **C120.** If the variable is used once, wherever that is, each element gives the value of the element expression with the quantized element, and the quantizer is called at most
once for each element. -/
theorem single_use_quantized (e : Ex D) (hs : Source e) (h1 : uses e = 1) : ∀ (xs : List D) (m : Mem D),
    ∃ m', comp truth q (rewrite e) xs m = (some (xs.map fun x => meaning truth x (q x) e), m') ∧ m'.calls ≤ m.calls + xs.length
  | [], m => ⟨m, rfl, by simp⟩
  | x :: xs, m => by
    have hr : rewrite e = rewriteOne e := if_pos h1
    obtain ⟨k, hk, h2⟩ := eval_one truth q x e m hs
    obtain ⟨m', h3, h4⟩ := single_use_quantized e hs h1 xs { m with calls := m.calls + k }
    refine ⟨m', ?_, ?_⟩
    · rw [comp, hr, h2]
      simp only
      rw [← hr, h3]
      rfl
    · simp only at h4
      rw [List.length_cons]
      omega

/-- What is written for the uses of `x`. -/
def codesOf (x : String) (l : List (Event × Option Code)) : List (Option Code) := (l.filter fun p => p.1 = .use x).map (·.2)

theorem codes_secondary (x : String) : ∀ (es : List Event) (s : St), s.occ x = .secondary → (∀ n, Event.enter x n ∉ es) →
    ∀ c ∈ codesOf x (steps s es).2, c = some (.ref (s.idx x))
  | [], s, _, _, c, hc => by simp [steps, codesOf] at hc
  | .enter y n :: es, s, hs, hn, c, hc => by
    have hy : x ≠ y := fun h => hn n (by simp [h])
    have hn' : ∀ n, Event.enter x n ∉ es := fun n h => hn n (by simp [h])
    have hc' : c ∈ codesOf x (steps (step s (.enter y n)).1 es).2 := by simpa [steps, codesOf] using hc
    have hocc : (step s (.enter y n)).1.occ x = .secondary := by
      unfold step
      by_cases h1 : n = 1 <;> simp [h1, upd, hy, hs]
    have hidx : (step s (.enter y n)).1.idx x = s.idx x := by
      unfold step
      by_cases h1 : n = 1 <;> simp [h1, upd, hy]
    rw [← hidx]
    exact codes_secondary x es _ hocc hn' c hc'
  | .use y :: es, s, hs, hn, c, hc => by
    have hn' : ∀ n, Event.enter x n ∉ es := fun n h => hn n (by simp [h])
    by_cases hy : y = x
    · subst hy
      have h1 : step s (.use y) = (s, some (.ref (s.idx y))) := by simp [step, hs]
      have : c = some (.ref (s.idx y)) ∨ c ∈ codesOf y (steps s es).2 := by simpa [steps, codesOf, h1] using hc
      rcases this with h | h
      · exact h
      · exact codes_secondary y es s hs hn' c h
    · have hc' : c ∈ codesOf x (steps (step s (.use y)).1 es).2 := by simpa [steps, codesOf, hy] using hc
      have hocc : (step s (.use y)).1.occ x = .secondary := by
        unfold step
        cases h : s.occ y <;> simp [upd, hs, Ne.symm hy, h]
      have hidx : (step s (.use y)).1.idx x = s.idx x := by
        unfold step
        cases h : s.occ y <;> simp [h]
      rw [← hidx]
      exact codes_secondary x es _ hocc hn' c hc'

theorem codes_primary (x : String) : ∀ (es : List Event) (s : St), s.occ x = .primary → (∀ n, Event.enter x n ∉ es) →
    codesOf x (steps s es).2 = [] ∨ ∃ l, codesOf x (steps s es).2 = some (.bind (s.idx x)) :: l ∧ ∀ c ∈ l, c = some (.ref (s.idx x))
  | [], s, _, _ => .inl rfl
  | .enter y n :: es, s, hs, hn => by
    have hy : x ≠ y := fun h => hn n (by simp [h])
    have hn' : ∀ n, Event.enter x n ∉ es := fun n h => hn n (by simp [h])
    have hc' : codesOf x (steps s (.enter y n :: es)).2 = codesOf x (steps (step s (.enter y n)).1 es).2 := by simp [steps, codesOf]
    have hocc : (step s (.enter y n)).1.occ x = .primary := by
      unfold step
      by_cases h1 : n = 1 <;> simp [h1, upd, hy, hs]
    have hidx : (step s (.enter y n)).1.idx x = s.idx x := by
      unfold step
      by_cases h1 : n = 1 <;> simp [h1, upd, hy]
    rw [hc', ← hidx]
    exact codes_primary x es _ hocc hn'
  | .use y :: es, s, hs, hn => by
    have hn' : ∀ n, Event.enter x n ∉ es := fun n h => hn n (by simp [h])
    by_cases hy : y = x
    · subst hy
      right
      have h1 : step s (.use y) = ({ s with occ := upd s.occ y .secondary }, some (.bind (s.idx y))) := by simp [step, hs]
      refine ⟨codesOf y (steps { s with occ := upd s.occ y .secondary } es).2, by simp [steps, codesOf, h1], ?_⟩
      intro c hc
      have := codes_secondary y es { s with occ := upd s.occ y .secondary } (by simp [upd]) hn' c hc
      simpa using this
    · have hc' : codesOf x (steps s (.use y :: es)).2 = codesOf x (steps (step s (.use y)).1 es).2 := by simp [steps, codesOf, hy]
      have hocc : (step s (.use y)).1.occ x = .primary := by
        unfold step
        cases h : s.occ y <;> simp [upd, hs, Ne.symm hy, h]
      have hidx : (step s (.use y)).1.idx x = s.idx x := by
        unfold step
        cases h : s.occ y <;> simp [h]
      rw [hc', ← hidx]
      exact codes_primary x es _ hocc hn'

/-- **C120 (partial).** In a comprehension whose variable has several uses, the first use that is visited binds a temporary variable and the others read the same one, as long as no
comprehension with a variable of the same name is inside. Missing: those, see `inner_namesake_read`. -/
theorem one_temporary_partial (s : St) (x : String) (n : ℕ) (hn : n ≠ 1) (es : List Event) (he : ∀ n, Event.enter x n ∉ es) :
    ∃ i, codesOf x (steps s (.enter x n :: es)).2 = [] ∨
      ∃ l, codesOf x (steps s (.enter x n :: es)).2 = some (.bind i) :: l ∧ ∀ c ∈ l, c = some (.ref i) := by
  refine ⟨s.keys.length, ?_⟩
  have h1 : codesOf x (steps s (.enter x n :: es)).2 = codesOf x (steps (step s (.enter x n)).1 es).2 := by simp [steps, codesOf]
  have h2 : (step s (.enter x n)).1.occ x = .primary := by simp [step, hn, upd]
  have h3 : (step s (.enter x n)).1.idx x = s.keys.length := by simp [step, hn, upd]
  rw [h1, ← h3]
  exact codes_primary x es _ h2 he

/-- The variables of comprehensions with several uses. -/
def entered (es : List Event) : List String := es.filterMap fun
  | .enter x n => if n = 1 then none else some x
  | .use _ => none

/-- Distinct names have distinct temporaries, below the number of names. -/
def Distinct (s : St) : Prop := (∀ x ∈ s.keys, s.idx x < s.keys.length) ∧ ∀ x ∈ s.keys, ∀ y ∈ s.keys, s.idx x = s.idx y → x = y

theorem steps_distinct : ∀ (es : List Event) (s : St), Distinct s → (entered es).Nodup → (∀ x ∈ entered es, x ∉ s.keys) →
    Distinct (steps s es).1 ∧ ∀ x ∈ entered es, x ∈ (steps s es).1.keys
  | [], s, hd, _, _ => ⟨hd, by simp [entered]⟩
  | .use y :: es, s, hd, hn, hf => by
    have he : entered (.use y :: es) = entered es := by simp [entered]
    rw [he] at hn hf ⊢
    have hk : (step s (.use y)).1.keys = s.keys ∧ (step s (.use y)).1.idx = s.idx := by
      unfold step
      cases h : s.occ y <;> simp [h]
    have hs : (steps s (.use y :: es)).1 = (steps (step s (.use y)).1 es).1 := rfl
    rw [hs]
    refine steps_distinct es _ ?_ hn (by rw [hk.1]; exact hf)
    unfold Distinct
    rw [hk.1, hk.2]
    exact hd
  | .enter y n :: es, s, hd, hn, hf => by
    have hs : (steps s (.enter y n :: es)).1 = (steps (step s (.enter y n)).1 es).1 := rfl
    rw [hs]
    by_cases h1 : n = 1
    · have he : entered (.enter y n :: es) = entered es := by simp [entered, h1]
      rw [he] at hn hf ⊢
      refine steps_distinct es _ ?_ hn ?_
      · rw [step, if_pos h1]; exact hd
      · rw [step, if_pos h1]; exact hf
    · have he : entered (.enter y n :: es) = y :: entered es := by simp [entered, h1]
      rw [he] at hn hf ⊢
      rw [List.nodup_cons] at hn
      have hy : y ∉ s.keys := hf y (by simp)
      have hst : (step s (.enter y n)).1 = { keys := s.keys ++ [y], idx := upd s.idx y s.keys.length, occ := upd s.occ y .primary } := by
        simp [step, h1, hy]
      have hne : ∀ x ∈ s.keys, x ≠ y := fun x hx h => hy (h ▸ hx)
      have hd' : Distinct (step s (.enter y n)).1 := by
        rw [hst]
        refine ⟨?_, ?_⟩
        · intro x hx
          simp only [List.mem_append, List.mem_singleton] at hx
          simp only [List.length_append, List.length_singleton, upd]
          rcases hx with hx | rfl
          · rw [if_neg (hne x hx)]; have := hd.1 x hx; omega
          · rw [if_pos rfl]; omega
        · intro a ha b hb h
          simp only [List.mem_append, List.mem_singleton] at ha hb
          simp only [upd] at h
          rcases ha with ha | rfl <;> rcases hb with hb | rfl
          · rw [if_neg (hne a ha), if_neg (hne b hb)] at h
            exact hd.2 a ha b hb h
          · rw [if_neg (hne a ha), if_pos rfl] at h
            have := hd.1 a ha; omega
          · rw [if_pos rfl, if_neg (hne b hb)] at h
            have := hd.1 b hb; omega
          · rfl
      obtain ⟨r1, r2⟩ := steps_distinct es _ hd' hn.2 (by
        intro x hx
        rw [hst]
        simp only [List.mem_append, List.mem_singleton, not_or]
        exact ⟨hf x (by simp [hx]), fun h => hn.1 (h ▸ hx)⟩)
      refine ⟨r1, ?_⟩
      intro x hx
      rcases List.mem_cons.1 hx with rfl | hx
      · have : ∀ (es : List Event) (s : St), x ∈ s.keys → x ∈ (steps s es).1.keys := by
          intro es
          induction es with
          | nil => intro s h; exact h
          | cons e es ih =>
            intro s h
            show x ∈ (steps (step s e).1 es).1.keys
            apply ih
            cases e with
            | use z => unfold step; cases hz : s.occ z <;> simpa [hz] using h
            | enter z k =>
              unfold step
              by_cases hk : k = 1
              · simp [hk, h]
              · by_cases hz : z ∈ s.keys <;> simp [hk, hz, h]
        exact this es _ (by rw [hst]; simp)
      · exact r2 x hx

/-- **C120 (partial).** Comprehensions of one function use different temporary variables, if their variables have different names. Missing: comprehensions with variables of the same name, after which
names are given out twice, see `temporary_of_inner_read`. -/
theorem temporaries_differ_partial (es : List Event) (hn : (entered es).Nodup) (x y : String) (hx : x ∈ entered es) (hy : y ∈ entered es) (hxy : x ≠ y) :
    (steps start es).1.idx x ≠ (steps start es).1.idx y := by
  obtain ⟨h1, h2⟩ := steps_distinct es start ⟨by simp [start], by simp [start]⟩ hn (by simp [start])
  exact fun h => hxy (h1.2 x (h2 x hx) y (h2 y hy) h)

/-- The clauses so far and what the annotator knows of them. -/
theorem lookup_means (before : List Clause) (x : String) :
    lookup (before.zipIdx.map fun p => (p.1.target, p.2)) x = match means before x with
      | .clause i => [.clause i]
      | .outer => [] := by
  unfold lookup means
  rw [← List.map_reverse, List.find?_map]
  have : ((fun p : String × ℕ => decide (p.1 = x)) ∘ fun p : Clause × ℕ => (p.1.target, p.2)) = fun p => decide (p.1.target = x) := rfl
  rw [this]
  cases before.zipIdx.reverse.find? (fun p => decide (p.1.target = x)) <;> rfl

/-- **C120.** For a name in the element of a comprehension, the assignment that Python's scoping means is among those that are quantized. -/
theorem element_name_found (before cs : List Clause) (elt : List String) (x : String) (hx : x ∈ elt) :
    ∃ bs, (x, bs) ∈ visit (before.zipIdx.map fun p => (p.1.target, p.2)) before.length elt cs ∧ means (before ++ cs) x ∈ bs := by
  induction cs generalizing before with
  | nil =>
    refine ⟨resolve (before.zipIdx.map fun p => (p.1.target, p.2)) x, ?_, ?_⟩
    · rw [visit]
      exact List.mem_map.2 ⟨x, hx, rfl⟩
    · rw [List.append_nil]
      unfold resolve
      rw [lookup_means]
      cases means before x <;> simp
  | cons c cs ih =>
    obtain ⟨bs, h1, h2⟩ := ih (before ++ [c])
    refine ⟨bs, ?_, ?_⟩
    · rw [visit]
      apply List.mem_append_right
      have : (before ++ [c]).zipIdx.map (fun p => (p.1.target, p.2)) = before.zipIdx.map (fun p => (p.1.target, p.2)) ++ [(c.target, before.length)] := by
        rw [List.zipIdx_append, List.map_append]
        simp
      rw [this, List.length_append] at h1
      exact h1
    · rw [List.append_assoc] at h2
      exact h2

/-- **C120.** For a name in the iterator of a clause, the assignment that Python's scoping means is among those that are quantized. -/
theorem iterator_name_found (before cs : List Clause) (c : Clause) (elt : List String) (x : String) (hx : x ∈ c.iter) :
    ∃ bs, (x, bs) ∈ visit (before.zipIdx.map fun p => (p.1.target, p.2)) before.length elt (c :: cs) ∧ means before x ∈ bs := by
  refine ⟨resolve (before.zipIdx.map fun p => (p.1.target, p.2)) x, ?_, ?_⟩
  · rw [visit]
    apply List.mem_append_left
    exact List.mem_map.2 ⟨x, List.mem_append_left _ hx, rfl⟩
  · unfold resolve
    rw [lookup_means]
    cases means before x <;> simp

/-! ### Deviations -/

/-- **C120, deviation.** In `[f(x) if t else g(x) for x, t in xs]` the use in the first branch binds the temporary and the other branch reads it. For an element that takes the
second branch this is the quantized value of the element before it. -/
theorem value_of_previous_element (t f g : D → D) (x y : D) (m : Mem D) (h1 : truth (t x) = true) (h2 : truth (t y) = false) :
    (comp truth q (rewrite (.cond (.un f .use) (.raw t) (.un g .use))) [x, y] m).1 = some [f (q x), g (q x)]
      ∧ [x, y].map (fun z => meaning truth z (q z) (.cond (.un f .use) (.raw t) (.un g .use))) = [f (q x), g (q y)] := by
  constructor
  · simp [rewrite, uses, rewriteMany, comp, eval, h1, h2]
  · simp [meaning, h1, h2]

/-- **C120, deviation.** `[f(x) if x else c for x in xs]` fails at the first element: the condition, which is evaluated first, reads the temporary that the branch binds. -/
theorem condition_read_before_bound (f c : D → D) (x : D) (xs : List D) (k : ℕ) :
    (comp truth q (rewrite (.cond (.un f .use) .use (.raw c))) (x :: xs) ⟨none, k⟩).1 = none := by
  simp [rewrite, uses, rewriteMany, comp, eval]

/-- **C120, deviation.** Inside a comprehension over `x`, another one over a variable of the same name changes what the outer one reads: `f(x, [g(x, x) for x in x], x)` reads the temporary of the inner
one at the end. -/
theorem inner_namesake_read (n k : ℕ) (hn : n ≠ 1) (hk : k ≠ 1) :
    (steps start [.enter "x" n, .use "x", .enter "x" k, .use "x", .use "x", .use "x"]).2.map (·.2)
      = [none, some (.bind 0), none, some (.bind 1), some (.ref 1), some (.ref 1)] := by
  simp [steps, step, start, hn, hk, upd]

/-- **C120, deviation.** After two comprehensions over `x`, one over `y` inside the second has its temporary: `[g(x, x) for x in a]` and then
`[f(x, [g(y, y) for y in b], x) for x in a]`: the last `x` reads what the inner comprehension bound to the temporary for `y`. -/
theorem temporary_of_inner_read (n m k : ℕ) (hn : n ≠ 1) (hm : m ≠ 1) (hk : k ≠ 1) :
    (steps start [.enter "x" n, .use "x", .use "x", .enter "x" m, .use "x", .enter "y" k, .use "y", .use "y", .use "x"]).2.map (·.2)
      = [none, some (.bind 0), some (.ref 0), none, some (.bind 1), none, some (.bind 1), some (.ref 1), some (.ref 1)] := by
  simp [steps, step, start, hn, hm, hk, upd]

/-- **C120, deviation.** A name in the condition of a clause that means the target of this clause is not found: the assignments that are quantized for it are those around the
comprehension. -/
theorem condition_name_not_found (x : String) (elt : List String) :
    visit [] 0 elt [⟨x, [], [x]⟩] = (x, [.outer]) :: elt.map (fun y => (y, resolve [(x, 0)] y)) ∧ means [⟨x, [], [x]⟩] x = .clause 0 := by
  constructor
  · simp [visit, resolve, lookup]
  · simp [means]

/-- **C120, deviation.** A variable around the comprehension that has the name of its target is quantized too, although its value does not come to the use. -/
theorem outer_namesake_quantized (x : String) : resolve [(x, 0)] x = [.clause 0, .outer] := by simp [resolve, lookup]

/-! ### Concrete cases -/

/-- `[x + x * 2 for x in [1, 2, 3]]` with `q x = 10 * x`. -/
example : (comp (fun n => n != 0) (10 * ·) (rewrite (.op (· + ·) .use (.un (· * 2) .use))) [1, 2, 3] ⟨none, 0⟩).1 = some [30, 60, 90] := by decide

example : (comp (fun n => n != 0) (10 * ·) (rewrite (.op (· + ·) .use (.un (· * 2) .use))) [1, 2, 3] ⟨none, 0⟩).2.calls = 3 := by decide

example : Always (.cond (.raw id) (.op (· + ·) .use .use) (.raw id) : Ex ℕ) := by simp [Always, uses]

/-- A stale value: `[x if x > 5 else x + 1 for x in [7, 3]]` with the comparison on the element that is not quantized. -/
example : (comp (fun n => n != 0) (10 * ·) (rewrite (.cond .use (.raw (· - 5)) (.un (· + 1) .use))) [7, 3] ⟨none, 0⟩).1 = some [70, 71] := by decide

example : (entered [.enter "x" 2, .use "x", .enter "y" 3, .use "y"]).Nodup := by decide

end FF.Compr
