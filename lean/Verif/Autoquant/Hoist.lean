/-!
# Quantization of expressions that are not variables

Models what autoquant does with operands of quantized operators that are neither variables nor calls, such as `self.weight` or `x.T`: `_NonLocalBranchScope` in
`src/fastforward/_autoquant/cst/quantizer_analysis/annotator.py` decides in which blocks they are quantized, and `QuantizerFunctionTransformer` in
`transformer.py` replaces them by variables and inserts the statements `variable = quantizer(expression)`.

Such an expression is identified by its code, as there. Everything else that a function does is a parameter of the model: what a statement does with the
values of its operands, which branch is taken, what is iterated over.

Simplifications: operands are evaluated before anything else in their statement and do not contain others; statements are simple ones, `if` and `for`; no
statement follows `return`, `raise`, `break` or `continue` in a block; blocks are indented and have no docstring; no lambdas, comprehensions or inner functions;
quantizers are functions.
-/

namespace FF.Hoist

/-! ## Model -/

/-- node_processing.py:232-241: the replacement of symbols, `//` before `/`. -/
def symbols : List Char → List Char
  | '/' :: '/' :: cs => "_div_".toList ++ symbols cs
  | c :: cs =>
    (if c = '+' then "_plus_".toList else if c = '-' then "_minus_".toList else if c = '*' then "_mul_".toList else if c = '/' then "_div_".toList else [c]) ++
      symbols cs
  | [] => []

/-- node_processing.py:242: other characters become underscores. -/
def plain (c : Char) : Char := if c.isAlphanum then c else '_'

/-- node_processing.py:243: repeated underscores become one. -/
def collapse : List Char → List Char
  | '_' :: '_' :: cs => collapse ('_' :: cs)
  | c :: cs => c :: collapse cs
  | [] => []

/-- Python's keywords. -/
def keywords : List String :=
  ["False", "None", "True", "and", "as", "assert", "async", "await", "break", "class", "continue", "def", "del", "elif", "else", "except", "finally", "for",
   "from", "global", "if", "import", "in", "is", "lambda", "nonlocal", "not", "or", "pass", "raise", "return", "try", "while", "with", "yield"]

/-- node_processing.py:221-251 `expr_to_ident`: the variable for an expression, from its code. -/
def exprToIdent (code : String) : String :=
  let cs := ((collapse ((symbols code.toList).map plain)).reverse.dropWhile (· = '_')).reverse
  if (cs.head?.map Char.isDigit).getD false ∨ String.ofList cs ∈ keywords then String.ofList ('_' :: cs) else String.ofList cs

/-- An operand: an expression that is to be quantized, by its code (`raw`; in the result: left as it is), `quantizer(expression)` in place (`inl`) or a
variable (`var`). -/
inductive Arg
  | raw (k : String)
  | inl (k : String)
  | var (n : String)
  deriving DecidableEq

variable {A : Type}

mutual

/-- Blocks of statements. -/
inductive Block (A : Type)
  | nil
  | cons (s : Stmt A) (b : Block A)

/-- Statements: a simple statement with operands, `if` with operands in the test, `for` with operands in the iterable, and `variable = quantizer(k)`, with the
variable `exprToIdent k`. -/
inductive Stmt (A : Type)
  | work (a : A) (args : List Arg)
  | ite (a : A) (args : List Arg) (thn : Block A) (els : Els A)
  | loop (a : A) (args : List Arg) (body : Block A)
  | quant (k : String)

/-- What follows the body of an `if`: nothing, `else` or `elif`. -/
inductive Els (A : Type)
  | none
  | els (b : Block A)
  | elif (a : A) (args : List Arg) (thn : Block A) (els : Els A)

end

/-- The expressions among operands. -/
def keysA (args : List Arg) : List String := args.filterMap fun | .raw k => some k | _ => Option.none

mutual

/-- annotator.py:262-271 `record`, 419-446 `evaluate_If`, 560-592 `evaluate_For`: the expressions recorded in the scope of a block itself, that is not in the
branches of an `if`. -/
def ownB : Block A → List String
  | .nil => []
  | .cons s b => ownS s ++ ownB b

/-- The same for statements. -/
def ownS : Stmt A → List String
  | .work _ args => keysA args
  | .ite _ args _ _ => keysA args
  | .loop _ args body => keysA args ++ ownB body
  | .quant _ => []

end

/-- annotator.py:248-249: what is recorded in all child scopes. -/
def common : List (List String) → List String
  | [] => []
  | l :: ls => l.filter fun k => ls.all (·.contains k)

mutual

/-- annotator.py:220-262 `_resolve`: for each child scope the expressions that it hands to its parent, that is its own ones and those in all of its children.
A child scope is the body of an `if` or what follows it. -/
def childB : Block A → List (List String)
  | .nil => []
  | .cons s b => childS s ++ childB b

/-- The same for statements. -/
def childS : Stmt A → List (List String)
  | .work _ _ => []
  | .ite _ _ thn els => (ownB thn ++ common (childB thn)) :: childE els
  | .loop _ _ body => childB body
  | .quant _ => []

/-- The same for what follows the body of an `if`. `elif` is one scope, with the test in it, and its body and what follows as children. -/
def childE : Els A → List (List String)
  | .none => []
  | .els b => [ownB b ++ common (childB b)]
  | .elif _ args thn els => [keysA args ++ common ((ownB thn ++ common (childB thn)) :: childE els)]

end

/-- What the scope of a block hands to its parent. -/
def up (b : Block A) : List String := ownB b ++ common (childB b)

/-- What the transformation is given: the names that occur in a statement, and in the code of an expression; and which expressions are quantized in
place. -/
structure Syn (A : Type) where
  names : A → List String
  srcNames : String → List String
  inlined : String → Bool

/-- transformer.py:586-655 `_BlockScopeNameLoadFinder`: names in an operand. -/
def Syn.argNames (syn : Syn A) : Arg → List String
  | .raw k => syn.srcNames k
  | .inl k => syn.srcNames k
  | .var n => [n]

mutual

/-- transformer.py:586-655 `_BlockScopeNameLoadFinder`: whether a name is loaded, here in a block. -/
def loadsB (syn : Syn A) (n : String) : Block A → Bool
  | .nil => false
  | .cons s b => loadsS syn n s || loadsB syn n b

/-- The same for statements; targets of assignments do not count. -/
def loadsS (syn : Syn A) (n : String) : Stmt A → Bool
  | .work a args => (syn.names a).contains n || args.any fun x => (syn.argNames x).contains n
  | .ite a args thn els => (syn.names a).contains n || (args.any fun x => (syn.argNames x).contains n) || loadsB syn n thn || loadsE syn n els
  | .loop a args body => (syn.names a).contains n || (args.any fun x => (syn.argNames x).contains n) || loadsB syn n body
  | .quant k => (syn.srcNames k).contains n

/-- The same for what follows the body of an `if`. -/
def loadsE (syn : Syn A) (n : String) : Els A → Bool
  | .none => false
  | .els b => loadsB syn n b
  | .elif a args thn els => (syn.names a).contains n || (args.any fun x => (syn.argNames x).contains n) || loadsB syn n thn || loadsE syn n els

end

/-- Quantize statements before a block. -/
def quants : List String → Block A → Block A
  | [], b => b
  | k :: ks, b => .cons (.quant k) (quants ks b)

/-- transformer.py:467-568 `_insert_dependency_aware_quantize_statements`, 658-665 `_first_use_index_in_block`: each statement is put before the first
statement that loads its variable, otherwise at the end. The sort by index and the merge are written as one pass. -/
def insertAll (syn : Syn A) : List String → Block A → Block A
  | ks, .nil => quants ks .nil
  | ks, .cons s b => quants (ks.filter fun k => loadsS syn (exprToIdent k) s)
      (.cons s (insertAll syn (ks.filter fun k => !loadsS syn (exprToIdent k) s) b))

/-- Insertion into a list sorted by variable. -/
def insertSorted (k : String) : List String → List String
  | [] => [k]
  | k' :: ks => if exprToIdent k' < exprToIdent k then k' :: insertSorted k ks else k :: k' :: ks

/-- transformer.py:177-183 `_get_annotations`, 276-293: the annotations of a block as a sorted list without repetitions, and those that lead to a statement.
Simplification: for equal variables in the order of recording. -/
def statements (syn : Syn A) (ks : List String) : List String := (ks.eraseDups.filter fun k => !syn.inlined k).foldr insertSorted []

/-- transformer.py:243-262 `visit_IndentedBlock`, 426-448 `on_leave`: the replacement of operands. -/
def replace (syn : Syn A) : Arg → Arg
  | .raw k => if syn.inlined k then .inl k else .var (exprToIdent k)
  | x => x

mutual

/-- transformer.py:264-297 `leave_IndentedBlock`: the block with all operands replaced and with the statements in blocks inside; `c`: what all child scopes
of the current scope have in common and is therefore quantized further out. -/
def trB (syn : Syn A) (c : List String) : Block A → Block A
  | .nil => .nil
  | .cons s b => .cons (trS syn c s) (trB syn c b)

/-- The same for statements. The bodies of `if` get the statements for what is recorded there and is not quantized further out. -/
def trS (syn : Syn A) (c : List String) : Stmt A → Stmt A
  | .work a args => .work a (args.map (replace syn))
  | .ite a args thn els => .ite a (args.map (replace syn))
      (insertAll syn (statements syn ((up thn).filter fun k => !c.contains k)) (trB syn (common (childB thn)) thn)) (trE syn c els)
  | .loop a args body => .loop a (args.map (replace syn)) (trB syn c body)
  | .quant k => .quant k

/-- The same for what follows the body of an `if`. annotator.py:117-152 `add_annotation_for_block`: annotations for an `elif` are put in its body, and so are those
for its test. If the body has one for the same expression, the one for the test is dropped, and the test not changed. -/
def trE (syn : Syn A) (c : List String) : Els A → Els A
  | .none => .none
  | .els b => .els (insertAll syn (statements syn ((up b).filter fun k => !c.contains k)) (trB syn (common (childB b)) b))
  | .elif a args thn els =>
    let c' := common (up thn :: childE els)
    let inBody := (up thn).filter fun k => !c'.contains k
    let outer := (keysA args ++ c').filter fun k => !c.contains k
    .elif a (args.map fun
        | .raw k => if outer.contains k && inBody.contains k then .raw k else replace syn (.raw k)
        | x => x)
      (insertAll syn (statements syn (inBody ++ outer)) (trB syn (common (childB thn)) thn)) (trE syn c' els)

end

/-- The whole: the body of a function. -/
def transform (syn : Syn A) (b : Block A) : Block A := insertAll syn (statements syn (up b)) (trB syn (common (childB b)) b)

/-! ### Execution -/

variable {V I H : Type}

/-- Variables, and everything else. -/
structure State (V H : Type) where
  vars : String → Option V
  heap : H

/-- Where execution goes on after a statement. -/
inductive Flow
  | next
  | cont
  | brk
  | ret

/-- What programs mean: evaluation of expressions, quantizers (one for each code), simple statements, tests, iterables and the assignment of an item. `none` is
an exception. -/
structure Sem (A V I H : Type) where
  eval : String → State V H → Option V
  quantizer : String → V → V
  work : A → List V → State V H → Option (Flow × State V H)
  test : A → List V → State V H → Option (Bool × State V H)
  items : A → List V → State V H → Option (List I × State V H)
  bind : A → I → State V H → Option (Unit × State V H)

/-- `n = v`. -/
def State.set (σ : State V H) (n : String) (v : V) : State V H := { σ with vars := fun m => if m = n then some v else σ.vars m }

/-- The value of an operand. -/
def arg (sem : Sem A V I H) (σ : State V H) : Arg → Option V
  | .raw k => sem.eval k σ
  | .inl k => (sem.eval k σ).map (sem.quantizer k)
  | .var n => σ.vars n

/-- Iteration. -/
def iter (bind : I → State V H → Option (Unit × State V H)) (body : State V H → Option (Flow × State V H)) : List I → State V H → Option (Flow × State V H)
  | [], σ => some (.next, σ)
  | i :: is, σ => (bind i σ).bind fun r => (body r.2).bind fun r => match r.1 with
    | .next => iter bind body is r.2
    | .cont => iter bind body is r.2
    | .brk => some (.next, r.2)
    | .ret => some (.ret, r.2)

mutual

/-- Execution of a block. -/
def execB (sem : Sem A V I H) : Block A → State V H → Option (Flow × State V H)
  | .nil, σ => some (.next, σ)
  | .cons s b, σ => (execS sem s σ).bind fun r => match r.1 with
    | .next => execB sem b r.2
    | f => some (f, r.2)

/-- Execution of a statement. -/
def execS (sem : Sem A V I H) : Stmt A → State V H → Option (Flow × State V H)
  | .work a args, σ => (args.mapM (arg sem σ)).bind fun vs => sem.work a vs σ
  | .ite a args thn els, σ => (args.mapM (arg sem σ)).bind fun vs => (sem.test a vs σ).bind fun r => if r.1 then execB sem thn r.2 else execE sem els r.2
  | .loop a args body, σ => (args.mapM (arg sem σ)).bind fun vs => (sem.items a vs σ).bind fun r => iter (sem.bind a) (execB sem body) r.1 r.2
  | .quant k, σ => (sem.eval k σ).map fun v => (.next, σ.set (exprToIdent k) (sem.quantizer k v))

/-- Execution of what follows the body of an `if`. -/
def execE (sem : Sem A V I H) : Els A → State V H → Option (Flow × State V H)
  | .none, σ => some (.next, σ)
  | .els b, σ => execB sem b σ
  | .elif a args thn els, σ => (args.mapM (arg sem σ)).bind fun vs => (sem.test a vs σ).bind fun r => if r.1 then execB sem thn r.2 else execE sem els r.2

end

/-! ## Specification -/

/-- Quantization in place, of an operand. -/
def Arg.inPlace : Arg → Arg
  | .raw k => .inl k
  | x => x

mutual

/-- The program with each expression quantized where it stands. -/
def Block.inPlace : Block A → Block A
  | .nil => .nil
  | .cons s b => .cons s.inPlace b.inPlace

/-- See `Block.inPlace`. -/
def Stmt.inPlace : Stmt A → Stmt A
  | .work a args => .work a (args.map Arg.inPlace)
  | .ite a args thn els => .ite a (args.map Arg.inPlace) thn.inPlace els.inPlace
  | .loop a args body => .loop a (args.map Arg.inPlace) body.inPlace
  | .quant k => .quant k

/-- See `Block.inPlace`. -/
def Els.inPlace : Els A → Els A
  | .none => .none
  | .els b => .els b.inPlace
  | .elif a args thn els => .elif a (args.map Arg.inPlace) thn.inPlace els.inPlace

end

mutual

/-- A program as it is written: all operands are expressions that are in `K`; and without `elif`. -/
def Block.Source (K : String → Prop) : Block A → Prop
  | .nil => True
  | .cons s b => s.Source K ∧ b.Source K

/-- See `Block.Source`. -/
def Stmt.Source (K : String → Prop) : Stmt A → Prop
  | .work _ args => ∀ x ∈ args, ∃ k, x = .raw k ∧ K k
  | .ite _ args thn els => (∀ x ∈ args, ∃ k, x = .raw k ∧ K k) ∧ thn.Source K ∧ els.Source K
  | .loop _ args body => (∀ x ∈ args, ∃ k, x = .raw k ∧ K k) ∧ body.Source K
  | .quant _ => False

/-- See `Block.Source`. -/
def Els.Source (K : String → Prop) : Els A → Prop
  | .none => True
  | .els b => b.Source K
  | .elif _ _ _ _ => False

end

/-- States that differ only in certain variables. -/
def Agree (T : String → Prop) (σ σ' : State V H) : Prop := σ.heap = σ'.heap ∧ ∀ n, ¬ T n → σ.vars n = σ'.vars n

/-- Two results are the same up to certain variables: both exceptions, or the same outcome and states that agree. -/
def Same {X : Type} (T : String → Prop) : Option (X × State V H) → Option (X × State V H) → Prop
  | some (x, σ), some (x', σ') => x = x' ∧ Agree T σ σ'
  | Option.none, Option.none => True
  | _, _ => False

/-- A part of the program does not use certain variables: it does the same in states that agree, and leaves these variables as they are. -/
def Ignores {X : Type} (T : String → Prop) (f : State V H → Option (X × State V H)) : Prop :=
  (∀ σ σ', Agree T σ σ' → Same T (f σ) (f σ')) ∧ ∀ σ x σ1, f σ = some (x, σ1) → ∀ n, T n → σ1.vars n = σ.vars n

/-- The program as written does not use certain variables. -/
structure Unused (T : String → Prop) (sem : Sem A V I H) : Prop where
  eval : ∀ k σ σ', Agree T σ σ' → sem.eval k σ = sem.eval k σ'
  work : ∀ a vs, Ignores T (sem.work a vs)
  test : ∀ a vs, Ignores T (sem.test a vs)
  items : ∀ a vs, Ignores T (sem.items a vs)
  bind : ∀ a i, Ignores T (sem.bind a i)

mutual

/-- All simple statements, tests and iterables in a program have a property. -/
def Block.Only (L : A → Prop) : Block A → Prop
  | .nil => True
  | .cons s b => s.Only L ∧ b.Only L

/-- See `Block.Only`. -/
def Stmt.Only (L : A → Prop) : Stmt A → Prop
  | .work a _ => L a
  | .ite a _ thn els => L a ∧ thn.Only L ∧ els.Only L
  | .loop a _ body => L a ∧ body.Only L
  | .quant _ => True

/-- See `Block.Only`. -/
def Els.Only (L : A → Prop) : Els A → Prop
  | .none => True
  | .els b => b.Only L
  | .elif a _ thn els => L a ∧ thn.Only L ∧ els.Only L

end

mutual

/-- An expression occurs in a program. -/
def Block.Uses (k : String) : Block A → Prop
  | .nil => False
  | .cons s b => s.Uses k ∨ b.Uses k

/-- See `Block.Uses`. -/
def Stmt.Uses (k : String) : Stmt A → Prop
  | .work _ args => .raw k ∈ args
  | .ite _ args thn els => .raw k ∈ args ∨ thn.Uses k ∨ els.Uses k
  | .loop _ args body => .raw k ∈ args ∨ body.Uses k
  | .quant _ => False

/-- See `Block.Uses`. -/
def Els.Uses (k : String) : Els A → Prop
  | .none => False
  | .els b => b.Uses k
  | .elif _ args thn els => .raw k ∈ args ∨ thn.Uses k ∨ els.Uses k

end

/-- Statements that contain others. -/
def Stmt.Compound : Stmt A → Prop
  | .work _ _ => False
  | .ite _ _ _ _ => True
  | .loop _ _ _ => True
  | .quant _ => False

/-- The value of an expression does not change until its last use: no statement changes it (`chg`) if it is used later or if it is used inside a compound
statement. In compound statements it must always have a value (`av`). -/
def Fixed (chg : A → Prop) (av : Prop) (k : String) : Block A → Prop
  | .nil => True
  | .cons s b => (b.Uses k → s.Only fun a => ¬ chg a) ∧ (s.Compound → s.Uses k → (s.Only fun a => ¬ chg a) ∧ av) ∧ Fixed chg av k b

/-- The value of an expression does not change from its first use to its last use. -/
def Settled (chg : A → Prop) (av : Prop) (k : String) : Block A → Prop
  | .nil => True
  | .cons s b => (s.Uses k → Fixed chg av k (.cons s b)) ∧ (¬ s.Uses k → Settled chg av k b)

/-- `chg` tells which parts of a program can change the value of an expression. -/
structure Effects (chg : A → String → Prop) (sem : Sem A V I H) : Prop where
  work : ∀ a vs σ r k, ¬ chg a k → sem.work a vs σ = some r → sem.eval k r.2 = sem.eval k σ
  test : ∀ a vs σ r k, ¬ chg a k → sem.test a vs σ = some r → sem.eval k r.2 = sem.eval k σ
  items : ∀ a vs σ r k, ¬ chg a k → sem.items a vs σ = some r → sem.eval k r.2 = sem.eval k σ
  bind : ∀ a i σ r k, ¬ chg a k → sem.bind a i σ = some r → sem.eval k r.2 = sem.eval k σ

/-- `P` is an invariant of all that a program does. -/
structure Invariant (P : State V H → Prop) (sem : Sem A V I H) : Prop where
  work : ∀ a vs σ r, P σ → sem.work a vs σ = some r → P r.2
  test : ∀ a vs σ r, P σ → sem.test a vs σ = some r → P r.2
  items : ∀ a vs σ r, P σ → sem.items a vs σ = some r → P r.2
  bind : ∀ a i σ r, P σ → sem.bind a i σ = some r → P r.2

/-- The variables for expressions in `K`. -/
def Targets (syn : Syn A) (K : String → Prop) (n : String) : Prop := ∃ k, K k ∧ syn.inlined k = false ∧ exprToIdent k = n

/-! ## Lemmas -/

theorem mem_keysA {args : List Arg} {k : String} : k ∈ keysA args ↔ .raw k ∈ args := by
  unfold keysA
  rw [List.mem_filterMap]
  constructor
  · rintro ⟨x, hx, h⟩
    cases x <;> simp at h
    exact h ▸ hx
  · exact fun h => ⟨_, h, rfl⟩

theorem mem_common {ls : List (List String)} {k : String} : k ∈ common ls ↔ ls ≠ [] ∧ ∀ l ∈ ls, k ∈ l := by
  cases ls with
  | nil => simp [common]
  | cons l ls => simp [common, List.mem_filter]

theorem mem_insertSorted {k x : String} {ks : List String} : x ∈ insertSorted k ks ↔ x = k ∨ x ∈ ks := by
  induction ks with
  | nil => simp [insertSorted]
  | cons k' ks ih =>
    simp only [insertSorted]
    split
    · rw [List.mem_cons, ih, List.mem_cons]
      exact ⟨fun h => h.elim (fun h => .inr (.inl h)) (fun h => h.elim .inl fun h => .inr (.inr h)),
        fun h => h.elim (fun h => .inr (.inl h)) (fun h => h.elim .inl fun h => .inr (.inr h))⟩
    · simp

theorem mem_statements {syn : Syn A} {ks : List String} {k : String} : k ∈ statements syn ks ↔ k ∈ ks ∧ syn.inlined k = false := by
  have h : ∀ l : List String, k ∈ l.foldr insertSorted [] ↔ k ∈ l := by
    intro l
    induction l with
    | nil => simp
    | cons a l ih => rw [List.foldr_cons, mem_insertSorted, ih, List.mem_cons]
  unfold statements
  rw [h, List.mem_filter, List.mem_eraseDups]
  simp

theorem loads_quants (syn : Syn A) (n : String) (ks : List String) (b : Block A) (h : loadsB syn n b = true) : loadsB syn n (quants ks b) = true := by
  induction ks with
  | nil => exact h
  | cons k ks ih => simp [quants, loadsB, ih]

theorem loads_insertAll (syn : Syn A) (n : String) (ks : List String) (b : Block A) (h : loadsB syn n b = true) :
    loadsB syn n (insertAll syn ks b) = true := by
  match b with
  | .nil => simp [loadsB] at h
  | .cons s b =>
    simp only [insertAll]
    apply loads_quants
    simp only [loadsB, Bool.or_eq_true] at h ⊢
    exact h.imp id (loads_insertAll syn n _ b)

theorem args_load (syn : Syn A) {args : List Arg} {k : String} (hk : k ∈ keysA args) (hi : syn.inlined k = false) :
    ((args.map (replace syn)).any fun x => (syn.argNames x).contains (exprToIdent k)) = true := by
  rw [List.any_eq_true]
  exact ⟨_, List.mem_map_of_mem (mem_keysA.1 hk), by simp [replace, hi, Syn.argNames]⟩

mutual

theorem own_loadsB (syn : Syn A) (c : List String) {k : String} (hi : syn.inlined k = false) : (b : Block A) → k ∈ ownB b →
    loadsB syn (exprToIdent k) (trB syn c b) = true
  | .nil, h => by simp [ownB] at h
  | .cons s b, h => by
    simp only [ownB, List.mem_append] at h
    simp only [trB, loadsB, Bool.or_eq_true]
    exact h.imp (own_loadsS syn c hi s) (own_loadsB syn c hi b)

theorem own_loadsS (syn : Syn A) (c : List String) {k : String} (hi : syn.inlined k = false) : (s : Stmt A) → k ∈ ownS s →
    loadsS syn (exprToIdent k) (trS syn c s) = true
  | .work a args, h => by
    simp only [trS, loadsS, Bool.or_eq_true]
    exact .inr (args_load syn h hi)
  | .ite a args thn els, h => by
    simp only [trS, loadsS, Bool.or_eq_true]
    exact .inl (.inl (.inr (args_load syn h hi)))
  | .loop a args body, h => by
    simp only [ownS, List.mem_append] at h
    simp only [trS, loadsS, Bool.or_eq_true]
    exact h.elim (fun h => .inl (.inr (args_load syn h hi))) (fun h => .inr (own_loadsB syn c hi body h))
  | .quant _, h => by simp [ownS] at h

end

mutual

theorem child_loadsB (syn : Syn A) (c : List String) {k : String} (hi : syn.inlined k = false) : (b : Block A) → childB b ≠ [] → (∀ l ∈ childB b, k ∈ l) →
    loadsB syn (exprToIdent k) (trB syn c b) = true
  | .nil, h, _ => by simp [childB] at h
  | .cons s b, h, hl => by
    simp only [childB, List.mem_append] at h hl
    simp only [trB, loadsB, Bool.or_eq_true]
    by_cases hs : childS s = []
    · exact .inr (child_loadsB syn c hi b (by simpa [hs] using h) fun l hm => hl l (.inr hm))
    · exact .inl (child_loadsS syn c hi s hs fun l hm => hl l (.inl hm))

theorem child_loadsS (syn : Syn A) (c : List String) {k : String} (hi : syn.inlined k = false) : (s : Stmt A) → childS s ≠ [] → (∀ l ∈ childS s, k ∈ l) →
    loadsS syn (exprToIdent k) (trS syn c s) = true
  | .work a args, h, _ => by simp [childS] at h
  | .ite a args thn els, _, hl => by
    simp only [trS, loadsS, Bool.or_eq_true]
    refine .inl (.inr (loads_insertAll syn _ _ _ ?_))
    rcases List.mem_append.1 (hl _ (by simp only [childS]; exact List.mem_cons_self ..)) with h | h
    · exact own_loadsB syn _ hi thn h
    · rw [mem_common] at h
      exact child_loadsB syn _ hi thn h.1 h.2
  | .loop a args body, h, hl => by
    simp only [trS, loadsS, Bool.or_eq_true]
    exact .inr (child_loadsB syn c hi body h hl)
  | .quant _, h, _ => by simp [childS] at h

end

theorem args_source {K : String → Prop} {args : List Arg} (h : ∀ x ∈ args, ∃ k, x = .raw k ∧ K k) : ∀ k ∈ keysA args, K k := by
  intro k hk
  obtain ⟨k', he, hk'⟩ := h _ (mem_keysA.1 hk)
  cases he
  exact hk'

mutual

theorem own_sourceB (K : String → Prop) : (b : Block A) → b.Source K → ∀ k ∈ ownB b, K k
  | .nil, _, k, h => by simp [ownB] at h
  | .cons s b, hs, k, h => by
    simp only [ownB, List.mem_append] at h
    exact h.elim (own_sourceS K s hs.1 k) (own_sourceB K b hs.2 k)

theorem own_sourceS (K : String → Prop) : (s : Stmt A) → s.Source K → ∀ k ∈ ownS s, K k
  | .work a args, hs, k, h => args_source hs k h
  | .ite a args thn els, hs, k, h => args_source hs.1 k h
  | .loop a args body, hs, k, h => by
    simp only [ownS, List.mem_append] at h
    exact h.elim (args_source hs.1 k) (own_sourceB K body hs.2 k)
  | .quant _, hs, _, _ => hs.elim

end

theorem up_source (K : String → Prop) (b : Block A) (hb : b.Source K) (hc : ∀ l ∈ childB b, ∀ k ∈ l, K k) : ∀ k ∈ up b, K k := by
  intro k hk
  rcases List.mem_append.1 hk with h | h
  · exact own_sourceB K b hb k h
  · rw [mem_common] at h
    obtain ⟨l, hl⟩ := List.exists_mem_of_ne_nil _ h.1
    exact hc l hl k (h.2 l hl)

mutual

theorem child_sourceB (K : String → Prop) : (b : Block A) → b.Source K → ∀ l ∈ childB b, ∀ k ∈ l, K k
  | .nil, _, l, h => by simp [childB] at h
  | .cons s b, hs, l, h => by
    simp only [childB, List.mem_append] at h
    exact h.elim (child_sourceS K s hs.1 l) (child_sourceB K b hs.2 l)

theorem child_sourceS (K : String → Prop) : (s : Stmt A) → s.Source K → ∀ l ∈ childS s, ∀ k ∈ l, K k
  | .work a args, _, l, h => by simp [childS] at h
  | .ite a args thn els, hs, l, h => by
    simp only [childS] at h
    rcases List.mem_cons.1 h with rfl | h
    · exact up_source K thn hs.2.1 (child_sourceB K thn hs.2.1)
    · exact child_sourceE K els hs.2.2 l h
  | .loop a args body, hs, l, h => child_sourceB K body hs.2 l h
  | .quant _, hs, _, _ => hs.elim

theorem child_sourceE (K : String → Prop) : (e : Els A) → e.Source K → ∀ l ∈ childE e, ∀ k ∈ l, K k
  | .none, _, l, h => by simp [childE] at h
  | .els b, hs, l, h => by
    simp only [childE, List.mem_singleton] at h
    subst h
    exact up_source K b hs (child_sourceB K b hs)
  | .elif _ _ _ _, hs, _, _ => hs.elim

end

theorem insertAll_nil (syn : Syn A) : (b : Block A) → insertAll syn [] b = b
  | .nil => rfl
  | .cons s b => by simp [insertAll, quants, insertAll_nil syn b]

theorem source_ownB (K : String → Prop) (c : List String) (b : Block A) (hb : b.Source K) (hc : ∀ l ∈ childB b, ∀ k ∈ c, k ∈ l) (k : String)
    (hk : k ∈ ownB b ∨ childB b ≠ [] ∧ k ∈ c) : K k := by
  rcases hk with h | ⟨h1, h2⟩
  · exact own_sourceB K b hb k h
  · obtain ⟨l, hl⟩ := List.exists_mem_of_ne_nil _ h1
    exact child_sourceB K b hb l hl k (hc l hl k h2)

theorem source_ownS (K : String → Prop) (c : List String) (s : Stmt A) (hs : s.Source K) (hc : ∀ l ∈ childS s, ∀ k ∈ c, k ∈ l) (k : String)
    (hk : k ∈ ownS s ∨ childS s ≠ [] ∧ k ∈ c) : K k := by
  rcases hk with h | ⟨h1, h2⟩
  · exact own_sourceS K s hs k h
  · obtain ⟨l, hl⟩ := List.exists_mem_of_ne_nil _ h1
    exact child_sourceS K s hs l hl k (hc l hl k h2)

/-- Expressions in `K` have the same value throughout, under an invariant `P` of the parts in `L`. -/
structure Constant (L : A → Prop) (K : String → Prop) (P : State V H → Prop) (val : String → Option V) (sem : Sem A V I H) : Prop where
  eval : ∀ k σ, K k → P σ → sem.eval k σ = val k
  value : ∀ k, K k → ∃ v, val k = some v
  work : ∀ a, L a → ∀ vs σ r, P σ → sem.work a vs σ = some r → P r.2
  test : ∀ a, L a → ∀ vs σ r, P σ → sem.test a vs σ = some r → P r.2
  items : ∀ a, L a → ∀ vs σ r, P σ → sem.items a vs σ = some r → P r.2
  bind : ∀ a, L a → ∀ i σ r, P σ → sem.bind a i σ = some r → P r.2

section Main

variable (L : A → Prop) (T : String → Prop) (K : String → Prop) (P : State V H → Prop) (val : String → Option V) (sem : Sem A V I H) (syn : Syn A)

/-- The variable of an expression has the quantized value. -/
def Done (σ : State V H) (k : String) : Prop := ∃ v, val k = some v ∧ σ.vars (exprToIdent k) = some (sem.quantizer k v)

/-- The invariant between the state of the program as written and that of the transformed one. -/
structure Inv (σ σ' : State V H) : Prop where
  agree : Agree T σ σ'
  inv : P σ

/-- Results are the same, the invariant is kept, and what was done stays done. -/
def Good {X : Type} (σ' : State V H) : Option (X × State V H) → Option (X × State V H) → Prop
  | some (x, τ), some (x', τ') => x = x' ∧ Inv T P τ τ' ∧ ∀ k, K k → syn.inlined k = false → Done val sem σ' k → Done val sem τ' k
  | Option.none, Option.none => True
  | _, _ => False

/-- What the main lemmas assume. -/
structure Setting : Prop where
  target : ∀ k, K k → syn.inlined k = false → T (exprToIdent k)
  inj : ∀ k k', K k → K k' → syn.inlined k = false → syn.inlined k' = false → exprToIdent k = exprToIdent k' → k = k'
  unused : Unused T sem
  const : Constant L K P val sem

variable {L T K P val sem syn}

theorem good_cases {X : Type} {σ' : State V H} {r r' : Option (X × State V H)} (h : Good T K P val sem syn σ' r r') :
    (r = Option.none ∧ r' = Option.none) ∨ ∃ x τ τ', r = some (x, τ) ∧ r' = some (x, τ') ∧ Inv T P τ τ' ∧
      ∀ k, K k → syn.inlined k = false → Done val sem σ' k → Done val sem τ' k := by
  match r, r', h with
  | Option.none, Option.none, _ => exact .inl ⟨rfl, rfl⟩
  | some (x, τ), some (x', τ'), ⟨h1, h2, h3⟩ => exact .inr ⟨x, τ, τ', rfl, by rw [h1], h2, h3⟩

theorem good_trans {X : Type} {σ' τ' : State V H} {r r' : Option (X × State V H)} (hd : ∀ k, K k → syn.inlined k = false → Done val sem σ' k → Done val sem τ' k)
    (h : Good T K P val sem syn τ' r r') : Good T K P val sem syn σ' r r' := by
  rcases good_cases h with ⟨rfl, rfl⟩ | ⟨x, ρ, ρ', rfl, rfl, h1, h2⟩
  · trivial
  · exact ⟨rfl, h1, fun k hk hi h => h2 k hk hi (hd k hk hi h)⟩

theorem good_of_ignores {X : Type} (hs : Setting L T K P val sem syn) (f : State V H → Option (X × State V H)) (hf : Ignores T f)
    (hP : ∀ σ r, P σ → f σ = some r → P r.2) {σ σ' : State V H} (h : Inv T P σ σ') : Good T K P val sem syn σ' (f σ) (f σ') := by
  have hsame := hf.1 σ σ' h.agree
  cases h1 : f σ with
  | none =>
    cases h2 : f σ' with
    | none => trivial
    | some r => rw [h1, h2] at hsame; exact hsame.elim
  | some r =>
    cases h2 : f σ' with
    | none => rw [h1, h2] at hsame; exact hsame.elim
    | some r' =>
      rw [h1, h2] at hsame
      refine ⟨hsame.1, ⟨hsame.2, hP σ r h.inv h1⟩, fun k hk hi hd => ?_⟩
      obtain ⟨v, hv, hd⟩ := hd
      exact ⟨v, hv, by rw [hf.2 σ' r'.1 r'.2 h2 _ (hs.target k hk hi), hd]⟩

theorem args_eq (hs : Setting L T K P val sem syn) {args : List Arg} (ha : ∀ x ∈ args, ∃ k, x = .raw k ∧ K k) {σ σ' : State V H} (h : Inv T P σ σ')
    (hd : ∀ k ∈ keysA args, syn.inlined k = false → Done val sem σ' k) :
    (args.map (replace syn)).mapM (arg sem σ') = (args.map Arg.inPlace).mapM (arg sem σ) := by
  induction args with
  | nil => rfl
  | cons x args ih =>
    obtain ⟨k, rfl, hk⟩ := ha x (List.mem_cons_self ..)
    rw [List.map_cons, List.map_cons, List.mapM_cons, List.mapM_cons, ih (fun x hx => ha x (List.mem_cons_of_mem _ hx))
      (fun k hk => hd k (mem_keysA.2 (List.mem_cons_of_mem _ (mem_keysA.1 hk))))]
    have he : arg sem σ' (replace syn (.raw k)) = arg sem σ (Arg.inPlace (.raw k)) := by
      simp only [replace, Arg.inPlace]
      cases hi : syn.inlined k with
      | true =>
        simp only [if_true, arg]
        rw [hs.unused.eval k σ σ' h.agree]
      | false =>
        simp only [Bool.false_eq_true, if_false, arg]
        obtain ⟨v, hv, hd⟩ := hd k (mem_keysA.2 (List.mem_cons_self ..)) hi
        rw [hd, hs.const.eval k σ hk h.inv, hv]
        rfl
    rw [he]

/-- Quantize statements before a block do what they are there for. -/
theorem quants_exec (hs : Setting L T K P val sem syn) (ks : List String) (hks : ∀ k ∈ ks, K k ∧ syn.inlined k = false) (b : Block A) {σ σ' : State V H}
    (h : Inv T P σ σ') : ∃ τ', execB sem (quants ks b) σ' = execB sem b τ' ∧ Inv T P σ τ' ∧ (∀ k ∈ ks, Done val sem τ' k) ∧
      ∀ k, K k → syn.inlined k = false → Done val sem σ' k → Done val sem τ' k := by
  induction ks generalizing σ' with
  | nil => exact ⟨σ', rfl, h, by simp, fun _ _ _ h => h⟩
  | cons k ks ih =>
    obtain ⟨hk, hi⟩ := hks k (List.mem_cons_self ..)
    obtain ⟨v, hv⟩ := hs.const.value k hk
    have hev : sem.eval k σ' = some v := by
      rw [← hs.unused.eval k σ σ' h.agree, ← hv]
      exact hs.const.eval k σ hk h.inv
    have h1 : Inv T P σ (σ'.set (exprToIdent k) (sem.quantizer k v)) := by
      refine ⟨⟨h.agree.1, fun n hn => ?_⟩, h.inv⟩
      have : n ≠ exprToIdent k := fun e => hn (e ▸ hs.target k hk hi)
      simp only [State.set, if_neg this]
      exact h.agree.2 n hn
    have hkeep : ∀ k', K k' → syn.inlined k' = false → Done val sem σ' k' → Done val sem (σ'.set (exprToIdent k) (sem.quantizer k v)) k' := by
      rintro k' hk' hi' ⟨v', hv', hd⟩
      refine ⟨v', hv', ?_⟩
      simp only [State.set]
      by_cases he : exprToIdent k' = exprToIdent k
      · rw [if_pos he]
        have := hs.inj k' k hk' hk hi' hi he
        subst this
        rw [hv] at hv'
        cases hv'
        rfl
      · rw [if_neg he, hd]
    obtain ⟨τ', h2, h3, h4, h5⟩ := ih (fun k hk => hks k (List.mem_cons_of_mem _ hk)) h1
    refine ⟨τ', ?_, h3, ?_, fun k' hk' hi' hd => h5 k' hk' hi' (hkeep k' hk' hi' hd)⟩
    · rw [← h2]
      simp [quants, execB, execS, hev]
    · intro k' hk'
      rcases List.mem_cons.1 hk' with rfl | hk'
      · refine h5 _ hk hi ?_
        exact ⟨v, hv, by simp [State.set]⟩
      · exact h4 k' hk'

theorem iter_good (hs : Setting L T K P val sem syn) (a : A) (ha : L a) (D : String → Prop) (hD : ∀ k, D k → K k ∧ syn.inlined k = false)
    (f f' : State V H → Option (Flow × State V H))
    (hf : ∀ σ σ', Inv T P σ σ' → (∀ k, D k → Done val sem σ' k) → Good T K P val sem syn σ' (f σ) (f' σ')) (is : List I) {σ σ' : State V H}
    (h : Inv T P σ σ') (hd : ∀ k, D k → Done val sem σ' k) :
    Good T K P val sem syn σ' (iter (sem.bind a) f is σ) (iter (sem.bind a) f' is σ') := by
  induction is generalizing σ σ' with
  | nil => exact ⟨rfl, h, fun _ _ _ h => h⟩
  | cons i is ih =>
    simp only [iter]
    rcases good_cases (good_of_ignores hs (sem.bind a i) (hs.unused.bind a i) (hs.const.bind a ha i) h) with ⟨h1, h2⟩ | ⟨x, τ, τ', h1, h2, h3, h4⟩
    · rw [h1, h2]; trivial
    · rw [h1, h2]
      simp only [Option.bind_some]
      have hd1 : ∀ k, D k → Done val sem τ' k := fun k hk => h4 k (hD k hk).1 (hD k hk).2 (hd k hk)
      rcases good_cases (hf τ τ' h3 hd1) with ⟨h5, h6⟩ | ⟨y, ρ, ρ', h5, h6, h7, h8⟩
      · rw [h5, h6]; trivial
      · rw [h5, h6]
        simp only [Option.bind_some]
        have hd2 : ∀ k, K k → syn.inlined k = false → Done val sem σ' k → Done val sem ρ' k := fun k hk hi h => h8 k hk hi (h4 k hk hi h)
        have hgo : Good T K P val sem syn σ' (iter (sem.bind a) f is ρ) (iter (sem.bind a) f' is ρ') :=
          good_trans hd2 (ih h7 fun k hk => h8 k (hD k hk).1 (hD k hk).2 (hd1 k hk))
        cases y with
        | next => exact hgo
        | cont => exact hgo
        | brk => exact ⟨rfl, h7, hd2⟩
        | ret => exact ⟨rfl, h7, hd2⟩

/-- A scope: what is recorded there and not quantized further out is quantized at its beginning or before the first use. -/
theorem scope_exec (c : List String) {b : Block A}
    (hb : (∀ l ∈ childB b, ∀ k ∈ common (childB b), k ∈ l) → (ks : List String) → (∀ k ∈ ks, K k ∧ syn.inlined k = false) → ∀ σ σ', Inv T P σ σ' →
      (∀ k, k ∈ ownB b ∨ childB b ≠ [] ∧ k ∈ common (childB b) → syn.inlined k = false → Done val sem σ' k ∨ k ∈ ks) →
      Good T K P val sem syn σ' (execB sem b.inPlace σ) (execB sem (insertAll syn ks (trB syn (common (childB b)) b)) σ'))
    (hsrc : b.Source K) (σ σ' : State V H) (h : Inv T P σ σ') (hcd : ∀ k ∈ c, K k → syn.inlined k = false → Done val sem σ' k) :
    Good T K P val sem syn σ' (execB sem b.inPlace σ)
      (execB sem (insertAll syn (statements syn ((up b).filter fun k => !c.contains k)) (trB syn (common (childB b)) b)) σ') := by
  have hK : ∀ k ∈ up b, K k := up_source K b hsrc (child_sourceB K b hsrc)
  refine hb (fun l hl k hk => (mem_common.1 hk).2 l hl) _ (fun k hk => ?_) σ σ' h fun k hk hi => ?_
  · rw [mem_statements, List.mem_filter] at hk
    exact ⟨hK k hk.1.1, hk.2⟩
  · have hu : k ∈ up b := List.mem_append.2 (hk.imp id And.right)
    by_cases hc : k ∈ c
    · exact .inl (hcd k hc (hK k hu) hi)
    · exact .inr (mem_statements.2 ⟨List.mem_filter.2 ⟨hu, by simpa using hc⟩, hi⟩)

mutual

theorem block_exec (hs : Setting L T K P val sem syn) (c : List String) : (b : Block A) → b.Source K → b.Only L → (∀ l ∈ childB b, ∀ k ∈ c, k ∈ l) → (ks : List String) →
    (∀ k ∈ ks, K k ∧ syn.inlined k = false) → ∀ σ σ', Inv T P σ σ' →
    (∀ k, k ∈ ownB b ∨ childB b ≠ [] ∧ k ∈ c → syn.inlined k = false → Done val sem σ' k ∨ k ∈ ks) →
    Good T K P val sem syn σ' (execB sem b.inPlace σ) (execB sem (insertAll syn ks (trB syn c b)) σ')
  | .nil, _, _, _, ks, hks, σ, σ', h, _ => by
    obtain ⟨τ', h1, h2, -, h4⟩ := quants_exec hs ks hks .nil h
    simp only [trB, insertAll, h1, Block.inPlace, execB]
    exact ⟨rfl, h2, h4⟩
  | .cons s b, hsrc, hL, hc, ks, hks, σ, σ', h, hreq => by
    simp only [trB, insertAll]
    obtain ⟨τ', h1, h2, h3, h4⟩ := quants_exec hs (ks.filter fun k => loadsS syn (exprToIdent k) (trS syn c s))
      (fun k hk => hks k (List.mem_filter.1 hk).1) (.cons (trS syn c s) (insertAll syn (ks.filter fun k => !loadsS syn (exprToIdent k) (trS syn c s))
        (trB syn c b))) h
    rw [h1]
    refine good_trans h4 ?_
    simp only [childB, List.mem_append] at hc
    simp only [childB, ownB, List.mem_append] at hreq
    have hK : ∀ k, Done val sem σ' k ∨ k ∈ ks → K k → syn.inlined k = false → Done val sem τ' k ∨ k ∈ ks.filter fun k => !loadsS syn (exprToIdent k) (trS syn c s) := by
      intro k hk hk' hi
      rcases hk with hk | hk
      · exact .inl (h4 k hk' hi hk)
      · by_cases hl : loadsS syn (exprToIdent k) (trS syn c s) = true
        · exact .inl (h3 k (List.mem_filter.2 ⟨hk, hl⟩))
        · exact .inr (List.mem_filter.2 ⟨hk, by simpa using hl⟩)
    have hstmt := stmt_exec hs c s hsrc.1 hL.1 (fun l hl => hc l (.inl hl)) σ τ' h2 (by
      intro k hk hi
      have hk0 : Done val sem σ' k ∨ k ∈ ks := hreq k (hk.imp .inl fun h => ⟨by simp [h.1], h.2⟩) hi
      have hl : loadsS syn (exprToIdent k) (trS syn c s) = true := by
        rcases hk with hk | ⟨hk1, hk2⟩
        · exact own_loadsS syn c hi s hk
        · exact child_loadsS syn c hi s hk1 fun l hl => hc l (.inl hl) k hk2
      rcases hk0 with hk0 | hk0
      · by_cases hmem : k ∈ ks
        · exact h3 k (List.mem_filter.2 ⟨hmem, hl⟩)
        · exact h4 k (source_ownS K c s hsrc.1 (fun l hl => hc l (.inl hl)) k hk) hi hk0
      · exact h3 k (List.mem_filter.2 ⟨hk0, hl⟩))
    simp only [Block.inPlace, execB]
    rcases good_cases hstmt with ⟨e1, e2⟩ | ⟨x, ρ, ρ', e1, e2, e3, e4⟩
    · rw [e1, e2]; trivial
    · rw [e1, e2]
      simp only [Option.bind_some]
      cases x with
      | next =>
        refine good_trans e4 (block_exec hs c b hsrc.2 hL.2 (fun l hl => hc l (.inr hl)) _ (fun k hk => hks k (List.mem_filter.1 hk).1) ρ ρ' e3 ?_)
        intro k hk hi
        have hk1 : K k := source_ownB K c b hsrc.2 (fun l hl => hc l (.inr hl)) k hk
        exact (hK k (hreq k (hk.imp .inr fun h => ⟨by simp [h.1], h.2⟩) hi) hk1 hi).imp (e4 k hk1 hi) id
      | cont => exact ⟨rfl, e3, e4⟩
      | brk => exact ⟨rfl, e3, e4⟩
      | ret => exact ⟨rfl, e3, e4⟩

theorem stmt_exec (hs : Setting L T K P val sem syn) (c : List String) : (s : Stmt A) → s.Source K → s.Only L → (∀ l ∈ childS s, ∀ k ∈ c, k ∈ l) →
    ∀ σ σ', Inv T P σ σ' → (∀ k, k ∈ ownS s ∨ childS s ≠ [] ∧ k ∈ c → syn.inlined k = false → Done val sem σ' k) →
    Good T K P val sem syn σ' (execS sem s.inPlace σ) (execS sem (trS syn c s) σ')
  | .work a args, hsrc, hL, _, σ, σ', h, hreq => by
    simp only [Stmt.inPlace, trS, execS]
    rw [args_eq hs hsrc h fun k hk => hreq k (.inl hk)]
    cases (args.map Arg.inPlace).mapM (arg sem σ) with
    | none => trivial
    | some vs => exact good_of_ignores hs (sem.work a vs) (hs.unused.work a vs) (hs.const.work a hL vs) h
  | .ite a args thn els, hsrc, hL, _, σ, σ', h, hreq => by
    simp only [Stmt.inPlace, trS, execS]
    rw [args_eq hs hsrc.1 h fun k hk => hreq k (.inl hk)]
    cases (args.map Arg.inPlace).mapM (arg sem σ) with
    | none => trivial
    | some vs =>
      simp only [Option.bind_some]
      rcases good_cases (good_of_ignores hs (sem.test a vs) (hs.unused.test a vs) (hs.const.test a hL.1 vs) h) with ⟨h1, h2⟩ | ⟨x, τ, τ', h1, h2, h3, h4⟩
      · rw [h1, h2]; trivial
      · rw [h1, h2]
        simp only [Option.bind_some]
        refine good_trans h4 ?_
        have hcd : ∀ k ∈ c, K k → syn.inlined k = false → Done val sem τ' k := fun k hk hK hi =>
          h4 k hK hi (hreq k (.inr ⟨by simp [childS], hk⟩) hi)
        cases x with
        | true => exact scope_exec c (block_exec hs (common (childB thn)) thn hsrc.2.1 hL.2.1) hsrc.2.1 τ τ' h3 hcd
        | false => exact els_exec hs c els hsrc.2.2 hL.2.2 τ τ' h3 hcd
  | .loop a args body, hsrc, hL, hc, σ, σ', h, hreq => by
    simp only [Stmt.inPlace, trS, execS]
    rw [args_eq hs hsrc.1 h fun k hk => hreq k (.inl (by simp [ownS, hk]))]
    cases (args.map Arg.inPlace).mapM (arg sem σ) with
    | none => trivial
    | some vs =>
      simp only [Option.bind_some]
      rcases good_cases (good_of_ignores hs (sem.items a vs) (hs.unused.items a vs) (hs.const.items a hL.1 vs) h) with ⟨h1, h2⟩ | ⟨x, τ, τ', h1, h2, h3, h4⟩
      · rw [h1, h2]; trivial
      · rw [h1, h2]
        simp only [Option.bind_some]
        refine good_trans h4 (iter_good hs a hL.1 (fun k => (k ∈ ownB body ∨ childB body ≠ [] ∧ k ∈ c) ∧ syn.inlined k = false)
          (fun k hk => ⟨source_ownB K c body hsrc.2 hc k hk.1, hk.2⟩) _ _ ?_ x h3 ?_)
        · intro ρ ρ' h5 h6
          have := block_exec hs c body hsrc.2 hL.2 hc [] (by simp) ρ ρ' h5 fun k hk hi => .inl (h6 k ⟨hk, hi⟩)
          rwa [insertAll_nil] at this
        · intro k hk
          exact h4 k (source_ownB K c body hsrc.2 hc k hk.1) hk.2 (hreq k (hk.1.imp (fun h => by simp [ownS, h]) fun h => ⟨h.1, h.2⟩) hk.2)

theorem els_exec (hs : Setting L T K P val sem syn) (c : List String) : (e : Els A) → e.Source K → e.Only L →
    ∀ σ σ', Inv T P σ σ' → (∀ k ∈ c, K k → syn.inlined k = false → Done val sem σ' k) →
    Good T K P val sem syn σ' (execE sem e.inPlace σ) (execE sem (trE syn c e) σ')
  | .none, _, _, σ, σ', h, _ => ⟨rfl, h, fun _ _ _ h => h⟩
  | .els b, hsrc, hL, σ, σ', h, hcd => by
    simp only [Els.inPlace, trE, execE]
    exact scope_exec c (block_exec hs (common (childB b)) b hsrc hL) hsrc σ σ' h hcd
  | .elif _ _ _ _, hsrc, _, _, _, _, _ => hsrc.elim

end

end Main

/-! ### Uses -/

/-- The names that the program as written mentions are not those of the new variables. -/
def Fresh (syn : Syn A) (K : String → Prop) : Prop :=
  ∀ k, K k → syn.inlined k = false → (∀ a, exprToIdent k ∉ syn.names a) ∧ ∀ k', exprToIdent k ∉ syn.srcNames k'

theorem args_uses {syn : Syn A} {K : String → Prop} (hf : Fresh syn K) (hinj : ∀ k k', K k → K k' → exprToIdent k = exprToIdent k' → k = k') {k : String}
    (hk : K k) (hi : syn.inlined k = false) {args : List Arg} (ha : ∀ x ∈ args, ∃ k, x = .raw k ∧ K k)
    (h : ((args.map (replace syn)).any fun x => (syn.argNames x).contains (exprToIdent k)) = true) : .raw k ∈ args := by
  rw [List.any_eq_true] at h
  obtain ⟨y, hy, hn⟩ := h
  obtain ⟨x, hx, rfl⟩ := List.mem_map.1 hy
  obtain ⟨k', rfl, hk'⟩ := ha x hx
  simp only [replace] at hn
  cases hi' : syn.inlined k' with
  | true => simp [hi', Syn.argNames, (hf k hk hi).2 k'] at hn
  | false =>
    simp [hi', Syn.argNames] at hn
    rwa [hinj k k' hk hk' hn]

theorem quants_loads {syn : Syn A} {K : String → Prop} (hf : Fresh syn K) {k : String} (hk : K k) (hi : syn.inlined k = false) (ks : List String) (b : Block A)
    (h : loadsB syn (exprToIdent k) (quants ks b) = true) : loadsB syn (exprToIdent k) b = true := by
  induction ks with
  | nil => exact h
  | cons k' ks ih => exact ih (by simpa [quants, loadsB, loadsS, (hf k hk hi).2 k'] using h)

theorem insertAll_loads {syn : Syn A} {K : String → Prop} (hf : Fresh syn K) {k : String} (hk : K k) (hi : syn.inlined k = false) (ks : List String)
    (b : Block A) (h : loadsB syn (exprToIdent k) (insertAll syn ks b) = true) : loadsB syn (exprToIdent k) b = true := by
  match b with
  | .nil => exact quants_loads hf hk hi ks .nil h
  | .cons s b =>
    simp only [insertAll] at h
    have := quants_loads hf hk hi _ _ h
    simp only [loadsB, Bool.or_eq_true] at this ⊢
    exact this.imp id (insertAll_loads hf hk hi _ b)

mutual

theorem loads_usesB {syn : Syn A} {K : String → Prop} (hf : Fresh syn K) (hinj : ∀ k k', K k → K k' → exprToIdent k = exprToIdent k' → k = k') {k : String}
    (hk : K k) (hi : syn.inlined k = false) (c : List String) : (b : Block A) → b.Source K → loadsB syn (exprToIdent k) (trB syn c b) = true → b.Uses k
  | .nil, _, h => by simp [trB, loadsB] at h
  | .cons s b, hs, h => by
    simp only [trB, loadsB, Bool.or_eq_true] at h
    exact h.imp (loads_usesS hf hinj hk hi c s hs.1) (loads_usesB hf hinj hk hi c b hs.2)

theorem loads_usesS {syn : Syn A} {K : String → Prop} (hf : Fresh syn K) (hinj : ∀ k k', K k → K k' → exprToIdent k = exprToIdent k' → k = k') {k : String}
    (hk : K k) (hi : syn.inlined k = false) (c : List String) : (s : Stmt A) → s.Source K → loadsS syn (exprToIdent k) (trS syn c s) = true → s.Uses k
  | .work a args, hs, h => by
    simp only [trS, loadsS, Bool.or_eq_true] at h
    rcases h with h | h
    · exact absurd (by simpa using h) ((hf k hk hi).1 a)
    · exact args_uses hf hinj hk hi hs h
  | .ite a args thn els, hs, h => by
    simp only [trS, loadsS, Bool.or_eq_true] at h
    rcases h with ((h | h) | h) | h
    · exact absurd (by simpa using h) ((hf k hk hi).1 a)
    · exact .inl (args_uses hf hinj hk hi hs.1 h)
    · exact .inr (.inl (loads_usesB hf hinj hk hi _ thn hs.2.1 (insertAll_loads hf hk hi _ _ h)))
    · exact .inr (.inr (loads_usesE hf hinj hk hi c els hs.2.2 h))
  | .loop a args body, hs, h => by
    simp only [trS, loadsS, Bool.or_eq_true] at h
    rcases h with (h | h) | h
    · exact absurd (by simpa using h) ((hf k hk hi).1 a)
    · exact .inl (args_uses hf hinj hk hi hs.1 h)
    · exact .inr (loads_usesB hf hinj hk hi c body hs.2 h)
  | .quant _, hs, _ => hs.elim

theorem loads_usesE {syn : Syn A} {K : String → Prop} (hf : Fresh syn K) (hinj : ∀ k k', K k → K k' → exprToIdent k = exprToIdent k' → k = k') {k : String}
    (hk : K k) (hi : syn.inlined k = false) (c : List String) : (e : Els A) → e.Source K → loadsE syn (exprToIdent k) (trE syn c e) = true → e.Uses k
  | .none, _, h => by simp [trE, loadsE] at h
  | .els b, hs, h => by
    simp only [trE, loadsE] at h
    exact loads_usesB hf hinj hk hi _ b hs (insertAll_loads hf hk hi _ _ h)
  | .elif _ _ _ _, hs, _ => hs.elim

end

theorem args_of {K K' : String → Prop} {args : List Arg} (hs : ∀ x ∈ args, ∃ k, x = .raw k ∧ K k) (h : ∀ k, .raw k ∈ args → K k → K' k) :
    ∀ x ∈ args, ∃ k, x = .raw k ∧ K' k := by
  intro x hx
  obtain ⟨k, rfl, hk⟩ := hs x hx
  exact ⟨k, rfl, h k hx hk⟩

mutual

theorem source_ofB {K K' : String → Prop} : (b : Block A) → b.Source K → (∀ k, b.Uses k → K k → K' k) → b.Source K'
  | .nil, _, _ => trivial
  | .cons s b, hs, h => ⟨source_ofS s hs.1 fun k hk => h k (.inl hk), source_ofB b hs.2 fun k hk => h k (.inr hk)⟩

theorem source_ofS {K K' : String → Prop} : (s : Stmt A) → s.Source K → (∀ k, s.Uses k → K k → K' k) → s.Source K'
  | .work _ _, hs, h => args_of hs h
  | .ite _ _ thn els, hs, h => ⟨args_of hs.1 fun k hk => h k (.inl hk), source_ofB thn hs.2.1 fun k hk => h k (.inr (.inl hk)),
      source_ofE els hs.2.2 fun k hk => h k (.inr (.inr hk))⟩
  | .loop _ _ body, hs, h => ⟨args_of hs.1 fun k hk => h k (.inl hk), source_ofB body hs.2 fun k hk => h k (.inr hk)⟩
  | .quant _, hs, _ => hs.elim

theorem source_ofE {K K' : String → Prop} : (e : Els A) → e.Source K → (∀ k, e.Uses k → K k → K' k) → e.Source K'
  | .none, _, _ => trivial
  | .els b, hs, h => source_ofB b hs h
  | .elif _ _ _ _, hs, _ => hs.elim

end

mutual

theorem only_allB {ι : Type} {p : ι → A → Prop} : (b : Block A) → (∀ i, b.Only (p i)) → b.Only fun a => ∀ i, p i a
  | .nil, _ => trivial
  | .cons s b, h => ⟨only_allS s fun i => (h i).1, only_allB b fun i => (h i).2⟩

theorem only_allS {ι : Type} {p : ι → A → Prop} : (s : Stmt A) → (∀ i, s.Only (p i)) → s.Only fun a => ∀ i, p i a
  | .work _ _, h => h
  | .ite _ _ thn els, h => ⟨fun i => (h i).1, only_allB thn fun i => (h i).2.1, only_allE els fun i => (h i).2.2⟩
  | .loop _ _ body, h => ⟨fun i => (h i).1, only_allB body fun i => (h i).2⟩
  | .quant _, _ => trivial

theorem only_allE {ι : Type} {p : ι → A → Prop} : (e : Els A) → (∀ i, e.Only (p i)) → e.Only fun a => ∀ i, p i a
  | .none, _ => trivial
  | .els b, h => only_allB b h
  | .elif _ _ thn els, h => ⟨fun i => (h i).1, only_allB thn fun i => (h i).2.1, only_allE els fun i => (h i).2.2⟩

end

theorem fixed_settled {chg : A → Prop} {av : Prop} {k : String} : (b : Block A) → Fixed chg av k b → Settled chg av k b
  | .nil, _ => trivial
  | .cons _ b, h => ⟨fun _ => h, fun _ => fixed_settled b h.2.2⟩

theorem settled_tail {chg : A → Prop} {av : Prop} {k : String} {s : Stmt A} {b : Block A} (h : Settled chg av k (.cons s b)) : Settled chg av k b := by
  by_cases hu : s.Uses k
  · exact fixed_settled b (h.1 hu).2.2
  · exact h.2 hu

/-! ### The body of a function -/

section Top

variable {K : String → Prop} {P : State V H → Prop} {sem : Sem A V I H} {syn : Syn A} {chg : A → String → Prop}

/-- The variable has the quantization of the current value. -/
def Current (sem : Sem A V I H) (σ σ' : State V H) (k : String) : Prop := ∃ v, sem.eval k σ = some v ∧ σ'.vars (exprToIdent k) = some (sem.quantizer k v)

theorem quants_top (hinj : ∀ k k', K k → K k' → exprToIdent k = exprToIdent k' → k = k') (hu : Unused (Targets syn K) sem) (ks : List String)
    (hks : ∀ k ∈ ks, K k ∧ syn.inlined k = false) (b : Block A) {σ σ' : State V H} (h : Agree (Targets syn K) σ σ') :
    (execB sem (quants ks b) σ' = Option.none ∧ ∃ k ∈ ks, sem.eval k σ = Option.none) ∨
    ∃ τ', execB sem (quants ks b) σ' = execB sem b τ' ∧ Agree (Targets syn K) σ τ' ∧ (∀ k ∈ ks, Current sem σ τ' k) ∧
      ∀ k, K k → syn.inlined k = false → Current sem σ σ' k → Current sem σ τ' k := by
  induction ks generalizing σ' with
  | nil => exact .inr ⟨σ', rfl, h, by simp, fun _ _ _ h => h⟩
  | cons k ks ih =>
    obtain ⟨hk, hi⟩ := hks k (List.mem_cons_self ..)
    have hev : sem.eval k σ = sem.eval k σ' := hu.eval k σ σ' h
    cases hv : sem.eval k σ with
    | none =>
      refine .inl ⟨?_, k, List.mem_cons_self .., hv⟩
      rw [hv] at hev
      simp [quants, execB, execS, ← hev]
    | some v =>
      rw [hv] at hev
      have h1 : Agree (Targets syn K) σ (σ'.set (exprToIdent k) (sem.quantizer k v)) := by
        refine ⟨h.1, fun n hn => ?_⟩
        have : n ≠ exprToIdent k := fun e => hn ⟨k, hk, hi, e.symm⟩
        simp only [State.set, if_neg this]
        exact h.2 n hn
      have hstep : execB sem (quants (k :: ks) b) σ' = execB sem (quants ks b) (σ'.set (exprToIdent k) (sem.quantizer k v)) := by
        simp [quants, execB, execS, ← hev]
      have hkeep : ∀ k', K k' → syn.inlined k' = false → Current sem σ σ' k' → Current sem σ (σ'.set (exprToIdent k) (sem.quantizer k v)) k' := by
        rintro k' hk' hi' ⟨v', hv', hd⟩
        refine ⟨v', hv', ?_⟩
        simp only [State.set]
        by_cases he : exprToIdent k' = exprToIdent k
        · rw [if_pos he]
          have := hinj k' k hk' hk he
          subst this
          rw [hv] at hv'
          cases hv'
          rfl
        · rw [if_neg he, hd]
      rw [hstep]
      rcases ih (fun k hk => hks k (List.mem_cons_of_mem _ hk)) h1 with ⟨h2, k', hk', h3⟩ | ⟨τ', h2, h3, h4, h5⟩
      · exact .inl ⟨h2, k', List.mem_cons_of_mem _ hk', h3⟩
      · refine .inr ⟨τ', h2, h3, ?_, fun k' hk' hi' hd => h5 k' hk' hi' (hkeep k' hk' hi' hd)⟩
        intro k' hk'
        rcases List.mem_cons.1 hk' with rfl | hk'
        · exact h5 _ hk hi ⟨v, hv, by simp [State.set]⟩
        · exact h4 k' hk'

theorem args_top (hu : Unused (Targets syn K) sem) {args : List Arg} (ha : ∀ x ∈ args, ∃ k, x = .raw k ∧ K k) {σ σ' : State V H}
    (h : Agree (Targets syn K) σ σ') (hd : ∀ k ∈ keysA args, syn.inlined k = false → Current sem σ σ' k) :
    (args.map (replace syn)).mapM (arg sem σ') = (args.map Arg.inPlace).mapM (arg sem σ) := by
  induction args with
  | nil => rfl
  | cons x args ih =>
    obtain ⟨k, rfl, hk⟩ := ha x (List.mem_cons_self ..)
    rw [List.map_cons, List.map_cons, List.mapM_cons, List.mapM_cons, ih (fun x hx => ha x (List.mem_cons_of_mem _ hx))
      (fun k hk => hd k (mem_keysA.2 (List.mem_cons_of_mem _ (mem_keysA.1 hk))))]
    have he : arg sem σ' (replace syn (.raw k)) = arg sem σ (Arg.inPlace (.raw k)) := by
      simp only [replace, Arg.inPlace]
      cases hi : syn.inlined k with
      | true =>
        simp only [if_true, arg]
        rw [hu.eval k σ σ' h]
      | false =>
        simp only [Bool.false_eq_true, if_false, arg]
        obtain ⟨v, hv, hd⟩ := hd k (mem_keysA.2 (List.mem_cons_self ..)) hi
        rw [hd, hv]
        rfl
    rw [he]

theorem args_none {args : List Arg} {k : String} (hk : .raw k ∈ args) {σ : State V H} (h : sem.eval k σ = Option.none) :
    (args.map Arg.inPlace).mapM (arg sem σ) = Option.none := by
  induction args with
  | nil => simp at hk
  | cons x args ih =>
    rw [List.map_cons, List.mapM_cons]
    rcases List.mem_cons.1 hk with rfl | hk
    · simp [Arg.inPlace, arg, h]
    · rw [ih hk]
      cases arg sem σ x.inPlace <;> rfl

theorem current_kept {X : Type} {f : State V H → Option (X × State V H)} (hf : Ignores (Targets syn K) f) {σ σ' τ τ' : State V H}
    {x' : X} (h' : f σ' = some (x', τ')) {k : String} (hk : K k) (hi : syn.inlined k = false)
    (he : sem.eval k τ = sem.eval k σ) (hc : Current sem σ σ' k) : Current sem τ τ' k := by
  obtain ⟨v, hv, hd⟩ := hc
  exact ⟨v, by rw [he, hv], by rw [hf.2 σ' x' τ' h' _ ⟨k, hk, hi, rfl⟩, hd]⟩

/-- One compound statement. -/
theorem compound_exec (hinj : ∀ k k', K k → K k' → exprToIdent k = exprToIdent k' → k = k') (hu : Unused (Targets syn K) sem) (hP : Invariant P sem)
    (he : Effects chg sem) (c : List String) (s : Stmt A) (hsrc : s.Source K) (hc : ∀ l ∈ childS s, ∀ k ∈ c, k ∈ l) {σ σ' : State V H}
    (h : Agree (Targets syn K) σ σ') (hPσ : P σ) (hfix : ∀ k, K k → s.Uses k → (s.Only fun a => ¬ chg a k) ∧ sem.eval k σ ≠ Option.none)
    (hreq : ∀ k, k ∈ ownS s ∨ childS s ≠ [] ∧ k ∈ c → syn.inlined k = false → Current sem σ σ' k) :
    (execS sem s.inPlace σ = Option.none ∧ execS sem (trS syn c s) σ' = Option.none) ∨
    ∃ x τ τ', execS sem s.inPlace σ = some (x, τ) ∧ execS sem (trS syn c s) σ' = some (x, τ') ∧ Agree (Targets syn K) τ τ' ∧ P τ ∧
      ∀ k, K k → syn.inlined k = false → (s.Only fun a => ¬ chg a k) → Current sem σ σ' k → Current sem τ τ' k := by
  let K' : String → Prop := fun k => K k ∧ (s.Only fun a => ¬ chg a k) ∧ sem.eval k σ ≠ Option.none
  let L : A → Prop := fun a => ∀ i : { k // K' k }, ¬ chg a i.1
  let P' : State V H → Prop := fun ρ => P ρ ∧ ∀ k, K' k → sem.eval k ρ = sem.eval k σ
  have hs : Setting L (Targets syn K) K' P' (fun k => sem.eval k σ) sem syn :=
    { target := fun k hk hi => ⟨k, hk.1, hi, rfl⟩
      inj := fun k k' hk hk' _ _ e => hinj k k' hk.1 hk'.1 e
      unused := hu
      const :=
        { eval := fun k ρ hk hρ => hρ.2 k hk
          value := fun k hk => Option.ne_none_iff_exists'.1 hk.2.2
          work := fun a ha vs ρ r hρ hr => ⟨hP.work a vs ρ r hρ.1 hr, fun k hk => by rw [he.work a vs ρ r k (ha ⟨k, hk⟩) hr, hρ.2 k hk]⟩
          test := fun a ha vs ρ r hρ hr => ⟨hP.test a vs ρ r hρ.1 hr, fun k hk => by rw [he.test a vs ρ r k (ha ⟨k, hk⟩) hr, hρ.2 k hk]⟩
          items := fun a ha vs ρ r hρ hr => ⟨hP.items a vs ρ r hρ.1 hr, fun k hk => by rw [he.items a vs ρ r k (ha ⟨k, hk⟩) hr, hρ.2 k hk]⟩
          bind := fun a ha i ρ r hρ hr => ⟨hP.bind a i ρ r hρ.1 hr, fun k hk => by rw [he.bind a i ρ r k (ha ⟨k, hk⟩) hr, hρ.2 k hk]⟩ } }
  have hsrc' : s.Source K' := source_ofS s hsrc fun k hk hk' => ⟨hk', hfix k hk' hk⟩
  have hL : s.Only L := only_allS s fun i => i.2.2.1
  rcases good_cases (stmt_exec hs c s hsrc' hL hc σ σ' ⟨h, hPσ, fun k _ => rfl⟩ hreq) with ⟨h1, h2⟩ | ⟨x, τ, τ', h1, h2, h3, h4⟩
  · exact .inl ⟨h1, h2⟩
  · refine .inr ⟨x, τ, τ', h1, h2, h3.agree, h3.inv.1, fun k hk hi ho hd => ?_⟩
    have hk' : K' k := ⟨hk, ho, by obtain ⟨v, hv, -⟩ := hd; simp [hv]⟩
    obtain ⟨v, hv, hd'⟩ := h4 k hk' hi hd
    exact ⟨v, (h3.inv.2 k hk').trans hv, hd'⟩

theorem own_usesB {k : String} : (b : Block A) → k ∈ ownB b → b.Uses k
  | .nil, h => by simp [ownB] at h
  | .cons s b, h => by
    simp only [ownB, List.mem_append] at h
    exact h.imp (own_usesS s) (own_usesB b)
where own_usesS {k : String} : (s : Stmt A) → k ∈ ownS s → s.Uses k
  | .work _ _, h => mem_keysA.1 h
  | .ite _ _ _ _, h => .inl (mem_keysA.1 h)
  | .loop _ _ body, h => by
    simp only [ownS, List.mem_append] at h
    exact h.imp mem_keysA.1 (own_usesB body)
  | .quant _, h => by simp [ownS] at h

/-- A block of the function's own scope. -/
theorem top_exec (hinj : ∀ k k', K k → K k' → exprToIdent k = exprToIdent k' → k = k') (hf : Fresh syn K) (hu : Unused (Targets syn K) sem) (hP : Invariant P sem)
    (he : Effects chg sem) (c : List String) : (b : Block A) → b.Source K → (∀ l ∈ childB b, ∀ k ∈ c, k ∈ l) →
    (∀ k, K k → Settled (chg · k) (∀ σ, P σ → sem.eval k σ ≠ Option.none) k b) → (ks : List String) →
    (∀ k ∈ ks, (K k ∧ syn.inlined k = false) ∧ (k ∈ ownB b ∨ childB b ≠ [] ∧ k ∈ c)) → ∀ σ σ', Agree (Targets syn K) σ σ' → P σ →
    (∀ k, k ∈ ownB b ∨ childB b ≠ [] ∧ k ∈ c → syn.inlined k = false →
      Current sem σ σ' k ∧ Fixed (chg · k) (∀ σ, P σ → sem.eval k σ ≠ Option.none) k b ∨ k ∈ ks) →
    Same (Targets syn K) (execB sem b.inPlace σ) (execB sem (insertAll syn ks (trB syn c b)) σ')
  | .nil, _, _, _, ks, hks, σ, σ', h, _, _ => by
    have : ks = [] := by
      cases ks with
      | nil => rfl
      | cons k ks =>
        have := (hks k (List.mem_cons_self ..)).2
        simp [ownB, childB] at this
    subst this
    exact ⟨rfl, h⟩
  | .cons s b, hsrc, hc, hset, ks, hks, σ, σ', h, hPσ, hreq => by
    simp only [trB, insertAll]
    simp only [childB, List.mem_append] at hc
    simp only [childB, ownB, List.mem_append] at hreq hks
    let av := fun k => ∀ σ, P σ → sem.eval k σ ≠ Option.none
    have hload : ∀ k, k ∈ ownS s ∨ childS s ≠ [] ∧ k ∈ c → syn.inlined k = false → loadsS syn (exprToIdent k) (trS syn c s) = true := by
      intro k hk hi
      rcases hk with hk | ⟨hk1, hk2⟩
      · exact own_loadsS syn c hi s hk
      · exact child_loadsS syn c hi s hk1 fun l hl => hc l (.inl hl) k hk2
    have huse : ∀ k, K k → syn.inlined k = false → loadsS syn (exprToIdent k) (trS syn c s) = true → s.Uses k := fun k hk hi hl =>
      loads_usesS hf hinj hk hi c s hsrc.1 hl
    rcases quants_top hinj hu (ks.filter fun k => loadsS syn (exprToIdent k) (trS syn c s))
      (fun k hk => (hks k (List.mem_filter.1 hk).1).1) (.cons (trS syn c s) (insertAll syn (ks.filter fun k => !loadsS syn (exprToIdent k) (trS syn c s))
        (trB syn c b))) h with ⟨h1, k, hk, hev⟩ | ⟨τ', h1, h2, h3, h4⟩
    · rw [h1]
      obtain ⟨hk, hl⟩ := List.mem_filter.1 hk
      obtain ⟨⟨hK, hi⟩, -⟩ := hks k hk
      have hus := huse k hK hi hl
      have hfx := (hset k hK).1 hus
      have href : execS sem s.inPlace σ = Option.none := by
        cases s with
        | work a args =>
          simp only [Stmt.inPlace, execS]
          rw [args_none hus hev]
          rfl
        | ite a args thn els => exact absurd hev ((hfx.2.1 trivial hus).2 σ hPσ)
        | loop a args body => exact absurd hev ((hfx.2.1 trivial hus).2 σ hPσ)
        | quant k => exact hus.elim
      simp only [Block.inPlace, execB, href]
      trivial
    · rw [h1]
      have hcur : ∀ k, k ∈ ownS s ∨ childS s ≠ [] ∧ k ∈ c → syn.inlined k = false → Current sem σ τ' k := by
        intro k hk hi
        have hK := source_ownS K c s hsrc.1 (fun l hl => hc l (.inl hl)) k hk
        rcases hreq k (hk.imp .inl fun h => ⟨by simp [h.1], h.2⟩) hi with ⟨h5, -⟩ | h5
        · exact h4 k hK hi h5
        · exact h3 k (List.mem_filter.2 ⟨h5, hload k hk hi⟩)
      have hstep : (execS sem s.inPlace σ = Option.none ∧ execS sem (trS syn c s) τ' = Option.none) ∨
          ∃ x τ ρ', execS sem s.inPlace σ = some (x, τ) ∧ execS sem (trS syn c s) τ' = some (x, ρ') ∧ Agree (Targets syn K) τ ρ' ∧ P τ ∧
            ∀ k, K k → syn.inlined k = false → (s.Only fun a => ¬ chg a k) → Current sem σ τ' k → Current sem τ ρ' k := by
        have hcomp : s.Compound → (execS sem s.inPlace σ = Option.none ∧ execS sem (trS syn c s) τ' = Option.none) ∨
          ∃ x τ ρ', execS sem s.inPlace σ = some (x, τ) ∧ execS sem (trS syn c s) τ' = some (x, ρ') ∧ Agree (Targets syn K) τ ρ' ∧ P τ ∧
            ∀ k, K k → syn.inlined k = false → (s.Only fun a => ¬ chg a k) → Current sem σ τ' k → Current sem τ ρ' k := fun hcp =>
          compound_exec hinj hu hP he c s hsrc.1 (fun l hl => hc l (.inl hl)) h2 hPσ
            (fun k hK hus => ⟨(((hset k hK).1 hus).2.1 hcp hus).1, (((hset k hK).1 hus).2.1 hcp hus).2 σ hPσ⟩) hcur
        cases s with
        | ite a args thn els => exact hcomp trivial
        | loop a args body => exact hcomp trivial
        | quant k => exact hsrc.1.elim
        | work a args =>
          simp only [Stmt.inPlace, trS, execS]
          rw [args_top hu hsrc.1 h2 fun k hk hi => hcur k (.inl hk) hi]
          cases (args.map Arg.inPlace).mapM (arg sem σ) with
          | none => exact .inl ⟨rfl, rfl⟩
          | some vs =>
            simp only [Option.bind_some]
            have hsame := (hu.work a vs).1 σ τ' h2
            cases e1 : sem.work a vs σ with
            | none =>
              cases e2 : sem.work a vs τ' with
              | none => exact .inl ⟨rfl, rfl⟩
              | some r => rw [e1, e2] at hsame; exact hsame.elim
            | some r =>
              cases e2 : sem.work a vs τ' with
              | none => rw [e1, e2] at hsame; exact hsame.elim
              | some r' =>
                rw [e1, e2] at hsame
                obtain ⟨x, τ⟩ := r
                obtain ⟨x', ρ'⟩ := r'
                obtain ⟨rfl, hag⟩ := hsame
                exact .inr ⟨x, τ, ρ', rfl, rfl, hag, hP.work a vs σ _ hPσ e1, fun k hK hi ho hd =>
                  current_kept (hu.work a vs) e2 hK hi (he.work a vs σ _ k ho e1) hd⟩
      simp only [Block.inPlace, execB]
      rcases hstep with ⟨e1, e2⟩ | ⟨x, τ, ρ', e1, e2, e3, e4, e5⟩
      · rw [e1, e2]; trivial
      · rw [e1, e2]
        simp only [Option.bind_some]
        cases x with
        | cont => exact ⟨rfl, e3⟩
        | brk => exact ⟨rfl, e3⟩
        | ret => exact ⟨rfl, e3⟩
        | next =>
          refine top_exec hinj hf hu hP he c b hsrc.2 (fun l hl => hc l (.inr hl)) (fun k hK => settled_tail (hset k hK)) _ ?_ τ ρ' e3 e4 ?_
          · intro k hk
            obtain ⟨hk, hl⟩ := List.mem_filter.1 hk
            obtain ⟨⟨hK, hi⟩, hr⟩ := hks k hk
            have hn : ¬ (k ∈ ownS s ∨ childS s ≠ [] ∧ k ∈ c) := fun h => by simp [hload k h hi] at hl
            refine ⟨⟨hK, hi⟩, ?_⟩
            rcases hr with (hr | hr) | ⟨hr1, hr2⟩
            · exact absurd (.inl hr) hn
            · exact .inl hr
            · refine .inr ⟨fun hb => hn (.inr ⟨fun hs => hr1 (by simp [hs, hb]), hr2⟩), hr2⟩
          · intro k hk hi
            have hK := source_ownB K c b hsrc.2 (fun l hl => hc l (.inr hl)) k hk
            have hbu : b.Uses k := by
              rcases hk with hk | ⟨hk1, hk2⟩
              · exact own_usesB b hk
              · exact loads_usesB hf hinj hK hi c b hsrc.2 (child_loadsB syn c hi b hk1 fun l hl => hc l (.inr hl) k hk2)
            have hgo : Current sem σ τ' k → Fixed (chg · k) (av k) k (.cons s b) → Current sem τ ρ' k ∧ Fixed (chg · k) (av k) k b := fun h1 h2 =>
              ⟨e5 k hK hi (h2.1 hbu) h1, h2.2.2⟩
            rcases hreq k (hk.imp .inr fun h => ⟨by simp [h.1], h.2⟩) hi with ⟨h5, h6⟩ | h5
            · exact .inl (hgo (h4 k hK hi h5) h6)
            · by_cases hl : loadsS syn (exprToIdent k) (trS syn c s) = true
              · exact .inl (hgo (h3 k (List.mem_filter.2 ⟨h5, hl⟩)) ((hset k hK).1 (huse k hK hi hl)))
              · exact .inr (List.mem_filter.2 ⟨h5, by simpa using hl⟩)

end Top

/-! ## Properties -/

/-- **C99 (partial).** Autoquant quantizes an expression such as `self.weight` or `x.T` by a statement `variable = quantizer(expression)` before its first use
and reads the variable at every use. The result is that of the program in which the expression is quantized wherever it stands: the same values, exceptions and
effects, and the same variables up to those added.

The hypotheses: the added variables are different for different expressions and are not used by the program; the value of an expression does not change between
its first and its last use (`Settled`), and where it is used inside an `if` or a `for` it has a value whether or not control gets there.

Missing: programs in which the value of an expression changes or that evaluate it only under a condition, `elif`, and expressions with the same variable; for these
it is false, see the deviations. -/
theorem hoisting_keeps_results_partial (syn : Syn A) (sem : Sem A V I H) (b : Block A) (K : String → Prop) (P : State V H → Prop) (chg : A → String → Prop)
    (hsrc : b.Source K) (hinj : ∀ k k', K k → K k' → exprToIdent k = exprToIdent k' → k = k') (hf : Fresh syn K) (hu : Unused (Targets syn K) sem)
    (hP : Invariant P sem) (he : Effects chg sem) (hset : ∀ k, K k → Settled (chg · k) (∀ σ, P σ → sem.eval k σ ≠ Option.none) k b) (σ : State V H) (hσ : P σ) :
    Same (Targets syn K) (execB sem b.inPlace σ) (execB sem (transform syn b) σ) := by
  refine top_exec hinj hf hu hP he _ b hsrc (fun l hl k hk => (mem_common.1 hk).2 l hl) hset _ (fun k hk => ?_) σ σ ⟨rfl, fun _ _ => rfl⟩ hσ fun k hk hi => ?_
  · rw [mem_statements] at hk
    refine ⟨⟨up_source K b hsrc (child_sourceB K b hsrc) k hk.1, hk.2⟩, (List.mem_append.1 hk.1).imp id fun h => ⟨(mem_common.1 h).1, h⟩⟩
  · exact .inr (mem_statements.2 ⟨List.mem_append.2 (hk.imp id And.right), hi⟩)

/-- What Python takes as an identifier: letters, digits and underscores, not empty, no digit at the beginning, and not a keyword. -/
def Identifier (n : String) : Prop :=
  n ≠ "" ∧ (∀ c ∈ n.toList, c.isAlphanum = true ∨ c = '_') ∧ (∀ c, n.toList.head? = some c → c.isDigit = false) ∧ n ∉ keywords

theorem symbols_append (a b : List Char) {c : Char} (h : c ∉ ['+', '-', '*', '/']) : symbols (a ++ c :: b) = symbols a ++ c :: symbols b := by
  simp only [List.mem_cons, List.not_mem_nil, or_false, not_or] at h
  have hc : symbols (c :: b) = c :: symbols b := by
    rw [symbols]
    · simp [h]
    · intro cs e _
      exact h.2.2.2 e
  fun_induction symbols a with
  | case1 cs ih => simp [symbols, ih]
  | case2 x cs hx ih =>
    rw [List.cons_append, symbols]
    · rw [ih, List.append_assoc]
    · intro cs' e1 e2
      cases cs with
      | nil =>
        simp only [List.nil_append, List.cons.injEq] at e2
        exact h.2.2.2 e2.1
      | cons y cs =>
        simp only [List.cons_append, List.cons.injEq] at e2
        exact hx cs e1 (by rw [e2.1])
  | case3 => simpa using hc

theorem collapse_mem {cs : List Char} {c : Char} (h : c ∈ collapse cs) : c ∈ cs := by
  fun_induction collapse cs with
  | case1 cs ih => exact List.mem_cons_of_mem _ (ih h)
  | case2 x cs _ ih =>
    rcases List.mem_cons.1 h with rfl | h
    · exact List.mem_cons_self ..
    · exact List.mem_cons_of_mem _ (ih h)
  | case3 => exact h

theorem mem_collapse {cs : List Char} {c : Char} (h : c ∈ cs) : c ∈ collapse cs := by
  fun_induction collapse cs with
  | case1 cs ih =>
    rcases List.mem_cons.1 h with rfl | h
    · exact ih (List.mem_cons_self ..)
    · exact ih h
  | case2 x cs _ ih =>
    rcases List.mem_cons.1 h with rfl | h
    · exact List.mem_cons_self ..
    · exact List.mem_cons_of_mem _ (ih h)
  | case3 => exact h

theorem mem_symbols {cs : List Char} {c : Char} (h : c ∈ cs) (hc : c.isAlphanum = true) : c ∈ symbols cs := by
  fun_induction symbols cs with
  | case1 cs ih =>
    rcases List.mem_cons.1 h with rfl | h
    · exact absurd hc (by decide)
    rcases List.mem_cons.1 h with rfl | h
    · exact absurd hc (by decide)
    · exact List.mem_append.2 (.inr (ih h))
  | case2 x cs _ ih =>
    rcases List.mem_cons.1 h with rfl | h
    · refine List.mem_append.2 (.inl ?_)
      have h1 : c ≠ '+' := fun e => by subst e; exact absurd hc (by decide)
      have h2 : c ≠ '-' := fun e => by subst e; exact absurd hc (by decide)
      have h3 : c ≠ '*' := fun e => by subst e; exact absurd hc (by decide)
      have h4 : c ≠ '/' := fun e => by subst e; exact absurd hc (by decide)
      simp [h1, h2, h3, h4]
    · exact List.mem_append.2 (.inr (ih h))
  | case3 => exact h

theorem mem_strip {cs : List Char} {c : Char} (h : c ∈ cs) (hc : c ≠ '_') : c ∈ (cs.reverse.dropWhile (· = '_')).reverse := by
  rw [List.mem_reverse]
  have hr : c ∈ cs.reverse := List.mem_reverse.2 h
  generalize cs.reverse = l at hr
  induction l with
  | nil => simp at hr
  | cons x l ih =>
    rw [List.dropWhile_cons]
    split
    · rcases List.mem_cons.1 hr with rfl | hr
      · rename_i hx
        exact absurd (by simpa using hx) hc
      · exact ih hr
    · exact hr

theorem strip_mem {cs : List Char} {c : Char} (h : c ∈ (cs.reverse.dropWhile (· = '_')).reverse) : c ∈ cs := by
  rw [List.mem_reverse] at h
  exact List.mem_reverse.1 ((List.dropWhile_sublist _).mem h)

/-- **C99 (partial).** The variable for an expression is an identifier, and has the letters and digits of its code. Missing: code without letters and
digits, for which there is an assertion. -/
theorem variable_is_identifier_partial (code : String) (h : ∃ c ∈ code.toList, c.isAlphanum = true) :
    Identifier (exprToIdent code) ∧ ∀ c ∈ code.toList, c.isAlphanum = true → c ∈ (exprToIdent code).toList := by
  have hin : ∀ c ∈ code.toList, c.isAlphanum = true → c ∈ ((collapse ((symbols code.toList).map plain)).reverse.dropWhile (· = '_')).reverse := by
    intro c hc ha
    refine mem_strip (mem_collapse (List.mem_map.2 ⟨c, mem_symbols hc ha, by simp [plain, ha]⟩)) fun e => ?_
    subst e
    exact absurd ha (by decide)
  have hch : ∀ c ∈ ((collapse ((symbols code.toList).map plain)).reverse.dropWhile (· = '_')).reverse, c.isAlphanum = true ∨ c = '_' := by
    intro c hc
    obtain ⟨x, -, rfl⟩ := List.mem_map.1 (collapse_mem (strip_mem hc))
    unfold plain
    split
    · exact .inl ‹_›
    · exact .inr rfl
  unfold exprToIdent
  simp only
  generalize ((collapse ((symbols code.toList).map plain)).reverse.dropWhile (· = '_')).reverse = cs at hin hch
  obtain ⟨c0, hc0, ha0⟩ := h
  have hne : cs ≠ [] := fun e => by simpa [e] using hin c0 hc0 ha0
  split
  · rename_i hd
    refine ⟨⟨fun e => ?_, ?_, ?_, ?_⟩, fun c hc ha => ?_⟩
    · have := congrArg String.toList e
      simp at this
    · intro c hc
      rw [String.toList_ofList] at hc
      rcases List.mem_cons.1 hc with rfl | hc
      · exact .inr rfl
      · exact hch c hc
    · intro c hc
      rw [String.toList_ofList] at hc
      simp only [List.head?_cons, Option.some.injEq] at hc
      subst hc
      decide
    · intro hk
      have : ∀ n ∈ keywords, n.toList.head? ≠ some '_' := by decide
      exact this _ hk (by simp)
    · rw [String.toList_ofList]
      exact List.mem_cons_of_mem _ (hin c hc ha)
  · rename_i hd
    rw [not_or] at hd
    refine ⟨⟨fun e => ?_, ?_, ?_, hd.2⟩, fun c hc ha => ?_⟩
    · have := congrArg String.toList e
      simp [hne] at this
    · intro c hc
      rw [String.toList_ofList] at hc
      exact hch c hc
    · intro c hc
      rw [String.toList_ofList] at hc
      have := hd.1
      rw [hc] at this
      simpa using this
    · rw [String.toList_ofList]
      exact hin c hc ha

theorem symbols_split (a b : List Char) (h : a.getLast? ≠ some '/' ∨ b.head? ≠ some '/') : symbols (a ++ b) = symbols a ++ symbols b := by
  have h0 : symbols [] = [] := by rw [symbols]
  fun_induction symbols a with
  | case1 cs ih =>
    rw [List.cons_append, List.cons_append, symbols, List.append_assoc]
    refine congrArg _ ?_
    cases cs with
    | nil => rw [h0, List.nil_append, List.nil_append]
    | cons y cs => exact ih (by rwa [List.getLast?_cons_cons, List.getLast?_cons_cons] at h)
  | case2 x cs hx ih =>
    rw [List.cons_append, symbols, List.append_assoc]
    · refine congrArg _ ?_
      cases cs with
      | nil => rw [h0, List.nil_append, List.nil_append]
      | cons y cs => exact ih (by rwa [List.getLast?_cons_cons] at h)
    · intro cs' e1 e2
      cases cs with
      | nil =>
        rw [List.nil_append] at e2
        rw [e1, e2] at h
        rcases h with h | h <;> exact h rfl
      | cons y cs =>
        rw [List.cons_append, List.cons.injEq] at e2
        exact hx cs e1 (by rw [e2.1])
  | case3 => rw [List.nil_append, List.nil_append]

/-- The words for the symbols of arithmetic. -/
def words : List (List Char × String) := [(['+'], "_plus_"), (['-'], "_minus_"), (['*'], "_mul_"), (['/'], "_div_"), (['/', '/'], "_div_")]

/-- **C99 (partial).** Arithmetic in an expression is spelled out in its variable: each symbol counts as its word, so that expressions that differ in a symbol do
not have the same variable merely because symbols are no letters. Missing: other characters (`same_variable`). -/
theorem symbols_spelled_out_partial (a b : List Char) {w : List Char × String} (hw : w ∈ words) (ha : a.getLast? ≠ some '/') (hb : b.head? ≠ some '/') :
    exprToIdent (String.ofList (a ++ w.1 ++ b)) = exprToIdent (String.ofList (a ++ w.2.toList ++ b)) := by
  unfold exprToIdent
  simp only [String.toList_ofList]
  rw [symbols_split (a ++ w.1) b (.inr hb), symbols_split a w.1 (.inl ha), symbols_split (a ++ w.2.toList) b (.inr hb), symbols_split a w.2.toList (.inl ha)]
  have : symbols w.1 = symbols w.2.toList := by
    simp only [words, List.mem_cons, List.not_mem_nil, or_false] at hw
    rcases hw with rfl | rfl | rfl | rfl | rfl <;> decide +kernel
  rw [this]

/-! ## Deviations -/

/-- A block of given statements. -/
def Block.of : List (Stmt A) → Block A
  | [] => .nil
  | s :: ss => .cons s (Block.of ss)

/-- **C99, deviation.** Two expressions whose code differs only in characters other than letters, digits and `+`, `-`, `*`, `/` have the same variable, such as
`w.a_b` and `w.a.b`. -/
theorem same_variable (a b : List Char) {c d : Char} (hc : c ∉ ['+', '-', '*', '/']) (hd : d ∉ ['+', '-', '*', '/']) (hc' : c.isAlphanum = false)
    (hd' : d.isAlphanum = false) : exprToIdent (String.ofList (a ++ c :: b)) = exprToIdent (String.ofList (a ++ d :: b)) := by
  unfold exprToIdent
  simp only [String.toList_ofList, symbols_append a b hc, symbols_append a b hd, List.map_append, List.map_cons]
  have : plain c = plain d := by simp [plain, hc', hd']
  rw [this]

/-- **C99, deviation.** If two operands of a statement are expressions with the same variable, the statement gets the same value for both, whatever their
values and quantizers are. -/
theorem variables_confused (syn : Syn A) (sem : Sem A V I H) (w : A) {k k' : String} (hne : k ≠ k') (heq : exprToIdent k = exprToIdent k')
    (hi : syn.inlined k = false) (hi' : syn.inlined k' = false) (σ : State V H) (r : Flow × State V H)
    (h : execB sem (transform syn (.of [.work w [.raw k, .raw k']])) σ = some r) : ∃ v τ, sem.work w [v, v] τ = some r := by
  have ht : transform syn (.of [.work w [.raw k, .raw k']] : Block A) = .of [.quant k, .quant k', .work w [.var (exprToIdent k'), .var (exprToIdent k')]] := by
    have hb : (k' == k) = false := by simpa using hne.symm
    simp [transform, Block.of, up, ownB, ownS, childB, childS, common, keysA, statements, List.eraseDups_cons, hb, hi, hi', insertSorted, heq, trB, trS, replace,
      insertAll, loadsS, Syn.argNames, quants, String.lt_irrefl]
  rw [ht] at h
  simp only [Block.of, execB, execS] at h
  cases h1 : sem.eval k σ with
  | none => simp [h1] at h
  | some v =>
    simp only [h1, Option.map_some, Option.bind_some] at h
    cases h2 : sem.eval k' (σ.set (exprToIdent k) (sem.quantizer k v)) with
    | none => simp [h2] at h
    | some v' =>
      simp only [h2, Option.map_some, Option.bind_some] at h
      generalize hτ : ((σ.set (exprToIdent k) (sem.quantizer k v)).set (exprToIdent k') (sem.quantizer k' v')) = τ at h
      have hv : τ.vars (exprToIdent k') = some (sem.quantizer k' v') := by rw [← hτ]; simp [State.set]
      have hm : [Arg.var (exprToIdent k'), Arg.var (exprToIdent k')].mapM (arg sem τ) = some [sem.quantizer k' v', sem.quantizer k' v'] := by
        simp [arg, hv]
      rw [hm] at h
      simp only [Option.bind_some] at h
      refine ⟨sem.quantizer k' v', τ, ?_⟩
      cases h3 : sem.work w [sem.quantizer k' v', sem.quantizer k' v'] τ with
      | none => simp [h3] at h
      | some q =>
        obtain ⟨x, ρ⟩ := q
        rw [h3] at h
        cases x <;> exact h

/-- **C99, deviation.** A variable of the program that has the name of an added one is overwritten: after `y = f(x.T)`, the variable `x_T` is the quantized
expression, whatever it was before. -/
theorem variable_overwritten (syn : Syn A) (sem : Sem A V I H) (w : A) {k : String} (hi : syn.inlined k = false) (σ : State V H) {v : V} (hv : sem.eval k σ = some v)
    (hw : ∀ vs σ r, sem.work w vs σ = some r → r.2.vars (exprToIdent k) = σ.vars (exprToIdent k)) :
    (∀ r, execB sem (Block.of [.work w [.raw k]]).inPlace σ = some r → r.2.vars (exprToIdent k) = σ.vars (exprToIdent k)) ∧
    ∀ r, execB sem (transform syn (.of [.work w [.raw k]])) σ = some r → r.2.vars (exprToIdent k) = some (sem.quantizer k v) := by
  have ht : transform syn (.of [.work w [.raw k]] : Block A) = .of [.quant k, .work w [.var (exprToIdent k)]] := by
    simp [transform, Block.of, up, ownB, ownS, childB, childS, common, keysA, statements, List.eraseDups_cons, hi, insertSorted, trB, trS, replace,
      insertAll, loadsS, Syn.argNames, quants]
  have hx : ∀ (r : Option (Flow × State V H)), (r.bind fun r => match r.1 with
      | .next => execB sem .nil r.2
      | f => some (f, r.2)) = r := by
    intro r
    match r with
    | Option.none => rfl
    | some (x, τ) => cases x <;> rfl
  constructor
  · intro r h
    simp only [Block.of, Block.inPlace, Stmt.inPlace, execB, execS] at h
    rw [show List.mapM (arg sem σ) (List.map Arg.inPlace [Arg.raw k]) = some [sem.quantizer k v] by simp [Arg.inPlace, arg, hv]] at h
    rw [Option.bind_some] at h
    exact hw _ _ _ ((hx _).symm.trans h)
  · intro r h
    rw [ht] at h
    simp only [Block.of, execB, execS, hv, Option.map_some, Option.bind_some] at h
    rw [show List.mapM (arg sem (σ.set (exprToIdent k) (sem.quantizer k v))) [Arg.var (exprToIdent k)] = some [sem.quantizer k v] by simp [arg, State.set]] at h
    rw [Option.bind_some] at h
    rw [hw _ _ _ ((hx _).symm.trans h)]
    simp [State.set]

/-- **C99, deviation.** An expression in an `if` without `else` is evaluated before it. If that raises, the program does, though it does not get there: as in
`if x is not None: y = f(x.T)`. -/
theorem evaluated_without_need (syn : Syn A) (sem : Sem A V I H) (a w : A) {k : String} (hi : syn.inlined k = false) (σ : State V H)
    (hv : sem.eval k σ = Option.none) (ht : sem.test a [] σ = some (false, σ)) :
    execB sem (Block.of [.ite a [] (.of [.work w [.raw k]]) .none]).inPlace σ = some (.next, σ) ∧
    execB sem (transform syn (.of [.ite a [] (.of [.work w [.raw k]]) .none])) σ = Option.none := by
  have h : transform syn (.of [.ite a [] (.of [.work w [.raw k]]) .none] : Block A) =
      .of [.quant k, .ite a [] (.of [.work w [.var (exprToIdent k)]]) .none] := by
    simp [transform, Block.of, up, ownB, ownS, childB, childS, childE, common, keysA, statements, List.eraseDups_cons, hi, insertSorted, trB, trS, trE, replace,
      insertAll, loadsS, loadsB, Syn.argNames, quants]
  constructor
  · simp [Block.of, Block.inPlace, Stmt.inPlace, Els.inPlace, execB, execS, execE, ht]
  · rw [h]
    simp [Block.of, execB, execS, hv]

/-- **C99, deviation.** The same for `for`: with nothing to iterate over, or if the value is defined in its body only. -/
theorem evaluated_before_loop (syn : Syn A) (sem : Sem A V I H) (a w : A) {k : String} (hi : syn.inlined k = false) (σ : State V H)
    (hv : sem.eval k σ = Option.none) (ht : sem.items a [] σ = some ([], σ)) :
    execB sem (Block.of [.loop a [] (.of [.work w [.raw k]])]).inPlace σ = some (.next, σ) ∧
    execB sem (transform syn (.of [.loop a [] (.of [.work w [.raw k]])])) σ = Option.none := by
  have h : transform syn (.of [.loop a [] (.of [.work w [.raw k]])] : Block A) =
      .of [.quant k, .loop a [] (.of [.work w [.var (exprToIdent k)]])] := by
    simp [transform, Block.of, up, ownB, ownS, childB, childS, common, keysA, statements, List.eraseDups_cons, hi, insertSorted, trB, trS, replace,
      insertAll, loadsS, loadsB, Syn.argNames, quants]
  constructor
  · simp [Block.of, Block.inPlace, Stmt.inPlace, execB, execS, ht, iter]
  · rw [h]
    simp [Block.of, execB, execS, hv]

/-- **C99, deviation.** An expression in all branches after the first is quantized in the second only. In `if a: f() elif b: g(x.T) else: h(x.T)`, `h` is called
with a variable that has not been assigned. -/
theorem elif_without_variable (syn : Syn A) (sem : Sem A V I H) (a b f g h : A) {k : String} (hi : syn.inlined k = false) (σ : State V H)
    (ha : sem.test a [] σ = some (false, σ)) (hb : sem.test b [] σ = some (false, σ)) {v : V} (hv : sem.eval k σ = some v)
    (hn : σ.vars (exprToIdent k) = Option.none) :
    let p : Block A := .of [.ite a [] (.of [.work f []]) (.elif b [] (.of [.work g [.raw k]]) (.els (.of [.work h [.raw k]])))]
    execB sem p.inPlace σ = sem.work h [sem.quantizer k v] σ ∧ execB sem (transform syn p) σ = Option.none := by
  intro p
  have ht : transform syn p = .of [.ite a [] (.of [.work f []])
      (.elif b [] (.of [.quant k, .work g [.var (exprToIdent k)]]) (.els (.of [.work h [.var (exprToIdent k)]])))] := by
    simp [p, transform, Block.of, up, ownB, ownS, childB, childS, childE, common, keysA, statements, List.eraseDups_cons, hi, insertSorted, trB, trS, trE, replace,
      insertAll, loadsS, Syn.argNames, quants]
  have hx : ∀ (r : Option (Flow × State V H)), (r.bind fun r => match r.1 with
      | .next => some (.next, r.2)
      | f => some (f, r.2)) = r := by
    intro r
    match r with
    | Option.none => rfl
    | some (x, τ) => cases x <;> rfl
  constructor
  · simp only [p, Block.of, Block.inPlace, Stmt.inPlace, Els.inPlace, execB, execS, execE, List.map_nil, List.mapM_nil]
    simp only [pure, Option.bind_some, ha, hb, Bool.false_eq_true, if_false]
    rw [show List.mapM (arg sem σ) (List.map Arg.inPlace [Arg.raw k]) = some [sem.quantizer k v] by simp [Arg.inPlace, arg, hv]]
    rw [Option.bind_some, hx, hx]
  · rw [ht]
    simp [Block.of, execB, execS, execE, ha, hb, arg, hn]

/-- **C99, deviation.** An expression in the test of an `elif` is quantized in its body, after the test. In `if a: f() elif x.T > 0: g()`, the test reads a variable
that has not been assigned. -/
theorem elif_test_without_variable (syn : Syn A) (sem : Sem A V I H) (a b f g : A) {k : String} (hi : syn.inlined k = false) (σ : State V H)
    (ha : sem.test a [] σ = some (false, σ)) {v : V} (hv : sem.eval k σ = some v) (hb : sem.test b [sem.quantizer k v] σ = some (false, σ))
    (hn : σ.vars (exprToIdent k) = Option.none) :
    let p : Block A := .of [.ite a [] (.of [.work f []]) (.elif b [.raw k] (.of [.work g []]) .none)]
    execB sem p.inPlace σ = some (.next, σ) ∧ execB sem (transform syn p) σ = Option.none := by
  intro p
  have ht : ∃ t, transform syn p = .of [.ite a [] (.of [.work f []]) (.elif b [.var (exprToIdent k)] t .none)] := by
    refine ⟨insertAll syn [k] (.of [.work g []]), ?_⟩
    simp [p, transform, Block.of, up, ownB, ownS, childB, childS, childE, common, keysA, statements, List.eraseDups_cons, hi, insertSorted, trB, trS, trE, replace,
      insertAll, quants]
  constructor
  · simp only [p, Block.of, Block.inPlace, Stmt.inPlace, Els.inPlace, execB, execS, execE, List.map_nil, List.mapM_nil]
    simp only [pure, Option.bind_some, ha, Bool.false_eq_true, if_false]
    rw [show List.mapM (arg sem σ) (List.map Arg.inPlace [Arg.raw k]) = some [sem.quantizer k v] by simp [Arg.inPlace, arg, hv]]
    simp [hb]
  · obtain ⟨t, ht⟩ := ht
    rw [ht]
    simp [Block.of, execB, execS, execE, ha, arg, hn]

/-! ### A small language -/

/-- Statements: call a function, which is logged with its arguments, and `k = k + 1`. -/
inductive Act
  | call
  | inc
  deriving DecidableEq

/-- The value of `k` and the log. -/
structure Heap where
  k : Int
  log : List (List Int)
  deriving DecidableEq

/-- Something that does not use variables. -/
def onHeap {X : Type} (f : Heap → X × Heap) (σ : State Int Heap) : Option (X × State Int Heap) := some ((f σ.heap).1, { σ with heap := (f σ.heap).2 })

/-- `k.T` is `k` and `self.weight` is 7; quantizers multiply by 100; a test is whether `k` is positive; there are always two items. -/
def small : Sem Act Int Unit Heap where
  eval k σ := if k = "k.T" then some σ.heap.k else if k = "self.weight" then some 7 else Option.none
  quantizer _ v := v * 100
  work a vs := onHeap fun h => match a with
    | .call => (.next, { h with log := h.log ++ [vs] })
    | .inc => (.next, { h with k := h.k + 1 })
  test _ _ := onHeap fun h => (0 < h.k, h)
  items _ _ := onHeap fun h => ([(), ()], h)
  bind _ _ := onHeap fun h => ((), h)

/-- No expression is quantized in place, and statements mention no names. -/
def smallSyn : Syn Act := ⟨fun _ => [], fun k => if k = "k.T" then ["k"] else ["self"], fun _ => false⟩

theorem onHeap_ignores {X : Type} (T : String → Prop) (f : Heap → X × Heap) : Ignores T (onHeap f) := by
  refine ⟨fun σ σ' h => ?_, ?_⟩
  · simp only [onHeap, Same, h.1, true_and]
    exact ⟨rfl, h.2⟩
  · intro σ x σ1 h n _
    simp only [onHeap, Option.some.injEq, Prod.mk.injEq] at h
    rw [← h.2]

/-- The expressions of the small language. -/
def Exprs (k : String) : Prop := k = "k.T" ∨ k = "self.weight"

theorem small_unused (T : String → Prop) : Unused T small where
  eval k σ σ' h := by simp [small, h.1]
  work _ _ := by simp only [small]; exact onHeap_ignores T _
  test _ _ := by simp only [small]; exact onHeap_ignores T _
  items _ _ := by simp only [small]; exact onHeap_ignores T _
  bind _ _ := by simp only [small]; exact onHeap_ignores T _

/-- **C99, deviation.** In `f(k.T); k = k + 1; f(k.T)`, the second call gets the first value, though the value has changed. -/
theorem stale_value (σ : State Int Heap) :
    let p : Block Act := .of [.work .call [.raw "k.T"], .work .inc [], .work .call [.raw "k.T"]]
    (execB small p.inPlace σ).map (fun r => r.2.heap.log) = some (σ.heap.log ++ [[σ.heap.k * 100]] ++ [[(σ.heap.k + 1) * 100]]) ∧
    (execB small (transform smallSyn p) σ).map (fun r => r.2.heap.log) = some (σ.heap.log ++ [[σ.heap.k * 100]] ++ [[σ.heap.k * 100]]) := by
  intro p
  have ht : transform smallSyn p = .of [.quant "k.T", .work .call [.var (exprToIdent "k.T")], .work .inc [], .work .call [.var (exprToIdent "k.T")]] := by
    simp [p, smallSyn, transform, Block.of, up, ownB, ownS, childB, childS, common, keysA, statements, List.eraseDups_cons, insertSorted, trB, trS, replace,
      insertAll, loadsS, Syn.argNames, quants]
  constructor
  · simp [p, Block.of, Block.inPlace, Stmt.inPlace, Arg.inPlace, execB, execS, arg, small, onHeap]
  · rw [ht]
    simp [Block.of, execB, execS, arg, small, onHeap, State.set]

/-! ## Concrete cases -/

/-- `k = k + 1; f(k.T); if …: f(self.weight) else: f(self.weight, k.T)`, `for …: f(self.weight)`, `f(k.T); k = k + 1`. -/
def sample : Block Act := .of [.work .inc [], .work .call [.raw "k.T"],
  .ite .call [] (.of [.work .call [.raw "self.weight"]]) (.els (.of [.work .call [.raw "self.weight", .raw "k.T"]])),
  .loop .call [] (.of [.work .call [.raw "self.weight"]]), .work .call [.raw "k.T"], .work .inc []]

/-- The hypotheses of `hoisting_keeps_results_partial` hold for it. -/
example (σ : State Int Heap) : Same (Targets smallSyn Exprs) (execB small sample.inPlace σ) (execB small (transform smallSyn sample) σ) := by
  refine hoisting_keeps_results_partial smallSyn small sample Exprs (fun _ => True) (fun a k => a = .inc ∧ k = "k.T") ?_ ?_ ?_ (small_unused _) ?_ ?_ ?_ σ trivial
  · simp [sample, Block.of, Block.Source, Stmt.Source, Els.Source, Exprs]
  · rintro k k' (rfl | rfl) (rfl | rfl) h
    · rfl
    · exact absurd h (by decide +kernel)
    · exact absurd h (by decide +kernel)
    · rfl
  · have h1 : exprToIdent "k.T" = "k_T" := by decide +kernel
    have h2 : exprToIdent "self.weight" = "self_weight" := by decide +kernel
    rintro k (rfl | rfl) _
    · refine ⟨by simp [smallSyn], fun k' => ?_⟩
      rw [h1]
      simp only [smallSyn]
      split <;> decide
    · refine ⟨by simp [smallSyn], fun k' => ?_⟩
      rw [h2]
      simp only [smallSyn]
      split <;> decide
  · exact ⟨fun _ _ _ _ _ _ => trivial, fun _ _ _ _ _ _ => trivial, fun _ _ _ _ _ _ => trivial, fun _ _ _ _ _ _ => trivial⟩
  · refine ⟨?_, ?_, ?_, ?_⟩
    · intro a vs σ r k hc h
      simp only [small, onHeap, Option.some.injEq] at h
      subst h
      cases a
      · simp [small]
      · have : k ≠ "k.T" := fun e => hc ⟨rfl, e⟩
        simp [small, this]
    all_goals
      intro a vs σ r k hc h
      simp only [small, onHeap, Option.some.injEq] at h
      subst h
      simp [small]
  · rintro k (rfl | rfl) <;>
      simp [sample, Block.of, Settled, Fixed, Block.Uses, Stmt.Uses, Els.Uses, Stmt.Only, Block.Only, Els.Only, Stmt.Compound, small]

/-- What becomes of it: the statements are put before the first use, and `self.weight` is quantized once. -/
example : transform smallSyn sample = .of [.work .inc [], .quant "k.T", .work .call [.var "k_T"], .quant "self.weight",
    .ite .call [] (.of [.work .call [.var "self_weight"]]) (.els (.of [.quant "k.T", .work .call [.var "self_weight", .var "k_T"]])),
    .loop .call [] (.of [.work .call [.var "self_weight"]]), .work .call [.var "k_T"], .work .inc []] := by
  have h1 : exprToIdent "k.T" = "k_T" := by decide +kernel
  have h2 : exprToIdent "self.weight" = "self_weight" := by decide +kernel
  simp [sample, smallSyn, transform, Block.of, up, ownB, ownS, childB, childS, childE, common, keysA, statements, List.eraseDups_cons, insertSorted, trB, trS, trE, replace,
    insertAll, loadsS, loadsB, loadsE, Syn.argNames, quants, h1, h2]

example : exprToIdent "x[0]" = "x_0" ∧ exprToIdent "x[:, 0]" = "x_0" ∧ exprToIdent "self.w_q" = exprToIdent "self.w.q" ∧ exprToIdent "a // -b" = "a_div_minus_b" ∧
    exprToIdent "2 * x" = "_2_mul_x" := by decide +kernel

/-- A `break` ends the loop and only the loop; `continue` goes on with the next item; `return` ends the loop and what is around it. -/
example (bind : I → State V H → Option (Unit × State V H)) (body : State V H → Option (Flow × State V H)) (i : I) (is : List I) (σ τ ρ : State V H)
    (h : bind i σ = some ((), τ)) : (body τ = some (.brk, ρ) → iter bind body (i :: is) σ = some (.next, ρ)) ∧
      (body τ = some (.cont, ρ) → iter bind body (i :: is) σ = iter bind body is ρ) ∧
      (body τ = some (.ret, ρ) → iter bind body (i :: is) σ = some (.ret, ρ)) := by
  refine ⟨fun hb => ?_, fun hb => ?_, fun hb => ?_⟩ <;> simp [iter, h, hb]

/-- The hypotheses of the deviations hold. -/
example : ∃ k : String, small.eval k ⟨fun _ => Option.none, ⟨0, []⟩⟩ = Option.none ∧ smallSyn.inlined k = false ∧
    small.test .call [] ⟨fun _ => Option.none, ⟨0, []⟩⟩ = some (false, ⟨fun _ => Option.none, ⟨0, []⟩⟩) :=
  ⟨"x.T", by simp [small], rfl, by simp [small, onHeap]⟩

end FF.Hoist
