import Verif.Autoquant.Python

/-! # Autoquant's preprocessing passes (C85)

Model of the passes that rewrite a function before it is quantized, `default_preprocessing_passes` (`_autoquant/autoquant.py` 383-398), from
`_autoquant/cst/passes.py`. -/

namespace FF.Py

/-! ### Model -/

mutual

/-- `ConvertSemicolonJoinedStatements` (passes.py 117-163): one small statement per line. -/
def splitStmt : Stmt → List Stmt
  | .line l => l.map fun s => .line [s]
  | .cond t a b => [.cond t (splitBlock a) (splitBlock b)]
  | .loop t a => [.loop t (splitBlock a)]
  | .each x it a => [.each x it (splitBlock a)]

def splitBlock : List Stmt → List Stmt
  | [] => []
  | s :: l => splitStmt s ++ splitBlock l

end

/-- The target as an expression: `target.deep_clone()` (208). -/
def Target.load : Target → Expr
  | .name x => .name x
  | .store k l => .op (.plain k) l

/-- `ExpandAugAssign` (183-217) for a small statement. Every augmenting operator has a binary one (166-180). -/
def expandSmall : Small → Small
  | .aug o t v => .assign [t] (.op (.binary o) [t.load, v])
  | s => s

mutual

def expandStmt : Stmt → Stmt
  | .line l => .line (l.map expandSmall)
  | .cond t a b => .cond t (expandBlock a) (expandBlock b)
  | .loop t a => .loop t (expandBlock a)
  | .each x it a => .each x it (expandBlock a)

def expandBlock : List Stmt → List Stmt
  | [] => []
  | s :: l => expandStmt s :: expandBlock l

end

mutual

/-- `is_simple_literal` (`_autoquant/cst/nodes.py` 231-254). -/
def simpleLiteral : Expr → Bool
  | .lit _ => true
  | .op (.unary _) l => simpleLiterals l
  | .op (.binary _) l => simpleLiterals l
  | _ => false

def simpleLiterals : List Expr → Bool
  | [] => true
  | e :: l => simpleLiteral e && simpleLiterals l

end

/-- Which operations `MarkReplacementCandidates` marks (265-310). `bypass` is `is_bypassed_call_syntax` (`_autoquant/bypass.py` 86-95). The literals are looked
up in the node before its operands are marked; marking leaves literals alone. -/
def isCandidate (bypass : Expr → Bool) : Kind → List Expr → Bool
  | .call, .name "super" :: _ => false
  | .call, f :: _ => !bypass f
  | .call, [] => true
  | .binary _, l => !simpleLiterals l
  | .unary _, l => !simpleLiterals l
  | .plain _, _ => false

mutual

/-- `MarkReplacementCandidates` (255-310), with `p` deciding which operations are marked: `isCandidate`, or the types that mypy finds
(`ExtendedMarkReplacementCandidates`, 316-393). -/
def mark (p : Kind → List Expr → Bool) : Expr → Expr
  | .name x => .name x
  | .lit k => .lit k
  | .op k l => if p k l then .cand (.op k (markAll p l)) else .op k (markAll p l)
  | .ctrl k fixed xs l => .ctrl k fixed xs (markAll p l)
  | .cand e => .cand (mark p e)

def markAll (p : Kind → List Expr → Bool) : List Expr → List Expr
  | [] => []
  | e :: l => mark p e :: markAll p l

end

def markTarget (p : Kind → List Expr → Bool) : Target → Target
  | .name x => .name x
  | .store k l => .store k (markAll p l)

def markSmall (p : Kind → List Expr → Bool) : Small → Small
  | .assign ts v => .assign (ts.map (markTarget p)) (mark p v)
  | .aug o t v => .aug o (markTarget p t) (mark p v)
  | .expr e => .expr (mark p e)
  | .ret e => .ret (e.map (mark p))
  | .throw e => .throw (mark p e)
  | .check t m => .check (mark p t) (m.map (mark p))
  | .pass => .pass
  | .brk => .brk
  | .cont => .cont

mutual

def markStmt (p : Kind → List Expr → Bool) : Stmt → Stmt
  | .line l => .line (l.map (markSmall p))
  | .cond t a b => .cond (mark p t) (markBlock p a) (markBlock p b)
  | .loop t a => .loop (mark p t) (markBlock p a)
  | .each x it a => .each x (mark p it) (markBlock p a)

def markBlock (p : Kind → List Expr → Bool) : List Stmt → List Stmt
  | [] => []
  | s :: l => markStmt p s :: markBlock p l

end

/-- The name of a temporary (650). -/
def tmp (n : ℕ) : String := "_tmp_" ++ toString n

mutual

/-- `leave_ReplacementCandidate` (610-685) for the candidates of an expression that is in a statement line and not directly its value: a candidate becomes a
temporary, and the assignment of the temporary is added before the line, after those of the candidates in it. `inside`: within a comprehension or a
conditional expression, where candidates stay (521, 645-648). `n` is the next number. -/
def iso : Bool → Expr → ℕ → Expr × List (ℕ × Expr)
  | _, .name x, _ => (.name x, [])
  | _, .lit k, _ => (.lit k, [])
  | inside, .op k l, n => (.op k (isoAll inside l n).1, (isoAll inside l n).2)
  | inside, .ctrl k fixed xs l, n => (.ctrl k fixed xs (isoAll (inside || fixed) l n).1, (isoAll (inside || fixed) l n).2)
  | inside, .cand e, n =>
    if inside then (.cand (iso inside e n).1, (iso inside e n).2)
    else (.name (tmp (n + (iso inside e n).2.length)), (iso inside e n).2 ++ [(n + (iso inside e n).2.length, .cand (iso inside e n).1)])

def isoAll : Bool → List Expr → ℕ → List Expr × List (ℕ × Expr)
  | _, [], _ => ([], [])
  | inside, e :: l, n =>
    ((iso inside e n).1 :: (isoAll inside l (n + (iso inside e n).2.length)).1, (iso inside e n).2 ++ (isoAll inside l (n + (iso inside e n).2.length)).2)

end

/-- The same for the expression of an assignment, return, raise or expression statement: if it is a candidate it stays (624-641). -/
def isoTop (e : Expr) (n : ℕ) : Expr × List (ℕ × Expr) :=
  match e with
  | .cand e => (.cand (iso false e n).1, (iso false e n).2)
  | e => iso false e n

def isoTargets : List Target → ℕ → List Target × List (ℕ × Expr)
  | [], _ => ([], [])
  | .name x :: l, n => (.name x :: (isoTargets l n).1, (isoTargets l n).2)
  | .store k es :: l, n =>
    (.store k (isoAll false es n).1 :: (isoTargets l (n + (isoAll false es n).2.length)).1,
      (isoAll false es n).2 ++ (isoTargets l (n + (isoAll false es n).2.length)).2)

/-- A small statement. Targets are visited before values. -/
def isoSmall : Small → ℕ → Small × List (ℕ × Expr)
  | .assign ts v, n =>
    (.assign (isoTargets ts n).1 (isoTop v (n + (isoTargets ts n).2.length)).1, (isoTargets ts n).2 ++ (isoTop v (n + (isoTargets ts n).2.length)).2)
  | .aug o t v, n =>
    (.aug o ((isoTargets [t] n).1.headD t) (isoTop v (n + (isoTargets [t] n).2.length)).1,
      (isoTargets [t] n).2 ++ (isoTop v (n + (isoTargets [t] n).2.length)).2)
  | .expr e, n => (.expr (isoTop e n).1, (isoTop e n).2)
  | .ret none, _ => (.ret none, [])
  | .ret (some e), n => (.ret (some (isoTop e n).1), (isoTop e n).2)
  | .throw e, n => (.throw (isoTop e n).1, (isoTop e n).2)
  | .check t none, n => (.check (iso false t n).1 none, (iso false t n).2)
  | .check t (some m), n =>
    (.check (iso false t n).1 (some (iso false m (n + (iso false t n).2.length)).1),
      (iso false t n).2 ++ (iso false m (n + (iso false t n).2.length)).2)
  | .pass, _ => (.pass, [])
  | .brk, _ => (.brk, [])
  | .cont, _ => (.cont, [])

def isoLine : List Small → ℕ → List Small × List (ℕ × Expr)
  | [], _ => ([], [])
  | s :: l, n => ((isoSmall s n).1 :: (isoLine l (n + (isoSmall s n).2.length)).1, (isoSmall s n).2 ++ (isoLine l (n + (isoSmall s n).2.length)).2)

mutual

/-- How many numbers are used up for candidates that are not moved: the number is taken before a line to insert before is looked for (650-680). -/
def taken : Expr → ℕ
  | .op _ l => takenAll l
  | .ctrl _ fixed _ l => if fixed then 0 else takenAll l
  | .cand e => taken e + 1
  | _ => 0

def takenAll : List Expr → ℕ
  | [] => 0
  | e :: l => taken e + takenAll l

end

/-- `libcst.Assign([assign_target], updated_node)` on a line (652-654, 604-607). -/
def insertion (i : ℕ × Expr) : Stmt := .line [.assign [.name (tmp i.1)] i.2]

mutual

/-- `IsolateReplacementCandidates` (492-703). The candidates of the header of a compound statement are in no line and stay. -/
def isoStmt : Stmt → ℕ → List Stmt × ℕ
  | .line l, n => ((isoLine l n).2.map insertion ++ [.line (isoLine l n).1], n + (isoLine l n).2.length)
  | .cond t a b, n =>
    ([.cond t (isoBlock a (n + taken t)).1 (isoBlock b (isoBlock a (n + taken t)).2).1], (isoBlock b (isoBlock a (n + taken t)).2).2)
  | .loop t a, n => ([.loop t (isoBlock a (n + taken t)).1], (isoBlock a (n + taken t)).2)
  | .each x it a, n => ([.each x it (isoBlock a (n + taken it)).1], (isoBlock a (n + taken it)).2)

def isoBlock : List Stmt → ℕ → List Stmt × ℕ
  | [], n => ([], n)
  | s :: l, n => ((isoStmt s n).1 ++ (isoBlock l (isoStmt s n).2).1, (isoBlock l (isoStmt s n).2).2)

end

/-- `default_preprocessing_passes` (autoquant.py 383-398). Not modelled: `RemoveRedundantParenthesesTransformer`, since expressions are trees, and
`WrapAssignments`, which wraps an assignment without changing it. Simplification: no assignment expressions (`:=`), `yield` and `await`, unpacking targets,
annotated assignments, `else` of loops, `try`, `with`, `match`, function and class definitions. -/
def preprocess (p : Kind → List Expr → Bool) (b : List Stmt) : List Stmt := (isoBlock (markBlock p (expandBlock (splitBlock b))) 1).1

/-! ### Specification -/

/-- A name that is made up for a temporary. -/
def IsTmp (x : String) : Prop := ∃ n, x = tmp n

mutual

/-- All names in an expression. -/
def names : Expr → List String
  | .name x => [x]
  | .lit _ => []
  | .op _ l => namesAll l
  | .ctrl _ _ xs l => xs ++ namesAll l
  | .cand e => names e

def namesAll : List Expr → List String
  | [] => []
  | e :: l => names e ++ namesAll l

end

def namesTarget : Target → List String
  | .name x => [x]
  | .store _ l => namesAll l

def namesSmall : Small → List String
  | .assign ts v => ts.flatMap namesTarget ++ names v
  | .aug _ t v => namesTarget t ++ names v
  | .expr e => names e
  | .ret e => (e.map names).getD []
  | .throw e => names e
  | .check t m => names t ++ (m.map names).getD []
  | _ => []

mutual

def namesStmt : Stmt → List String
  | .line l => l.flatMap namesSmall
  | .cond t a b => names t ++ namesBlock a ++ namesBlock b
  | .loop t a => names t ++ namesBlock a
  | .each x it a => x :: names it ++ namesBlock a

def namesBlock : List Stmt → List String
  | [] => []
  | s :: l => namesStmt s ++ namesBlock l

end

mutual

/-- A candidate is moved out of the expression. -/
def Moves (p : Kind → List Expr → Bool) : Expr → Prop
  | .name _ => False
  | .lit _ => False
  | .op k l => p k l = true ∨ MovesAny p l
  | .ctrl _ fixed _ l => fixed = false ∧ MovesAny p l
  | .cand _ => True

def MovesAny (p : Kind → List Expr → Bool) : List Expr → Prop
  | [] => False
  | e :: l => Moves p e ∨ MovesAny p l

end

mutual

/-- What stays of the expression when its candidates are moved is made of names, literals and quiet operations. -/
def Settled (p : Kind → List Expr → Bool) (quiet : Kind → Prop) : Expr → Prop
  | .name _ => True
  | .lit _ => True
  | .op k l => p k l = true ∨ (quiet k ∧ SettledAll p quiet l)
  | .ctrl .. => False
  | .cand _ => True

def SettledAll (p : Kind → List Expr → Bool) (quiet : Kind → Prop) : List Expr → Prop
  | [] => True
  | e :: l => Settled p quiet e ∧ SettledAll p quiet l

end

mutual

/-- Moving candidates out of the expression is in order: what stays and came before a candidate is quiet, and no candidate is moved out of `and`, `or`, chained
comparisons and lambdas. -/
def Calm (p : Kind → List Expr → Bool) (quiet : Kind → Prop) : Expr → Prop
  | .name _ => True
  | .lit _ => True
  | .op _ l => CalmAll p quiet l
  | .ctrl _ fixed _ l => fixed = true ∨ ¬ MovesAny p l
  | .cand e => Calm p quiet e

def CalmAll (p : Kind → List Expr → Bool) (quiet : Kind → Prop) : List Expr → Prop
  | [] => True
  | e :: l => Calm p quiet e ∧ (MovesAny p l → Settled p quiet e) ∧ CalmAll p quiet l

end

/-- No candidate is moved out of a target. -/
def TargetStays (p : Kind → List Expr → Bool) : Target → Prop
  | .name _ => True
  | .store _ l => ¬ MovesAny p l

/-- An attribute or subscript that is augmented: evaluating its operands again gives the same, and reading it can be done after what is moved out of the value. -/
def AugCalm (p : Kind → List Expr → Bool) (quiet : Kind → Prop) (v : Expr) : Target → Prop
  | .name _ => True
  | .store k l => ¬ MovesAny p l ∧ SettledAll p quiet l ∧ p (.plain k) l = false ∧ (Moves p v → quiet (.plain k))

def CalmSmall (p : Kind → List Expr → Bool) (quiet : Kind → Prop) : Small → Prop
  | .assign ts v => (∀ t ∈ ts, TargetStays p t) ∧ Calm p quiet v
  | .aug _ t v => AugCalm p quiet v t ∧ Calm p quiet v
  | .expr e => Calm p quiet e
  | .ret e => ∀ e' ∈ e, Calm p quiet e'
  | .throw e => Calm p quiet e
  | .check t m => Calm p quiet t ∧ ∀ m' ∈ m, ¬ Moves p m'
  | _ => True

mutual

def CalmStmt (p : Kind → List Expr → Bool) (quiet : Kind → Prop) : Stmt → Prop
  | .line l => ∀ s ∈ l, CalmSmall p quiet s
  | .cond _ a b => CalmBlock p quiet a ∧ CalmBlock p quiet b
  | .loop _ a => CalmBlock p quiet a
  | .each _ _ a => CalmBlock p quiet a

def CalmBlock (p : Kind → List Expr → Bool) (quiet : Kind → Prop) : List Stmt → Prop
  | [] => True
  | s :: l => CalmStmt p quiet s ∧ CalmBlock p quiet l

end

variable {V W E : Type}

/-- Operations are quiet: they leave the world as it is and give the same in every later world. So do names that are not local. `Later` relates a world to
those that evaluating expressions leads to. -/
structure Stable (S : Sem V W E) (quiet : Kind → Prop) (Later : W → W → Prop) : Prop where
  refl : ∀ w, Later w w
  trans : ∀ a b c, Later a b → Later b c → Later a c
  prim : ∀ k vs w, Later w (S.prim k vs w).2
  ctrl : ∀ k ts w, (∀ t ∈ ts, ∀ vs w, Later w (t vs w).2) → Later w (S.ctrl k ts w).2
  glob : ∀ x w w' v, Later w w' → S.glob x w = .ok v → S.glob x w' = .ok v
  quiet : ∀ k, quiet k → ∀ vs w v w1, S.prim k vs w = (.ok v, w1) → w1 = w ∧ ∀ w', Later w w' → S.prim k vs w' = (.ok v, w')

/-- Quiet operations and names do not raise. -/
structure NeverRaises (S : Sem V W E) (quiet : Kind → Prop) : Prop where
  glob : ∀ x w, ∃ v, S.glob x w = .ok v
  prim : ∀ k, quiet k → ∀ vs w, ∃ v, (S.prim k vs w).1 = .ok v

/-- Augmented assignment gives the value of the binary operation, and changes no value in place. -/
def Rebinds (S : Sem V W E) : Prop := ∀ o a b w, S.aug o a b w = S.prim (.binary o) [a, b] w

end FF.Py
