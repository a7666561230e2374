import Mathlib.Data.Nat.Notation

/-! # A small Python: what a function body does

The language that autoquant's passes rewrite: expressions, statements and what they do when they run. It is the specification that the passes are proved
against (C85); no code of the repository is modelled in this file. Values `V`, worlds `W` (everything that is not a local variable) and exceptions `E` are
arbitrary, and so is what every operation does. -/

namespace FF.Py

/-- An operation that evaluates all its operands. -/
inductive Kind
  | call
  | binary (op : ℕ)
  | unary (op : ℕ)
  /-- Attribute, subscript, tuple, list, dictionary, single comparison, … -/
  | plain (k : ℕ)
  deriving DecidableEq

/-- An expression. `op` evaluates its operands from left to right. `ctrl` decides if, when and how often to evaluate its operands, in which it binds `xs`:
conditional expressions and comprehensions (`fixed`), `and`, `or`, chained comparisons and lambda (not `fixed`). `cand` marks a replacement candidate and means
what it wraps. -/
inductive Expr
  | name (x : String)
  | lit (k : ℕ)
  | op (k : Kind) (l : List Expr)
  | ctrl (k : ℕ) (fixed : Bool) (xs : List String) (l : List Expr)
  | cand (e : Expr)

/-- Where an assignment stores: a variable, or an attribute or subscript of values. -/
inductive Target
  | name (x : String)
  | store (k : ℕ) (l : List Expr)

/-- A small statement. -/
inductive Small
  | assign (targets : List Target) (value : Expr)
  | aug (o : ℕ) (target : Target) (value : Expr)
  | expr (e : Expr)
  | ret (e : Option Expr)
  | throw (e : Expr)
  | check (test : Expr) (msg : Option Expr)
  | pass
  | brk
  | cont

/-- A statement: small statements on one line, or a compound statement. -/
inductive Stmt
  | line (l : List Small)
  | cond (test : Expr) (a b : List Stmt)
  | loop (test : Expr) (body : List Stmt)
  | each (x : String) (iter : Expr) (body : List Stmt)

/-- What the operations do. -/
structure Sem (V W E : Type) where
  lit : ℕ → V
  /-- Names that are not local variables. -/
  glob : String → W → Except E V
  prim : Kind → List V → W → Except E V × W
  ctrl : ℕ → List (List V → W → Except E V × W) → W → Except E V × W
  /-- `x op= y` for values. -/
  aug : ℕ → V → V → W → Except E V × W
  store : ℕ → List V → V → W → Except E Unit × W
  truth : V → W → Except E Bool × W
  iter : V → W → Except E V × W
  next : V → W → Except E (Option V) × W
  raised : V → E
  failed : Option V → E

variable {V W E : Type}

abbrev Env (V : Type) := String → Option V

def Env.set (env : Env V) (x : String) (v : V) : Env V := fun y => if y = x then some v else env y

def Env.bind (env : Env V) : List String → List V → Env V
  | x :: xs, v :: vs => (env.set x v).bind xs vs
  | _, _ => env

mutual

/-- What an expression evaluates to, and the world after it. -/
def eval (S : Sem V W E) (env : Env V) : Expr → W → Except E V × W
  | .name x, w => ((match env x with | some v => .ok v | none => S.glob x w), w)
  | .lit k, w => (.ok (S.lit k), w)
  | .op k l, w =>
    match evalAll S env l w with
    | (.error x, w) => (.error x, w)
    | (.ok vs, w) => S.prim k vs w
  | .ctrl k _ xs l, w => S.ctrl k (thunks S env xs l) w
  | .cand e, w => eval S env e w

def evalAll (S : Sem V W E) (env : Env V) : List Expr → W → Except E (List V) × W
  | [], w => (.ok [], w)
  | e :: l, w =>
    match eval S env e w with
    | (.error x, w) => (.error x, w)
    | (.ok v, w) =>
      match evalAll S env l w with
      | (.error x, w) => (.error x, w)
      | (.ok vs, w) => (.ok (v :: vs), w)

def thunks (S : Sem V W E) (env : Env V) (xs : List String) : List Expr → List (List V → W → Except E V × W)
  | [] => []
  | e :: l => (fun vs w => eval S (env.bind xs vs) e w) :: thunks S env xs l

end

/-- How a statement ends. -/
inductive Out (V E : Type)
  | next
  | brk
  | cont
  | ret (v : Option V)
  | exc (x : E)

/-- The state after a statement. `none`: out of fuel, in a loop that runs longer. -/
abbrev Res (V W E : Type) := Option (Out V E × Env V × W)

/-- Store a value. -/
def assignTo (S : Sem V W E) (v : V) : List Target → Env V → W → Res V W E
  | [], env, w => some (.next, env, w)
  | .name x :: l, env, w => assignTo S v l (env.set x v) w
  | .store k es :: l, env, w =>
    match evalAll S env es w with
    | (.error x, w) => some (.exc x, env, w)
    | (.ok vs, w) =>
      match S.store k vs v w with
      | (.error x, w) => some (.exc x, env, w)
      | (.ok _, w) => assignTo S v l env w

/-- Go on with the value of an expression. -/
def withValue (S : Sem V W E) (e : Expr) (env : Env V) (w : W) (f : V → W → Res V W E) : Res V W E :=
  match eval S env e w with
  | (.error x, w) => some (.exc x, env, w)
  | (.ok v, w) => f v w

/-- Go on with the truth of an expression. -/
def withTruth (S : Sem V W E) (e : Expr) (env : Env V) (w : W) (f : Bool → W → Res V W E) : Res V W E :=
  withValue S e env w fun v w =>
    match S.truth v w with
    | (.error x, w) => some (.exc x, env, w)
    | (.ok b, w) => f b w

/-- `target op= value`: the target is read, then the value is evaluated, then the result is stored. The operands of an attribute or subscript are evaluated once. -/
def augment (S : Sem V W E) (o : ℕ) (target : Target) (value : Expr) (env : Env V) (w : W) : Res V W E :=
  match target with
  | .name x =>
    withValue S (.name x) env w fun a w => withValue S value env w fun b w =>
      match S.aug o a b w with
      | (.error x, w) => some (.exc x, env, w)
      | (.ok v, w) => some (.next, env.set x v, w)
  | .store k es =>
    match evalAll S env es w with
    | (.error x, w) => some (.exc x, env, w)
    | (.ok vs, w) =>
      match S.prim (.plain k) vs w with
      | (.error x, w) => some (.exc x, env, w)
      | (.ok a, w) =>
        withValue S value env w fun b w =>
          match S.aug o a b w with
          | (.error x, w) => some (.exc x, env, w)
          | (.ok v, w) =>
            match S.store k vs v w with
            | (.error x, w) => some (.exc x, env, w)
            | (.ok _, w) => some (.next, env, w)

def execSmall (S : Sem V W E) : Small → Env V → W → Res V W E
  | .assign targets value, env, w => withValue S value env w fun v w => assignTo S v targets env w
  | .aug o target value, env, w => augment S o target value env w
  | .expr e, env, w => withValue S e env w fun _ w => some (.next, env, w)
  | .ret none, env, w => some (.ret none, env, w)
  | .ret (some e), env, w => withValue S e env w fun v w => some (.ret (some v), env, w)
  | .throw e, env, w => withValue S e env w fun v w => some (.exc (S.raised v), env, w)
  | .check test msg, env, w => withTruth S test env w fun b w =>
    if b then some (.next, env, w)
    else match msg with
      | none => some (.exc (S.failed none), env, w)
      | some m => withValue S m env w fun v w => some (.exc (S.failed (some v)), env, w)
  | .pass, env, w => some (.next, env, w)
  | .brk, env, w => some (.brk, env, w)
  | .cont, env, w => some (.cont, env, w)

/-- One after the other, until one does not end normally. -/
def seqRes (r : Res V W E) (f : Env V → W → Res V W E) : Res V W E :=
  match r with
  | some (.next, env, w) => f env w
  | r => r

def execLine (S : Sem V W E) : List Small → Env V → W → Res V W E
  | [], env, w => some (.next, env, w)
  | s :: l, env, w => seqRes (execSmall S s env w) (execLine S l)

/-- What is left of how a loop's body ends: `true` if the loop goes on. -/
def afterBody (r : Res V W E) (again : Env V → W → Res V W E) : Res V W E :=
  match r with
  | some (.next, env, w) => again env w
  | some (.cont, env, w) => again env w
  | some (.brk, env, w) => some (.next, env, w)
  | r => r

def whileLoop (S : Sem V W E) (test : Expr) (body : Env V → W → Res V W E) : ℕ → Env V → W → Res V W E
  | 0, _, _ => none
  | n + 1, env, w => withTruth S test env w fun b w => if b then afterBody (body env w) (whileLoop S test body n) else some (.next, env, w)

def forLoop (S : Sem V W E) (x : String) (it : V) (body : Env V → W → Res V W E) : ℕ → Env V → W → Res V W E
  | 0, _, _ => none
  | n + 1, env, w =>
    match S.next it w with
    | (.error e, w) => some (.exc e, env, w)
    | (.ok none, w) => some (.next, env, w)
    | (.ok (some v), w) => afterBody (body (env.set x v) w) (forLoop S x it body n)

mutual

/-- What a statement does, if no loop in it goes round more than `fuel` times. -/
def exec (S : Sem V W E) (fuel : ℕ) : Stmt → Env V → W → Res V W E
  | .line l, env, w => execLine S l env w
  | .cond test a b, env, w => withTruth S test env w fun t w => if t then execBlock S fuel a env w else execBlock S fuel b env w
  | .loop test body, env, w => whileLoop S test (execBlock S fuel body) fuel env w
  | .each x it body, env, w => withValue S it env w fun v w =>
    match S.iter v w with
    | (.error e, w) => some (.exc e, env, w)
    | (.ok i, w) => forLoop S x i (execBlock S fuel body) fuel env w

def execBlock (S : Sem V W E) (fuel : ℕ) : List Stmt → Env V → W → Res V W E
  | [], env, w => some (.next, env, w)
  | s :: l, env, w => seqRes (exec S fuel s env w) (execBlock S fuel l)

end

/-- A loop that has come to its end is followed by the next statement. -/
example (S : Sem V W E) (x : String) (it : V) (body : Env V → W → Res V W E) (n : ℕ) (env : Env V) (w w' : W) (h : S.next it w = (.ok none, w')) :
    forLoop S x it body (n + 1) env w = some (.next, env, w') := by
  simp only [forLoop, h]

end FF.Py
