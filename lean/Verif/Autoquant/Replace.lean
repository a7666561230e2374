import Verif.Quantops.Operator

/-!
# Replacing calls and operators by quantized ones

Models the pass of autoquant that replaces calls and Python's operators by calls of quantized operators: `QuantizedCounterpartReplacer` in
`src/fastforward/_autoquant/cst/passes.py`, with `get_quantized_function_counterpart` of `cst/node_creation.py` and the policy for calls to leave alone in
`bypass.py`. Looking up operators in the table is the subject of `Verif/Quantops/OpTable.lean`, binding arguments that of `Verif/Quantops/Operator.lean`.

Simplifications: expressions of one function, without nested functions, lambdas and comprehensions; dotted names are lists of their parts; evaluating an
expression has no side effects; an object that is `None` is never found; attribute access fails with `AttributeError` only; references to the module's own
class by its name (`_generalize_class_refs`) are left alone; functions of torch that stand for Python's operators are hashable.
-/

namespace FF.Replace

/-! ## Model -/

/-- Python's binary operators, those in `BINARY_OPS_LIBCST_TO_TORCH_MAPPING`: optable.py:400-414. -/
inductive BinOp
  | add | bitAnd | bitOr | bitXor | divide | floorDivide | leftShift | matmul | modulo | multiply | power | rightShift | subtract
  deriving DecidableEq

/-- Python's unary operators. -/
inductive UnOp
  | invert | minus | plus | not
  deriving DecidableEq

/-- How an argument is given: `x`, `k=x`, `*x` or `**x`. -/
inductive Kind
  | pos
  | kw (k : String)
  | star
  | starstar
  deriving DecidableEq

/-- The parts of `Operator` that are used: operator.py:43-68. `target` is the object that the name `path` (`dispatch_qualified_name()`) denotes. -/
structure Op (O : Type) where
  sig : FF.Operator.Op String Unit
  path : List String
  target : O

/-- `num_output_quantizers`: operator.py:137-139. -/
def Op.outputs {O : Type} (op : Op O) : Nat := if op.sig.returnsQuantized then 1 else 0

mutual

/-- Expressions. The flag of calls and operators tells if they are wrapped in a `ReplacementCandidate`: nodes.py:108-122. -/
inductive Expr (O : Type)
  | name (x : String)
  | lit (n : Nat)
  /-- `e.a` -/
  | attr (e : Expr O) (a : String)
  /-- `e[i]` -/
  | index (e i : Expr O)
  | call (marked : Bool) (f : Expr O) (as : Args O)
  | bin (marked : Bool) (b : BinOp) (l r : Expr O)
  | un (marked : Bool) (u : UnOp) (e : Expr O)
  /-- `QuantizedCall`: the operator with the arguments and, as keyword arguments, quantizers with their label and number (nodes.py:131-150) -/
  | oper (op : Op O) (as : Args O) (qs : List (String × String × Nat))
  /-- `UnresolvedQuantizedCall`, with `func_ref` (nodes.py:152-173) -/
  | user (g : O) (f : Expr O) (as : Args O)

/-- Arguments. -/
inductive Args (O : Type)
  | nil
  | cons (k : Kind) (e : Expr O) (as : Args O)

end

/-- The arguments' kinds. -/
def Args.kinds {O : Type} : Args O → List Kind
  | .nil => []
  | .cons k _ as => k :: as.kinds

/-- What the pass asks about objects. -/
structure Objects (O : Type) where
  /-- `getattr(o, a)` -/
  attr : O → String → Option O
  /-- `o.__func__` for bound methods, the object itself otherwise -/
  unbound : O → O
  hashable : O → Bool
  /-- `bool(o)` -/
  truthy : O → Bool
  /-- `o.__name__` -/
  nameOf : O → String
  /-- a Python function whose source file is known: passes.py:821-825 -/
  inspectable : O → Bool
  /-- `is_bypassed_callable`: bypass.py:89-91 -/
  bypassed : O → Bool
  /-- optable.py:400-414 -/
  torchBin : BinOp → O
  torchInvert : O
  torchMinus : O
  torchPlus : O

/-- `UNARY_OPS_LIBCST_TO_TORCH_MAPPING`: optable.py:394-398. -/
def Objects.torchUn {O : Type} (w : Objects O) : UnOp → Option O
  | .invert => some w.torchInvert
  | .minus => some w.torchMinus
  | .plus => some w.torchPlus
  | .not => none

/-- `FunctionContext` and what `inspect.getclosurevars` reads of the function: `names` is `co_names` of its code, which are the names of globals and of
attributes. function_context.py:18-40. -/
structure Ctx (O : Type) where
  names : List String
  nonlocals : String → Option O
  globals : String → Option O
  builtins : String → Option O
  module : Option O
  instanceVar : Option String
  classVar : Option String

/-- `OperatorTable`: operators for a function, in the order of `get`, and the function that a name stands for. optable.py:315-350. -/
structure Table (O : Type) where
  ops : O → List (Op O)
  byName : List String → Option O

/-- Errors of the conversion. -/
inductive Err
  | unhashable
  deriving DecidableEq

section

variable {O : Type}

/-- `libcst.helpers.get_full_name_for_node`, which looks through calls and subscripts; a missing name in front of an attribute becomes `None`. -/
def path : Expr O → Option (List String)
  | .name x => some [x]
  | .attr e a => some ((path e).getD ["None"] ++ [a])
  | .index e _ => path e
  | .call true _ _ => none
  | .call false f _ => path f
  | .oper op _ _ => some op.path
  | .user _ f _ => path f
  | .lit _ | .bin .. | .un .. => none

/-- `scope_vars`: passes.py:1296-1303. -/
def scopeVar (ctx : Ctx O) (x : String) : Option O :=
  match ctx.module with
  | some c => if ctx.classVar = some x ∨ ctx.instanceVar = some x then some c else closureVar
  | none => closureVar
where
  /-- `inspect.getclosurevars`. -/
  closureVar : Option O :=
    match ctx.nonlocals x with
    | some o => some o
    | none => if x ∈ ctx.names then (ctx.globals x).or (ctx.builtins x) else none

/-- `getattr` along a path. -/
def getattrs (w : Objects O) (o : O) : List String → Option O
  | [] => some o
  | a :: as =>
    match w.attr o a with
    | some o' => getattrs w o' as
    | none => none

/-- `_resolve_reference`: passes.py:1275-1317. -/
def resolve (w : Objects O) (ctx : Ctx O) : List String → Option O
  | [] => none
  | x :: as =>
    match scopeVar ctx x with
    | none => none
    | some o => (getattrs w o as).map w.unbound

/-- `_args_to_pos_and_kw_args`, the number of positional arguments and the keywords: node_creation.py:95-109. -/
def positionals (ks : List Kind) : List Unit :=
  ks.filterMap fun k => match k with
    | .kw _ => none
    | _ => some ()

/-- See `positionals`. -/
def keywords (ks : List Kind) : List (String × Unit) :=
  ks.filterMap fun k => match k with
    | .kw n => some (n, ())
    | _ => none

/-- `operator.validate_arguments`: operator.py:214-241. -/
def Op.accepts (op : Op O) (ks : List Kind) : Bool :=
  FF.Operator.validate "strict_quantization" "output_quantizer" () op.sig (positionals ks) (keywords ks)

/-- `optable.get`: optable.py:315-350. -/
def Table.get (t : Table O) : O ⊕ List String → List (Op O)
  | .inl f => t.ops f
  | .inr p =>
    match t.byName p with
    | some f => t.ops f
    | none => []

/-- `get_quantized_function_counterpart`: node_creation.py:64-92. -/
def counterpart (t : Table O) (key : O ⊕ List String) (ks : List Kind) : Option (Op O) :=
  (t.get key).find? fun op => op.accepts ks

/-- `create_quantizer_expression` is called with these names for the keywords: passes.py:884-899. -/
def Op.quantizers (op : Op O) (label : String) : List (String × String) :=
  op.sig.intermediates.map (fun i => (i, i)) ++
    (List.range op.outputs).map fun i => ("output_quantizer" ++ (if 1 < op.outputs then "_" ++ toString i else ""), label)

/-- The quantizers with consecutive numbers. -/
def numbered (n : Nat) (qs : List (String × String)) : List (String × String × Nat) :=
  (qs.zipIdx n).map fun q => (q.1.1, q.1.2, q.2)

/-- `_create_resolved_quantized_call`: passes.py:853-906. -/
def resolvedCall (w : Objects O) (t : Table O) (n : Nat) (key : O ⊕ List String) (as : Args O) : Option (Expr O × Nat) :=
  match counterpart t key as.kinds with
  | none => none
  | some op =>
    let label := match key with
      | .inl f => w.nameOf f
      | .inr p => p.getLast?.getD ""
    let qs := op.quantizers label
    some (.oper op as (numbered n qs), n + qs.length)

/-- `func_ref or fn_name`: passes.py:846. -/
def lookupKey (w : Objects O) (p : List String) : Option O → O ⊕ List String
  | some g => if w.truthy g then .inl g else .inr p
  | none => .inr p

/-- `_create_quantized_call` for calls: passes.py:839-851, 908-932. -/
def quantizedCall (w : Objects O) (t : Table O) (n : Nat) (p : List String) (ref : Option O) (f : Expr O) (as : Args O) : Expr O × Nat :=
  match resolvedCall w t n (lookupKey w p ref) as with
  | some r => r
  | none =>
    match ref with
    | none => (.call true f as, n)
    | some g => (.user g f as, n)

/-- `leave_ReplacementCandidate` for calls and `leave_Call`: passes.py:769-787, 790-837. `ref in frozenset` hashes the object. -/
def leaveCall (w : Objects O) (ctx : Ctx O) (t : Table O) (n : Nat) (marked : Bool) (f : Expr O) (as : Args O) : Except Err (Expr O × Nat) :=
  match marked, f with
  | false, .name "super" => .ok (.call false f as, n)
  | _, _ =>
    match path f with
    | none => .ok (.call marked f as, n)
    | some p =>
      match resolve w ctx p with
      | none => .ok (if marked then quantizedCall w t n p none f as else (.call false f as, n))
      | some g =>
        if !w.hashable g then .error .unhashable
        else if w.bypassed g then .ok (.call false f as, n)
        else if !marked && (t.ops g).isEmpty && !w.inspectable g then .ok (.call false f as, n)
        else .ok (quantizedCall w t n p (some g) f as)

mutual

/-- The pass, with the number of the next quantizer: passes.py:753-837. -/
def convert (w : Objects O) (ctx : Ctx O) (t : Table O) (n : Nat) : Expr O → Except Err (Expr O × Nat)
  | .name x => .ok (.name x, n)
  | .lit k => .ok (.lit k, n)
  | .attr e a =>
    match convert w ctx t n e with
    | .error err => .error err
    | .ok (e', n1) => .ok (.attr e' a, n1)
  | .index e i =>
    match convert w ctx t n e with
    | .error err => .error err
    | .ok (e', n1) =>
      match convert w ctx t n1 i with
      | .error err => .error err
      | .ok (i', n2) => .ok (.index e' i', n2)
  | .call m f as =>
    match convert w ctx t n f with
    | .error err => .error err
    | .ok (f', n1) =>
      match convertArgs w ctx t n1 as with
      | .error err => .error err
      | .ok (as', n2) => leaveCall w ctx t n2 m f' as'
  | .bin m b l r =>
    match convert w ctx t n l with
    | .error err => .error err
    | .ok (l', n1) =>
      match convert w ctx t n1 r with
      | .error err => .error err
      | .ok (r', n2) =>
        if m then .ok ((resolvedCall w t n2 (.inl (w.torchBin b)) (.cons .pos l' (.cons .pos r' .nil))).getD (.bin true b l' r', n2))
        else .ok (.bin false b l' r', n2)
  | .un m u e =>
    match convert w ctx t n e with
    | .error err => .error err
    | .ok (e', n1) =>
      match m, w.torchUn u with
      | true, some g => .ok ((resolvedCall w t n1 (.inl g) (.cons .pos e' .nil)).getD (.un true u e', n1))
      | _, _ => .ok (.un m u e', n1)
  | .oper op as qs => .ok (.oper op as qs, n)
  | .user g f as => .ok (.user g f as, n)

/-- See `convert`. -/
def convertArgs (w : Objects O) (ctx : Ctx O) (t : Table O) (n : Nat) : Args O → Except Err (Args O × Nat)
  | .nil => .ok (.nil, n)
  | .cons k e as =>
    match convert w ctx t n e with
    | .error err => .error err
    | .ok (e', n1) =>
      match convertArgs w ctx t n1 as with
      | .error err => .error err
      | .ok (as', n2) => .ok (.cons k e' as', n2)

end

/-- `is_simple_literal`. -/
def simpleLiteral : Expr O → Bool
  | .lit _ => true
  | _ => false

mutual

/-- `MarkReplacementCandidates` without type information: passes.py:274-325, where `policy` are the names in `_BYPASS_QUALIFIED_NAMES`. -/
def mark (policy : List (List String)) : Expr O → Expr O
  | .attr e a => .attr (mark policy e) a
  | .index e i => .index (mark policy e) (mark policy i)
  | .call _ f as =>
    .call (match f with
      | .name "super" => false
      | f => match path f with
        | some p => decide (p ∉ policy)
        | none => true) (mark policy f) (markArgs policy as)
  | .bin _ b l r => .bin (!(simpleLiteral l && simpleLiteral r)) b (mark policy l) (mark policy r)
  | .un _ u e => .un (!simpleLiteral e) u (mark policy e)
  | e => e

/-- See `mark`. -/
def markArgs (policy : List (List String)) : Args O → Args O
  | .nil => .nil
  | .cons k e as => .cons k (mark policy e) (markArgs policy as)

end

/-! ## Specification -/

/-- Python at run time. -/
structure Python (O : Type) where
  objects : Objects O
  lit : Nat → O
  index : O → O → Option O
  /-- calling an object; `none` is an exception -/
  call : O → List (Kind × O) → Option O
  bin : BinOp → O → O → Option O
  un : UnOp → O → Option O
  tensor : O → Prop
  /-- the quantizers that the conversion adds to the module -/
  quantizer : Nat → O
  /-- the quantized version of a helper function in the generated code, for functions that get one -/
  helper : O → Option O

/-- A call of the function: `locals` are the values of its parameters and local variables, `some none` for one that is not assigned. -/
structure Frame (O : Type) where
  locals : String → Option (Option O)

/-- Python's rule for names. -/
def lookup (ctx : Ctx O) (fr : Frame O) (x : String) : Option O :=
  match fr.locals x with
  | some v => v
  | none =>
    match ctx.nonlocals x with
    | some o => some o
    | none =>
      match ctx.globals x with
      | some o => some o
      | none => ctx.builtins x

mutual

/-- The value of an expression; `none` is an exception. -/
def eval (py : Python O) (ctx : Ctx O) (fr : Frame O) : Expr O → Option O
  | .name x => lookup ctx fr x
  | .lit n => some (py.lit n)
  | .attr e a => (eval py ctx fr e).bind fun o => py.objects.attr o a
  | .index e i => (eval py ctx fr e).bind fun o => (eval py ctx fr i).bind fun k => py.index o k
  | .call _ f as => (eval py ctx fr f).bind fun g => (evalArgs py ctx fr as).bind fun vs => py.call g vs
  | .bin _ b l r => (eval py ctx fr l).bind fun x => (eval py ctx fr r).bind fun y => py.bin b x y
  | .un _ u e => (eval py ctx fr e).bind fun x => py.un u x
  | .oper op as qs => (evalArgs py ctx fr as).bind fun vs => py.call op.target (vs ++ qs.map fun q => (.kw q.1, py.quantizer q.2.2))
  | .user g f as =>
    match py.helper g with
    | some h => (evalArgs py ctx fr as).bind fun vs => py.call h vs
    | none => (eval py ctx fr f).bind fun g => (evalArgs py ctx fr as).bind fun vs => py.call g vs

/-- The values of arguments. -/
def evalArgs (py : Python O) (ctx : Ctx O) (fr : Frame O) : Args O → Option (List (Kind × O))
  | .nil => some []
  | .cons k e as => (eval py ctx fr e).bind fun v => (evalArgs py ctx fr as).bind fun vs => some ((k, v) :: vs)

end

/-- An argument that is not `*x` or `**x`. -/
def Kind.Single : Kind → Prop
  | .pos => True
  | .kw _ => True
  | _ => False

/-- The operator can be called with arguments given like this. -/
def Takes (op : Op O) (ks : List Kind) : Prop :=
  FF.Operator.Accepts op.sig.parameters ((ks.filter (· = .pos)).map fun _ => ())
    (ks.filterMap fun k => match k with
      | .kw n => some (n, ())
      | _ => none)

/-- What the conversion relies on: with the quantizers that it adds, which leave tensors as they are until they are initialized, operators compute what the
functions compute that they are registered for; quantized helper functions compute what the helper functions compute; and functions of torch compute on tensors
what Python's operators compute. -/
structure Faithful (py : Python O) (t : Table O) : Prop where
  distinct : ∀ f, ∀ op ∈ t.ops f, (op.sig.parameters.map (·.name)).Nodup
  operator : ∀ f, ∀ op ∈ t.ops f, ∀ vs : List (Kind × O), (∀ v ∈ vs, v.1.Single) → Takes op (vs.map Prod.fst) → ∀ (label : String) (ns : List Nat),
    ns.length = (op.quantizers label).length →
    py.call op.target (vs ++ (((op.quantizers label).map Prod.fst).zip ns).map fun q => (.kw q.1, py.quantizer q.2)) = py.call f vs
  helper : ∀ g h, py.helper g = some h → ∀ vs, py.call h vs = py.call g vs
  bin : ∀ b x y, py.tensor x ∨ py.tensor y → py.bin b x y = py.call (py.objects.torchBin b) [(.pos, x), (.pos, y)]
  invert : ∀ x, py.tensor x → py.un .invert x = py.call py.objects.torchInvert [(.pos, x)]
  minus : ∀ x, py.tensor x → py.un .minus x = py.call py.objects.torchMinus [(.pos, x)]
  plus : ∀ x, py.tensor x → py.un .plus x = py.call py.objects.torchPlus [(.pos, x)]

/-- The names of the quantizers that an operator takes. -/
def quantizerParams (op : Op O) : List String :=
  op.sig.intermediates ++ if op.sig.returnsQuantized then ["output_quantizer"] else []

/-- `e` is the dotted name `x.a.b…`. -/
inductive Dotted : Expr O → String → List String → Prop
  | name (x : String) : Dotted (.name x) x []
  | attr {e x as} (a : String) : Dotted e x as → Dotted (.attr e a) x (as ++ [a])

/-- The names that an expression may be taken for if calls and subscripts in it are overlooked. -/
inductive Seen (t : Table O) : Expr O → List String → Prop
  | name (x : String) : Seen t (.name x) [x]
  | attr {e p} (a : String) : Seen t e p → Seen t (.attr e a) (p ++ [a])
  | unnamed (e : Expr O) (a : String) : Seen t (.attr e a) ["None", a]
  | index {e p} (i : Expr O) : Seen t e p → Seen t (.index e i) p
  | call {m f p} (as : Args O) : Seen t f p → Seen t (.call m f as) p
  | replacedCall {g op} (m : Bool) (f : Expr O) (as : Args O) : op ∈ t.ops g → Seen t (.call m f as) op.path
  | replacedBin {g op} (m : Bool) (b : BinOp) (l r : Expr O) : op ∈ t.ops g → Seen t (.bin m b l r) op.path
  | replacedUn {g op} (m : Bool) (u : UnOp) (e : Expr O) : op ∈ t.ops g → Seen t (.un m u e) op.path
  | oper (op : Op O) (as : Args O) (qs : List (String × String × Nat)) : Seen t (.oper op as qs) op.path
  | user {f p} (g : O) (as : Args O) : Seen t f p → Seen t (.user g f as) p

/-- The object that the conversion may know by the name `x`: a free variable, a global or builtin with a name that occurs in the function's code, or the
module's class for `self` and `cls`. -/
inductive Visible (ctx : Ctx O) (x : String) : O → Prop
  | nonlocal {o} : ctx.nonlocals x = some o → Visible ctx x o
  | global {o} : x ∈ ctx.names → ctx.globals x = some o → Visible ctx x o
  | builtin {o} : x ∈ ctx.names → ctx.builtins x = some o → Visible ctx x o
  | module {c} : ctx.module = some c → ctx.classVar = some x ∨ ctx.instanceVar = some x → Visible ctx x c

/-- `o.a.b…` is `o'`. -/
inductive HasPath (w : Objects O) : O → List String → O → Prop
  | nil (o : O) : HasPath w o [] o
  | cons {o o1 o2 a as} : w.attr o a = some o1 → HasPath w o1 as o2 → HasPath w o (a :: as) o2

/-- Nothing is known by this name. -/
def Unknown (w : Objects O) (ctx : Ctx O) (t : Table O) (p : List String) : Prop :=
  t.byName p = none ∧ ∀ x as, p = x :: as → ∀ o o', Visible ctx x o → ¬ HasPath w o as o'

/-- `x` is `self` or `cls`. -/
def Own (ctx : Ctx O) (x : String) : Prop := ctx.module ≠ none ∧ (ctx.classVar = some x ∨ ctx.instanceVar = some x)

/-- `self.a.b…` is what the class has by this name: the attribute is not overridden for the instance, or is a method. -/
def OfClass (py : Python O) (ctx : Ctx O) (t : Table O) (fr : Frame O) (x : String) (as : List String) : Prop :=
  ∃ c inst, ctx.module = some c ∧ fr.locals x = some (some inst) ∧
    match as with
    | [] => t.ops (py.objects.unbound c) = [] ∧ py.helper (py.objects.unbound c) = none
    | a :: rest => ∀ o, py.objects.attr c a = some o → py.objects.attr inst a = some o ∨
        rest = [] ∧ ∃ o', py.objects.attr inst a = some o' ∧ py.objects.unbound o' = py.objects.unbound o ∧ py.objects.unbound o' ≠ o'

/-- What a dotted name that is called has to be like. -/
structure Meant (py : Python O) (ctx : Ctx O) (t : Table O) (fr : Frame O) (f : Expr O) (x : String) (as : List String) : Prop where
  dotted : Dotted f x as
  /-- names in the table mean in the function what they mean in the table -/
  named : ∀ g, t.byName (x :: as) = some g → eval py ctx fr f = some g
  /-- it begins with a variable from outside the function, with one whose name is not found outside, or with `self` or `cls` -/
  root : (fr.locals x = none ∧ ¬ Own ctx x) ∨ (∀ o, ¬ Visible ctx x o) ∨ (Own ctx x ∧ OfClass py ctx t fr x as)
  /-- there are no operators for bound methods, and they are not converted as helper functions -/
  bound : ∀ v, eval py ctx fr f = some v → py.objects.unbound v ≠ v → t.ops (py.objects.unbound v) = [] ∧ py.helper (py.objects.unbound v) = none

/-- What is called is a dotted name that means the same to the conversion and at run time, or the conversion does not know it. -/
def Callee (py : Python O) (ctx : Ctx O) (t : Table O) (fr : Frame O) (f : Expr O) : Prop :=
  (∃ x as, Meant py ctx t fr f x as) ∨ ((¬ ∃ x as, Dotted f x as) ∧ ∀ p, Seen t f p → Unknown py.objects ctx t p)

mutual

/-- Expressions that the conversion understands: what is called is as in `Callee`, calls of functions that are replaced have no `*x` or `**x` among their
arguments, and operators that are wrapped as candidates have tensors as operands. -/
def Regular (py : Python O) (ctx : Ctx O) (t : Table O) (fr : Frame O) : Expr O → Prop
  | .attr e _ => Regular py ctx t fr e
  | .index e i => Regular py ctx t fr e ∧ Regular py ctx t fr i
  | .call _ f as => Callee py ctx t fr f ∧
      ((∀ k ∈ as.kinds, k.Single) ∨ ∀ v, eval py ctx fr f = some v → t.ops v = []) ∧
      (as.kinds.filter (· ≠ .pos)).Nodup ∧ Regular py ctx t fr f ∧ RegularArgs py ctx t fr as
  | .bin m _ l r => (m = true → ∀ x y, eval py ctx fr l = some x → eval py ctx fr r = some y → py.tensor x ∨ py.tensor y) ∧
      Regular py ctx t fr l ∧ Regular py ctx t fr r
  | .un m _ e => (m = true → ∀ x, eval py ctx fr e = some x → py.tensor x) ∧ Regular py ctx t fr e
  | _ => True

/-- See `Regular`. -/
def RegularArgs (py : Python O) (ctx : Ctx O) (t : Table O) (fr : Frame O) : Args O → Prop
  | .nil => True
  | .cons _ e as => Regular py ctx t fr e ∧ RegularArgs py ctx t fr as

end

mutual

/-- The numbers of the quantizers in an expression, from left to right. -/
def quantizersIn : Expr O → List Nat
  | .attr e _ => quantizersIn e
  | .index e i => quantizersIn e ++ quantizersIn i
  | .call _ f as => quantizersIn f ++ quantizersInArgs as
  | .bin _ _ l r => quantizersIn l ++ quantizersIn r
  | .un _ _ e => quantizersIn e
  | .oper _ as qs => quantizersInArgs as ++ qs.map fun q => q.2.2
  | .user _ f as => quantizersIn f ++ quantizersInArgs as
  | _ => []

/-- See `quantizersIn`. -/
def quantizersInArgs : Args O → List Nat
  | .nil => []
  | .cons _ e as => quantizersIn e ++ quantizersInArgs as

end

mutual

/-- The expression is one of a source file. -/
def Source : Expr O → Prop
  | .attr e _ => Source e
  | .index e i => Source e ∧ Source i
  | .call _ f as => Source f ∧ SourceArgs as
  | .bin _ _ l r => Source l ∧ Source r
  | .un _ _ e => Source e
  | .oper .. => False
  | .user .. => False
  | _ => True

/-- See `Source`. -/
def SourceArgs : Args O → Prop
  | .nil => True
  | .cons _ e as => Source e ∧ SourceArgs as

end

/-- An argument's expression. -/
inductive Argument : Expr O → Args O → Prop
  | here (k e as) : Argument e (.cons k e as)
  | later (k e' e as) : Argument e as → Argument e (.cons k e' as)

/-- An expression is part of another one. -/
inductive Part : Expr O → Expr O → Prop
  | whole (e) : Part e e
  | object {x e} (a) : Part x e → Part x (.attr e a)
  | indexed {x e} (i) : Part x e → Part x (.index e i)
  | index {x i} (e) : Part x i → Part x (.index e i)
  | callee {x f} (m as) : Part x f → Part x (.call m f as)
  | argument {x e as} (m f) : Argument e as → Part x e → Part x (.call m f as)
  | left {x l} (m b r) : Part x l → Part x (.bin m b l r)
  | right {x r} (m b l) : Part x r → Part x (.bin m b l r)
  | operand {x e} (m u) : Part x e → Part x (.un m u e)

/-- A literal. -/
def Literal (e : Expr O) : Prop := ∃ n, e = .lit n

/-- A part is marked as it should be: operators unless all operands are literals, calls by a dotted name unless the name is `super` or one of those to be left
alone. -/
def Marked (policy : List (List String)) : Expr O → Prop
  | .bin m _ l r => m = true ↔ ¬ (Literal l ∧ Literal r)
  | .un m _ e => m = true ↔ ¬ Literal e
  | .call m f _ => ∀ x as, Dotted f x as → (m = true ↔ ¬ ((x = "super" ∧ as = []) ∨ x :: as ∈ policy))
  | _ => True

/-! ## Lemmas -/

theorem numbered_fst (n : Nat) (qs : List (String × String)) : (numbered n qs).map (·.1) = qs.map Prod.fst := by
  induction qs generalizing n with
  | nil => rfl
  | cons q qs ih =>
    have := ih (n + 1)
    simp only [numbered, List.zipIdx_cons, List.map_cons] at this ⊢
    rw [this]

theorem numbered_ns (n : Nat) (qs : List (String × String)) : (numbered n qs).map (fun q => q.2.2) = List.range' n qs.length := by
  induction qs generalizing n with
  | nil => rfl
  | cons q qs ih =>
    have := ih (n + 1)
    simp only [numbered, List.zipIdx_cons, List.map_cons, List.length_cons, List.range'_succ] at this ⊢
    rw [this]

theorem numbered_values (py : Python O) (n : Nat) (qs : List (String × String)) :
    (numbered n qs).map (fun q => (Kind.kw q.1, py.quantizer q.2.2)) =
      ((qs.map Prod.fst).zip (List.range' n qs.length)).map fun q => (Kind.kw q.1, py.quantizer q.2) := by
  induction qs generalizing n with
  | nil => rfl
  | cons q qs ih =>
    have := ih (n + 1)
    simp only [numbered, List.zipIdx_cons, List.map_cons, List.length_cons, List.range'_succ, List.zip_cons_cons] at this ⊢
    rw [this]

theorem quantizers_fst (op : Op O) (label : String) : (op.quantizers label).map Prod.fst = quantizerParams op := by
  have h1 : op.sig.intermediates.map (Prod.fst ∘ fun i => (i, i)) = op.sig.intermediates := by
    rw [show (Prod.fst ∘ fun i : String => (i, i)) = id from rfl, List.map_id]
  unfold Op.quantizers quantizerParams Op.outputs
  cases op.sig.returnsQuantized <;> simp [h1]

theorem kinds_args : ∀ {ks : List Kind}, (∀ k ∈ ks, k.Single) → positionals ks = (ks.filter (· = .pos)).map fun _ => () := by
  intro ks
  induction ks with
  | nil => intro; rfl
  | cons k ks ih =>
    intro h
    have ih := ih fun k hk => h k (List.mem_cons_of_mem _ hk)
    have hk := h k (List.mem_cons_self ..)
    unfold positionals at ih ⊢
    cases k with
    | pos => simpa using ih
    | kw => simpa using ih
    | star => exact hk.elim
    | starstar => exact hk.elim

theorem keywords_nodup : ∀ {ks : List Kind}, (ks.filter (· ≠ .pos)).Nodup → ((keywords ks).map Prod.fst).Nodup := by
  intro ks
  induction ks with
  | nil => intro; exact List.nodup_nil
  | cons k ks ih =>
    intro h
    have mem : ∀ n, n ∈ (keywords ks).map Prod.fst → Kind.kw n ∈ ks := by
      intro n hn
      obtain ⟨q, hq, rfl⟩ := List.mem_map.1 hn
      obtain ⟨k', hk', e⟩ := List.mem_filterMap.1 hq
      cases k' <;> simp at e
      rw [← e]
      exact hk'
    cases k with
    | pos =>
      simp only [ne_eq, not_true_eq_false, decide_false, Bool.false_eq_true, not_false_eq_true, List.filter_cons_of_neg] at h
      exact ih h
    | kw n =>
      simp only [ne_eq, reduceCtorEq, not_false_eq_true, decide_true, List.filter_cons_of_pos, List.nodup_cons] at h
      refine List.nodup_cons.2 ⟨fun hn => h.1 (List.mem_filter.2 ⟨mem n hn, by simp⟩), ih h.2⟩
    | star =>
      simp only [ne_eq, reduceCtorEq, not_false_eq_true, decide_true, List.filter_cons_of_pos, List.nodup_cons] at h
      exact ih h.2
    | starstar =>
      simp only [ne_eq, reduceCtorEq, not_false_eq_true, decide_true, List.filter_cons_of_pos, List.nodup_cons] at h
      exact ih h.2

/-- The check of arguments is that of Python if there are no `*x` and `**x`. -/
theorem accepts_iff_takes {op : Op O} (hn : (op.sig.parameters.map (·.name)).Nodup) {ks : List Kind} (hs : ∀ k ∈ ks, k.Single)
    (hk : (ks.filter (· ≠ .pos)).Nodup) : op.accepts ks = true ↔ Takes op ks := by
  unfold Op.accepts Takes
  rw [FF.Operator.validate_iff_accepts _ _ _ _ _ _ hn (keywords_nodup hk), kinds_args hs]
  rfl

theorem getattrs_hasPath {w : Objects O} : ∀ {as : List String} {o o' : O}, getattrs w o as = some o' → HasPath w o as o'
  | [], o, o', h => by
    cases h
    exact .nil o
  | a :: as, o, o', h => by
    simp only [getattrs] at h
    cases ha : w.attr o a with
    | none => rw [ha] at h; cases h
    | some o1 =>
      rw [ha] at h
      exact .cons ha (getattrs_hasPath h)

theorem getattrs_append {w : Objects O} (a : String) : ∀ (as : List String) (o : O),
    getattrs w o (as ++ [a]) = (getattrs w o as).bind fun o' => w.attr o' a
  | [], o => by
    simp only [List.nil_append, getattrs, Option.bind_some]
    cases w.attr o a <;> rfl
  | b :: as, o => by
    simp only [List.cons_append, getattrs]
    cases w.attr o b with
    | none => rfl
    | some o1 => exact getattrs_append a as o1

theorem closureVar_visible {ctx : Ctx O} {x : String} {o : O} (h : scopeVar.closureVar ctx x = some o) : Visible ctx x o := by
  unfold scopeVar.closureVar at h
  cases hn : ctx.nonlocals x with
  | some o' =>
    rw [hn] at h
    cases h
    exact .nonlocal hn
  | none =>
    rw [hn] at h
    simp only at h
    by_cases hx : x ∈ ctx.names
    · rw [if_pos hx] at h
      cases hg : ctx.globals x with
      | some o' =>
        rw [hg] at h
        cases h
        exact .global hx hg
      | none =>
        rw [hg] at h
        exact .builtin hx h
    · rw [if_neg hx] at h
      cases h

theorem scopeVar_visible {ctx : Ctx O} {x : String} {o : O} (h : scopeVar ctx x = some o) : Visible ctx x o := by
  unfold scopeVar at h
  cases hm : ctx.module with
  | none =>
    rw [hm] at h
    exact closureVar_visible h
  | some c =>
    rw [hm] at h
    simp only at h
    by_cases hv : ctx.classVar = some x ∨ ctx.instanceVar = some x
    · rw [if_pos hv] at h
      cases h
      exact .module hm hv
    · rw [if_neg hv] at h
      exact closureVar_visible h

theorem scopeVar_own {ctx : Ctx O} {x : String} {c : O} (hc : ctx.module = some c) (h : ctx.classVar = some x ∨ ctx.instanceVar = some x) :
    scopeVar ctx x = some c := by
  unfold scopeVar
  rw [hc]
  simp only
  rw [if_pos h]

theorem scopeVar_closure {ctx : Ctx O} {x : String} (h : ¬ Own ctx x) : scopeVar ctx x = scopeVar.closureVar ctx x := by
  unfold scopeVar
  cases hm : ctx.module with
  | none => rfl
  | some c =>
    simp only
    rw [if_neg fun hv => h ⟨by rw [hm]; exact nofun, hv⟩]

theorem closureVar_lookup {ctx : Ctx O} {fr : Frame O} {x : String} {o : O} (hl : fr.locals x = none) (h : scopeVar.closureVar ctx x = some o) :
    lookup ctx fr x = some o := by
  unfold scopeVar.closureVar at h
  unfold lookup
  rw [hl]
  simp only
  cases hn : ctx.nonlocals x with
  | some o' =>
    rw [hn] at h
    exact h
  | none =>
    rw [hn] at h
    simp only at h ⊢
    by_cases hx : x ∈ ctx.names
    · rw [if_pos hx] at h
      cases hg : ctx.globals x with
      | some o' =>
        rw [hg] at h
        exact h
      | none =>
        rw [hg] at h
        exact h
    · rw [if_neg hx] at h
      cases h

theorem eval_dotted (py : Python O) (ctx : Ctx O) (fr : Frame O) {f : Expr O} {x : String} {as : List String} (h : Dotted f x as) :
    eval py ctx fr f = (lookup ctx fr x).bind fun o => getattrs py.objects o as := by
  induction h with
  | name x =>
    simp only [eval, getattrs]
    cases lookup ctx fr x <;> rfl
  | attr a _ ih =>
    simp only [eval, ih, Option.bind_assoc]
    congr 1
    funext o
    rw [getattrs_append]

theorem path_dotted {f : Expr O} {x : String} {as : List String} (h : Dotted f x as) : path f = some (x :: as) := by
  induction h with
  | name x => rfl
  | attr a _ ih => simp [path, ih]

theorem convert_dotted (w : Objects O) (ctx : Ctx O) (t : Table O) (n : Nat) {f : Expr O} {x : String} {as : List String} (h : Dotted f x as) :
    convert w ctx t n f = .ok (f, n) := by
  induction h with
  | name x => simp only [convert]
  | attr a _ ih => simp only [convert, ih]

theorem unknown_resolve {w : Objects O} {ctx : Ctx O} {t : Table O} {p : List String} (h : Unknown w ctx t p) : resolve w ctx p = none := by
  cases p with
  | nil => rfl
  | cons x as =>
    simp only [resolve]
    cases hs : scopeVar ctx x with
    | none => rfl
    | some o =>
      simp only
      cases hg : getattrs w o as with
      | none => rfl
      | some o' => exact absurd (getattrs_hasPath hg) (h.2 x as rfl o o' (scopeVar_visible hs))

/-- What the conversion finds is what is called, unless it does not matter. -/
theorem resolve_meant {py : Python O} {ctx : Ctx O} {t : Table O} {fr : Frame O} {f : Expr O} {x : String} {as : List String}
    (h : Meant py ctx t fr f x as) {g : O} (hg : resolve py.objects ctx (x :: as) = some g) :
    eval py ctx fr f = some g ∨ (t.ops g = [] ∧ py.helper g = none) := by
  simp only [resolve] at hg
  cases hs : scopeVar ctx x with
  | none => rw [hs] at hg; cases hg
  | some o =>
    rw [hs] at hg
    simp only at hg
    cases ha : getattrs py.objects o as with
    | none => rw [ha] at hg; cases hg
    | some v =>
      rw [ha] at hg
      cases hg
      have he := eval_dotted py ctx fr h.dotted
      have key : eval py ctx fr f = some v → eval py ctx fr f = some (py.objects.unbound v) ∨
          (t.ops (py.objects.unbound v) = [] ∧ py.helper (py.objects.unbound v) = none) := by
        intro hv
        by_cases hb : py.objects.unbound v = v
        · exact .inl (by rw [hb]; exact hv)
        · exact .inr (h.bound v hv hb)
      rcases h.root with ⟨hl, ho⟩ | hv | ⟨⟨hm, hown⟩, c, inst, hc, hi, hcl⟩
      · rw [scopeVar_closure ho] at hs
        rw [closureVar_lookup hl hs, Option.bind_some, ha] at he
        exact key he
      · exact absurd (scopeVar_visible hs) (hv o)
      · rw [scopeVar_own hc hown] at hs
        cases hs
        cases as with
        | nil =>
          cases ha
          exact .inr hcl
        | cons a rest =>
          simp only [getattrs] at ha
          cases hca : py.objects.attr o a with
          | none => rw [hca] at ha; cases ha
          | some o1 =>
            rw [hca] at ha
            simp only at ha
            have hlk : lookup ctx fr x = some inst := by
              unfold lookup
              rw [hi]
            rw [hlk, Option.bind_some] at he
            simp only [getattrs] at he
            rcases hcl o1 hca with h1 | ⟨rfl, o', h1, h2, h3⟩
            · rw [h1] at he
              simp only [ha] at he
              exact key he
            · rw [h1] at he
              simp only [getattrs] at he ha
              cases ha
              rw [← h2]
              exact .inr (h.bound o' he h3)

theorem seen_oper {t : Table O} {w : Objects O} {n n' : Nat} {key : O ⊕ List String} {as : Args O} {e' : Expr O}
    (h : resolvedCall w t n key as = some (e', n')) : ∃ g op, op ∈ t.ops g ∧ t.get key = t.ops g ∧ op.accepts as.kinds = true ∧
      ∃ label, e' = .oper op as (numbered n (op.quantizers label)) ∧ n' = n + (op.quantizers label).length := by
  unfold resolvedCall at h
  cases hc : counterpart t key as.kinds with
  | none => rw [hc] at h; cases h
  | some op =>
    rw [hc] at h
    simp only [Option.some.injEq, Prod.mk.injEq] at h
    have hm := List.mem_of_find?_eq_some hc
    have hacc := List.find?_some hc
    cases key with
    | inl f => exact ⟨f, op, hm, rfl, hacc, _, h.1.symm, h.2.symm⟩
    | inr p =>
      cases ha : t.byName p with
      | none =>
        simp only [Table.get, ha] at hm
        cases hm
      | some f =>
        have hg : t.get (.inr p) = t.ops f := by simp only [Table.get, ha]
        rw [hg] at hm
        exact ⟨f, op, hm, hg, hacc, _, h.1.symm, h.2.symm⟩

/-- The cases for a call. -/
theorem leaveCall_cases {w : Objects O} {ctx : Ctx O} {t : Table O} {n n' : Nat} {m : Bool} {f : Expr O} {as : Args O} {e' : Expr O}
    (h : leaveCall w ctx t n m f as = .ok (e', n')) :
    ((∃ m', e' = .call m' f as) ∧ n' = n) ∨
    (∃ p g, path f = some p ∧ resolve w ctx p = some g ∧ e' = .user g f as ∧ n' = n) ∨
    (∃ p g op label, path f = some p ∧ (resolve w ctx p = some g ∨ t.byName p = some g) ∧ op ∈ t.ops g ∧ op.accepts as.kinds = true ∧
      e' = .oper op as (numbered n (op.quantizers label)) ∧ n' = n + (op.quantizers label).length) := by
  have q : ∀ (p : List String) (ref : Option O), path f = some p → resolve w ctx p = ref → quantizedCall w t n p ref f as = (e', n') →
      ((∃ m', e' = .call m' f as) ∧ n' = n) ∨
      (∃ p g, path f = some p ∧ resolve w ctx p = some g ∧ e' = .user g f as ∧ n' = n) ∨
      (∃ p g op label, path f = some p ∧ (resolve w ctx p = some g ∨ t.byName p = some g) ∧ op ∈ t.ops g ∧ op.accepts as.kinds = true ∧
        e' = .oper op as (numbered n (op.quantizers label)) ∧ n' = n + (op.quantizers label).length) := by
    intro p ref hp hr hq
    unfold quantizedCall at hq
    cases hc : resolvedCall w t n (lookupKey w p ref) as with
    | some r =>
      rw [hc] at hq
      simp only at hq
      obtain ⟨e1, n1⟩ := r
      cases hq
      refine .inr (.inr ?_)
      obtain ⟨g, op, h1, h2, h3, label, h4, h5⟩ := seen_oper hc
      have byN : t.get (.inr p) = t.ops g → ∃ g', t.byName p = some g' ∧ op ∈ t.ops g' := by
        intro hg
        cases hb : t.byName p with
        | none =>
          simp only [Table.get, hb] at hg
          rw [← hg] at h1
          cases h1
        | some g' =>
          simp only [Table.get, hb] at hg
          exact ⟨g', rfl, by rw [hg]; exact h1⟩
      cases ref with
      | none =>
        obtain ⟨g', b1, b2⟩ := byN h2
        exact ⟨p, g', op, label, hp, .inr b1, b2, h3, h4, h5⟩
      | some g0 =>
        by_cases ht : w.truthy g0 = true
        · simp only [lookupKey, ht, if_true, Table.get] at h2
          exact ⟨p, g0, op, label, hp, .inl hr, by rw [h2]; exact h1, h3, h4, h5⟩
        · simp only [lookupKey, if_neg ht] at h2
          obtain ⟨g', b1, b2⟩ := byN h2
          exact ⟨p, g', op, label, hp, .inr b1, b2, h3, h4, h5⟩
    | none =>
      rw [hc] at hq
      simp only at hq
      cases ref with
      | none =>
        simp only at hq
        cases hq
        exact .inl ⟨⟨true, rfl⟩, rfl⟩
      | some g =>
        simp only at hq
        cases hq
        exact .inr (.inl ⟨p, g, hp, hr, rfl, rfl⟩)
  unfold leaveCall at h
  split at h
  · cases h
    exact .inl ⟨⟨_, rfl⟩, rfl⟩
  · cases hp : path f with
    | none =>
      rw [hp] at h
      cases h
      exact .inl ⟨⟨_, rfl⟩, rfl⟩
    | some p =>
      rw [hp] at h
      simp only at h
      cases hr : resolve w ctx p with
      | none =>
        rw [hr] at h
        simp only at h
        cases m with
        | false =>
          cases h
          exact .inl ⟨⟨_, rfl⟩, rfl⟩
        | true =>
          simp only [if_true, Except.ok.injEq] at h
          exact hp ▸ q p none hp hr h
      | some g =>
        rw [hr] at h
        simp only at h
        split at h
        · cases h
        · split at h
          · cases h
            exact .inl ⟨⟨_, rfl⟩, rfl⟩
          · split at h
            · cases h
              exact .inl ⟨⟨_, rfl⟩, rfl⟩
            · simp only [Except.ok.injEq] at h
              exact hp ▸ q p (some g) hp hr h

theorem convertArgs_kinds {w : Objects O} {ctx : Ctx O} {t : Table O} : ∀ (as : Args O) {n n' : Nat} {as' : Args O},
    convertArgs w ctx t n as = .ok (as', n') → as'.kinds = as.kinds
  | .nil, n, n', as', h => by
    simp only [convertArgs] at h
    cases h
    rfl
  | .cons k e as, n, n', as', h => by
    simp only [convertArgs] at h
    cases h1 : convert w ctx t n e with
    | error => rw [h1] at h; cases h
    | ok r1 =>
      obtain ⟨e1, n1⟩ := r1
      rw [h1] at h
      simp only at h
      cases h2 : convertArgs w ctx t n1 as with
      | error => rw [h2] at h; cases h
      | ok r2 =>
        obtain ⟨as1, n2⟩ := r2
        rw [h2] at h
        cases h
        simp only [Args.kinds, convertArgs_kinds as h2]

/-- What the conversion makes of a call. -/
theorem convert_call {w : Objects O} {ctx : Ctx O} {t : Table O} {n n' : Nat} {m : Bool} {f : Expr O} {as : Args O} {e' : Expr O}
    (h : convert w ctx t n (.call m f as) = .ok (e', n')) :
    ∃ f' n1 as' n2, convert w ctx t n f = .ok (f', n1) ∧ convertArgs w ctx t n1 as = .ok (as', n2) ∧ leaveCall w ctx t n2 m f' as' = .ok (e', n') := by
  simp only [convert] at h
  cases h1 : convert w ctx t n f with
  | error => rw [h1] at h; cases h
  | ok r1 =>
    obtain ⟨f', n1⟩ := r1
    rw [h1] at h
    simp only at h
    cases h2 : convertArgs w ctx t n1 as with
    | error => rw [h2] at h; cases h
    | ok r2 =>
      obtain ⟨as', n2⟩ := r2
      rw [h2] at h
      exact ⟨f', n1, as', n2, rfl, h2, h⟩

/-- What the conversion makes of a binary operator. -/
theorem convert_bin {w : Objects O} {ctx : Ctx O} {t : Table O} {n n' : Nat} {m : Bool} {b : BinOp} {l r : Expr O} {e' : Expr O}
    (h : convert w ctx t n (.bin m b l r) = .ok (e', n')) :
    ∃ l' n1 r' n2, convert w ctx t n l = .ok (l', n1) ∧ convert w ctx t n1 r = .ok (r', n2) ∧
      ((e' = .bin m b l' r' ∧ n' = n2 ∧ (m = true → counterpart t (.inl (w.torchBin b)) [.pos, .pos] = none)) ∨
        (m = true ∧ ∃ op, counterpart t (.inl (w.torchBin b)) [.pos, .pos] = some op ∧
          e' = .oper op (.cons .pos l' (.cons .pos r' .nil)) (numbered n2 (op.quantizers (w.nameOf (w.torchBin b)))) ∧
          n' = n2 + (op.quantizers (w.nameOf (w.torchBin b))).length)) := by
  simp only [convert] at h
  cases h1 : convert w ctx t n l with
  | error => rw [h1] at h; cases h
  | ok r1 =>
    obtain ⟨l', n1⟩ := r1
    rw [h1] at h
    simp only at h
    cases h2 : convert w ctx t n1 r with
    | error => rw [h2] at h; cases h
    | ok r2 =>
      obtain ⟨r', n2⟩ := r2
      rw [h2] at h
      refine ⟨l', n1, r', n2, rfl, h2, ?_⟩
      simp only at h
      cases m with
      | false =>
        cases h
        exact .inl ⟨rfl, rfl, nofun⟩
      | true =>
        simp only [if_true, Except.ok.injEq, resolvedCall, Args.kinds] at h
        cases hc : counterpart t (.inl (w.torchBin b)) [.pos, .pos] with
        | none =>
          rw [hc] at h
          cases h
          exact .inl ⟨rfl, rfl, fun _ => rfl⟩
        | some op =>
          rw [hc] at h
          cases h
          exact .inr ⟨rfl, op, rfl, rfl, rfl⟩

/-- What the conversion makes of a unary operator. -/
theorem convert_un {w : Objects O} {ctx : Ctx O} {t : Table O} {n n' : Nat} {m : Bool} {u : UnOp} {e : Expr O} {e' : Expr O}
    (h : convert w ctx t n (.un m u e) = .ok (e', n')) :
    ∃ e1 n1, convert w ctx t n e = .ok (e1, n1) ∧
      ((e' = .un m u e1 ∧ n' = n1 ∧ (m = true → ∀ g, w.torchUn u = some g → counterpart t (.inl g) [.pos] = none)) ∨
        (m = true ∧ ∃ g op, w.torchUn u = some g ∧ counterpart t (.inl g) [.pos] = some op ∧
          e' = .oper op (.cons .pos e1 .nil) (numbered n1 (op.quantizers (w.nameOf g))) ∧ n' = n1 + (op.quantizers (w.nameOf g)).length)) := by
  simp only [convert] at h
  cases h1 : convert w ctx t n e with
  | error => rw [h1] at h; cases h
  | ok r1 =>
    obtain ⟨e1, n1⟩ := r1
    rw [h1] at h
    refine ⟨e1, n1, rfl, ?_⟩
    simp only at h
    cases m with
    | false =>
      cases h
      exact .inl ⟨rfl, rfl, nofun⟩
    | true =>
      cases hu : w.torchUn u with
      | none =>
        rw [hu] at h
        cases h
        exact .inl ⟨rfl, rfl, fun _ => nofun⟩
      | some g =>
        rw [hu] at h
        simp only [Except.ok.injEq, resolvedCall, Args.kinds] at h
        cases hc : counterpart t (.inl g) [.pos] with
        | none =>
          rw [hc] at h
          cases h
          refine .inl ⟨rfl, rfl, fun _ g' hg' => ?_⟩
          cases hg'
          exact hc
        | some op =>
          rw [hc] at h
          cases h
          exact .inr ⟨rfl, g, op, rfl, hc, rfl, rfl⟩

theorem counterpart_mem {t : Table O} {g : O} {ks : List Kind} {op : Op O} (h : counterpart t (.inl g) ks = some op) :
    op ∈ t.ops g ∧ op.accepts ks = true :=
  ⟨List.mem_of_find?_eq_some h, List.find?_some (p := fun op : Op O => op.accepts ks) h⟩

/-- The names by which the conversion looks up what is called. -/
theorem path_seen {w : Objects O} {ctx : Ctx O} {t : Table O} : ∀ (e : Expr O) {n n' : Nat} {e' : Expr O} {p : List String},
    convert w ctx t n e = .ok (e', n') → path e' = some p → Seen t e p
  | .name x, n, n', e', p, h, hp => by
    simp only [convert] at h
    cases h
    cases hp
    exact .name x
  | .lit k, n, n', e', p, h, hp => by
    simp only [convert] at h
    cases h
    cases hp
  | .attr e a, n, n', e', p, h, hp => by
    simp only [convert] at h
    cases h1 : convert w ctx t n e with
    | error => rw [h1] at h; cases h
    | ok r1 =>
      obtain ⟨e1, n1⟩ := r1
      rw [h1] at h
      cases h
      simp only [path, Option.some.injEq] at hp
      cases hp1 : path e1 with
      | none =>
        rw [hp1] at hp
        rw [← hp]
        exact .unnamed e a
      | some p1 =>
        rw [hp1] at hp
        rw [← hp]
        exact .attr a (path_seen e h1 hp1)
  | .index e i, n, n', e', p, h, hp => by
    simp only [convert] at h
    cases h1 : convert w ctx t n e with
    | error => rw [h1] at h; cases h
    | ok r1 =>
      obtain ⟨e1, n1⟩ := r1
      rw [h1] at h
      simp only at h
      cases h2 : convert w ctx t n1 i with
      | error => rw [h2] at h; cases h
      | ok r2 =>
        obtain ⟨i1, n2⟩ := r2
        rw [h2] at h
        cases h
        exact .index i (path_seen e h1 hp)
  | .call m f as, n, n', e', p, h, hp => by
    obtain ⟨f', n1, as', n2, h1, h2, h3⟩ := convert_call h
    rcases leaveCall_cases h3 with ⟨⟨m', rfl⟩, rfl⟩ | ⟨p', g, hp', hr, rfl, rfl⟩ | ⟨p', g, op, label, hp', hr, hop, hacc, rfl, rfl⟩
    · cases m' with
      | true => cases hp
      | false => exact .call as (path_seen f h1 hp)
    · exact .call as (path_seen f h1 hp)
    · cases hp
      exact .replacedCall m f as hop
  | .bin m b l r, n, n', e', p, h, hp => by
    obtain ⟨l', n1, r', n2, h1, h2, ⟨rfl, rfl, -⟩ | ⟨rfl, op, hc, rfl, rfl⟩⟩ := convert_bin h
    · cases hp
    · cases hp
      exact .replacedBin true b l r (counterpart_mem hc).1
  | .un m u e, n, n', e', p, h, hp => by
    obtain ⟨e1, n1, h1, ⟨rfl, rfl, -⟩ | ⟨rfl, g, op, hu, hc, rfl, rfl⟩⟩ := convert_un h
    · cases hp
    · cases hp
      exact .replacedUn true u e (counterpart_mem hc).1
  | .oper op as qs, n, n', e', p, h, hp => by
    simp only [convert] at h
    cases h
    cases hp
    exact .oper op as qs
  | .user g f as, n, n', e', p, h, hp => by
    simp only [convert] at h
    cases h
    exact .user g as (path_self f hp)
where
  /-- The same for expressions that are left alone. -/
  path_self {t : Table O} : ∀ (e : Expr O) {p : List String}, path e = some p → Seen t e p
    | .name x, p, hp => by
      cases hp
      exact .name x
    | .lit k, p, hp => by cases hp
    | .attr e a, p, hp => by
      simp only [path, Option.some.injEq] at hp
      cases hp1 : path e with
      | none =>
        rw [hp1] at hp
        rw [← hp]
        exact .unnamed e a
      | some p1 =>
        rw [hp1] at hp
        rw [← hp]
        exact .attr a (path_self e hp1)
    | .index e i, p, hp => .index i (path_self e hp)
    | .call true f as, p, hp => by cases hp
    | .call false f as, p, hp => .call as (path_self f hp)
    | .bin .., p, hp => by cases hp
    | .un .., p, hp => by cases hp
    | .oper op as qs, p, hp => by
      cases hp
      exact .oper op as qs
    | .user g f as, p, hp => .user g as (path_self f hp)

theorem evalArgs_kinds {py : Python O} {ctx : Ctx O} {fr : Frame O} : ∀ (as : Args O) {vs : List (Kind × O)},
    evalArgs py ctx fr as = some vs → vs.map Prod.fst = as.kinds
  | .nil, vs, h => by
    simp only [evalArgs] at h
    cases h
    rfl
  | .cons k e as, vs, h => by
    simp only [evalArgs] at h
    cases h1 : eval py ctx fr e with
    | none => rw [h1] at h; cases h
    | some v =>
      rw [h1] at h
      cases h2 : evalArgs py ctx fr as with
      | none => rw [h2] at h; cases h
      | some vs' =>
        rw [h2] at h
        cases h
        simp only [List.map_cons, Args.kinds, evalArgs_kinds as h2]

/-- Calling the operator instead of the function. -/
theorem eval_oper {py : Python O} {t : Table O} (hF : Faithful py t) {ctx : Ctx O} {fr : Frame O} {g : O} {op : Op O} (hop : op ∈ t.ops g)
    {as : Args O} (hacc : op.accepts as.kinds = true) (hs : ∀ k ∈ as.kinds, k.Single) (hk : (as.kinds.filter (· ≠ .pos)).Nodup) (n : Nat)
    (label : String) : eval py ctx fr (.oper op as (numbered n (op.quantizers label))) = (evalArgs py ctx fr as).bind fun vs => py.call g vs := by
  simp only [eval]
  cases hv : evalArgs py ctx fr as with
  | none => rfl
  | some vs =>
    have hkinds := evalArgs_kinds as hv
    simp only [Option.bind_some]
    rw [numbered_values]
    refine hF.operator g op hop vs ?_ ?_ label _ List.length_range'
    · intro v hv
      exact hs _ (hkinds ▸ List.mem_map_of_mem (f := Prod.fst) hv)
    · rw [hkinds]
      exact (accepts_iff_takes (hF.distinct g op hop) hs hk).1 hacc

mutual

theorem convert_eval {py : Python O} {ctx : Ctx O} {t : Table O} {fr : Frame O} (hF : Faithful py t) : ∀ (e : Expr O) {n n' : Nat} {e' : Expr O},
    convert py.objects ctx t n e = .ok (e', n') → Regular py ctx t fr e → eval py ctx fr e' = eval py ctx fr e
  | .name x, n, n', e', h, hr => by
    simp only [convert] at h
    cases h
    rfl
  | .lit k, n, n', e', h, hr => by
    simp only [convert] at h
    cases h
    rfl
  | .attr e a, n, n', e', h, hr => by
    simp only [convert] at h
    cases h1 : convert py.objects ctx t n e with
    | error => rw [h1] at h; cases h
    | ok r1 =>
      obtain ⟨e1, n1⟩ := r1
      rw [h1] at h
      cases h
      simp only [Regular] at hr
      simp only [eval, convert_eval hF e h1 hr]
  | .index e i, n, n', e', h, hr => by
    simp only [convert] at h
    cases h1 : convert py.objects ctx t n e with
    | error => rw [h1] at h; cases h
    | ok r1 =>
      obtain ⟨e1, n1⟩ := r1
      rw [h1] at h
      simp only at h
      cases h2 : convert py.objects ctx t n1 i with
      | error => rw [h2] at h; cases h
      | ok r2 =>
        obtain ⟨i1, n2⟩ := r2
        rw [h2] at h
        cases h
        simp only [Regular] at hr
        simp only [eval, convert_eval hF e h1 hr.1, convert_eval hF i h2 hr.2]
  | .call m f as, n, n', e', h, hr => by
    obtain ⟨f', n1, as', n2, h1, h2, h3⟩ := convert_call h
    simp only [Regular] at hr
    obtain ⟨hc, hs, hk, hrf, hra⟩ := hr
    have ef := convert_eval hF f h1 hrf
    have ea := convertArgs_eval hF as h2 hra
    have ek := convertArgs_kinds as h2
    have found : ∀ p g, path f' = some p → resolve py.objects ctx p = some g ∨ t.byName p = some g →
        eval py ctx fr f = some g ∨ (t.ops g = [] ∧ py.helper g = none) := by
      intro p g hp hg
      rcases hc with ⟨x, as0, hM⟩ | ⟨-, hU⟩
      · rw [convert_dotted py.objects ctx t n hM.dotted] at h1
        cases h1
        rw [path_dotted hM.dotted] at hp
        cases hp
        rcases hg with hg | hg
        · exact resolve_meant hM hg
        · exact .inl (hM.named g hg)
      · have hu := hU p (path_seen f h1 hp)
        rcases hg with hg | hg
        · rw [unknown_resolve hu] at hg
          cases hg
        · rw [hu.1] at hg
          cases hg
    rcases leaveCall_cases h3 with ⟨⟨m', rfl⟩, rfl⟩ | ⟨p, g, hp, hr, rfl, rfl⟩ | ⟨p, g, op, label, hp, hr, hop, hacc, rfl, rfl⟩
    · simp only [eval, ef, ea]
    · simp only [eval]
      cases hh : py.helper g with
      | none => simp only [ef, ea]
      | some hlp =>
        rcases found p g hp (.inl hr) with h4 | ⟨-, h4⟩
        · simp only [h4, ea, Option.bind_some]
          congr 1
          funext vs
          exact hF.helper g hlp hh vs
        · rw [h4] at hh
          cases hh
    · rcases found p g hp hr with h4 | ⟨h4, -⟩
      · have hs' : ∀ k ∈ as'.kinds, k.Single := by
          rw [ek]
          rcases hs with hs | hs
          · exact hs
          · rw [hs g h4] at hop
            cases hop
        rw [eval_oper hF hop hacc hs' (by rw [ek]; exact hk)]
        simp only [eval, h4, ea, Option.bind_some]
      · rw [h4] at hop
        cases hop
  | .bin m b l r, n, n', e', h, hr => by
    simp only [Regular] at hr
    obtain ⟨ht, hrl, hrr⟩ := hr
    obtain ⟨l', n1, r', n2, h1, h2, ⟨rfl, rfl, -⟩ | ⟨rfl, op, hc, rfl, rfl⟩⟩ := convert_bin h
    · simp only [eval, convert_eval hF l h1 hrl, convert_eval hF r h2 hrr]
    · obtain ⟨hop, hacc⟩ := counterpart_mem hc
      rw [eval_oper (as := .cons .pos l' (.cons .pos r' .nil)) hF hop hacc (by simp [Args.kinds, Kind.Single]) (by simp [Args.kinds])]
      simp only [eval, evalArgs, convert_eval hF l h1 hrl, convert_eval hF r h2 hrr]
      cases hx : eval py ctx fr l with
      | none => rfl
      | some x =>
        cases hy : eval py ctx fr r with
        | none => rfl
        | some y => exact (hF.bin b x y (ht rfl x y hx hy)).symm
  | .un m u e, n, n', e', h, hr => by
    simp only [Regular] at hr
    obtain ⟨ht, hre⟩ := hr
    obtain ⟨e1, n1, h1, ⟨rfl, rfl, -⟩ | ⟨rfl, g, op, hu, hc, rfl, rfl⟩⟩ := convert_un h
    · simp only [eval, convert_eval hF e h1 hre]
    · obtain ⟨hop, hacc⟩ := counterpart_mem hc
      rw [eval_oper (as := .cons .pos e1 .nil) hF hop hacc (by simp [Args.kinds, Kind.Single]) (by simp [Args.kinds])]
      simp only [eval, evalArgs, convert_eval hF e h1 hre]
      cases hx : eval py ctx fr e with
      | none => rfl
      | some x =>
        have := ht rfl x hx
        cases u with
        | invert =>
          cases hu
          exact (hF.invert x this).symm
        | minus =>
          cases hu
          exact (hF.minus x this).symm
        | plus =>
          cases hu
          exact (hF.plus x this).symm
        | not => cases hu
  | .oper op as qs, n, n', e', h, hr => by
    simp only [convert] at h
    cases h
    rfl
  | .user g f as, n, n', e', h, hr => by
    simp only [convert] at h
    cases h
    rfl

theorem convertArgs_eval {py : Python O} {ctx : Ctx O} {t : Table O} {fr : Frame O} (hF : Faithful py t) : ∀ (as : Args O) {n n' : Nat} {as' : Args O},
    convertArgs py.objects ctx t n as = .ok (as', n') → RegularArgs py ctx t fr as → evalArgs py ctx fr as' = evalArgs py ctx fr as
  | .nil, n, n', as', h, hr => by
    simp only [convertArgs] at h
    cases h
    rfl
  | .cons k e as, n, n', as', h, hr => by
    simp only [convertArgs] at h
    cases h1 : convert py.objects ctx t n e with
    | error => rw [h1] at h; cases h
    | ok r1 =>
      obtain ⟨e1, n1⟩ := r1
      rw [h1] at h
      simp only at h
      cases h2 : convertArgs py.objects ctx t n1 as with
      | error => rw [h2] at h; cases h
      | ok r2 =>
        obtain ⟨as1, n2⟩ := r2
        rw [h2] at h
        cases h
        simp only [RegularArgs] at hr
        simp only [evalArgs, convert_eval hF e h1 hr.1, convertArgs_eval hF as h2 hr.2]

end

theorem range'_split (n a b : Nat) : List.range' n a ++ List.range' (n + a) b = List.range' n (a + b) := by
  simp

theorem join_range {n n1 n2 : Nat} {xs ys : List Nat} (h1 : n ≤ n1 ∧ List.Sublist xs (List.range' n (n1 - n)))
    (h2 : n1 ≤ n2 ∧ List.Sublist ys (List.range' n1 (n2 - n1))) : n ≤ n2 ∧ List.Sublist (xs ++ ys) (List.range' n (n2 - n)) := by
  refine ⟨Nat.le_trans h1.1 h2.1, ?_⟩
  have := range'_split n (n1 - n) (n2 - n1)
  rw [show n + (n1 - n) = n1 by have := h1.1; omega, show n1 - n + (n2 - n1) = n2 - n by have := h1.1; have := h2.1; omega] at this
  rw [← this]
  exact h1.2.append h2.2

theorem own_range (n : Nat) (qs : List (String × String)) :
    n ≤ n + qs.length ∧ List.Sublist ((numbered n qs).map fun q => q.2.2) (List.range' n (n + qs.length - n)) :=
  ⟨Nat.le_add_right .., by rw [numbered_ns, Nat.add_sub_cancel_left]⟩

mutual

theorem convert_numbers {w : Objects O} {ctx : Ctx O} {t : Table O} : ∀ (e : Expr O) {n n' : Nat} {e' : Expr O},
    convert w ctx t n e = .ok (e', n') → Source e → n ≤ n' ∧ List.Sublist (quantizersIn e') (List.range' n (n' - n))
  | .name x, n, n', e', h, hs => by
    simp only [convert] at h
    cases h
    simp [quantizersIn]
  | .lit k, n, n', e', h, hs => by
    simp only [convert] at h
    cases h
    simp [quantizersIn]
  | .attr e a, n, n', e', h, hs => by
    simp only [convert] at h
    cases h1 : convert w ctx t n e with
    | error => rw [h1] at h; cases h
    | ok r1 =>
      obtain ⟨e1, n1⟩ := r1
      rw [h1] at h
      cases h
      simp only [Source] at hs
      simp only [quantizersIn]
      exact convert_numbers e h1 hs
  | .index e i, n, n', e', h, hs => by
    simp only [convert] at h
    cases h1 : convert w ctx t n e with
    | error => rw [h1] at h; cases h
    | ok r1 =>
      obtain ⟨e1, n1⟩ := r1
      rw [h1] at h
      simp only at h
      cases h2 : convert w ctx t n1 i with
      | error => rw [h2] at h; cases h
      | ok r2 =>
        obtain ⟨i1, n2⟩ := r2
        rw [h2] at h
        cases h
        simp only [Source] at hs
        simp only [quantizersIn]
        exact join_range (convert_numbers e h1 hs.1) (convert_numbers i h2 hs.2)
  | .call m f as, n, n', e', h, hs => by
    obtain ⟨f', n1, as', n2, h1, h2, h3⟩ := convert_call h
    simp only [Source] at hs
    have q1 := convert_numbers f h1 hs.1
    have q2 := convertArgs_numbers as h2 hs.2
    have q := join_range q1 q2
    rcases leaveCall_cases h3 with ⟨⟨m', rfl⟩, rfl⟩ | ⟨p, g, hp, hr, rfl, rfl⟩ | ⟨p, g, op, label, hp, hr, hop, hacc, rfl, rfl⟩
    · simpa only [quantizersIn] using q
    · simpa only [quantizersIn] using q
    · simp only [quantizersIn]
      have := join_range q (own_range n2 (op.quantizers label))
      exact ⟨this.1, .trans (List.Sublist.append (List.sublist_append_right ..) (.refl _)) this.2⟩
  | .bin m b l r, n, n', e', h, hs => by
    simp only [Source] at hs
    obtain ⟨l', n1, r', n2, h1, h2, ⟨rfl, rfl, -⟩ | ⟨rfl, op, hc, rfl, rfl⟩⟩ := convert_bin h
    · simp only [quantizersIn]
      exact join_range (convert_numbers l h1 hs.1) (convert_numbers r h2 hs.2)
    · simp only [quantizersIn, quantizersInArgs, List.append_nil]
      exact join_range (join_range (convert_numbers l h1 hs.1) (convert_numbers r h2 hs.2)) (own_range _ _)
  | .un m u e, n, n', e', h, hs => by
    simp only [Source] at hs
    obtain ⟨e1, n1, h1, ⟨rfl, rfl, -⟩ | ⟨rfl, g, op, hu, hc, rfl, rfl⟩⟩ := convert_un h
    · simp only [quantizersIn]
      exact convert_numbers e h1 hs
    · simp only [quantizersIn, quantizersInArgs, List.append_nil]
      exact join_range (convert_numbers e h1 hs) (own_range _ _)
  | .oper op as qs, n, n', e', h, hs => by simp only [Source] at hs
  | .user g f as, n, n', e', h, hs => by simp only [Source] at hs

theorem convertArgs_numbers {w : Objects O} {ctx : Ctx O} {t : Table O} : ∀ (as : Args O) {n n' : Nat} {as' : Args O},
    convertArgs w ctx t n as = .ok (as', n') → SourceArgs as → n ≤ n' ∧ List.Sublist (quantizersInArgs as') (List.range' n (n' - n))
  | .nil, n, n', as', h, hs => by
    simp only [convertArgs] at h
    cases h
    simp [quantizersInArgs]
  | .cons k e as, n, n', as', h, hs => by
    simp only [convertArgs] at h
    cases h1 : convert w ctx t n e with
    | error => rw [h1] at h; cases h
    | ok r1 =>
      obtain ⟨e1, n1⟩ := r1
      rw [h1] at h
      simp only at h
      cases h2 : convertArgs w ctx t n1 as with
      | error => rw [h2] at h; cases h
      | ok r2 =>
        obtain ⟨as1, n2⟩ := r2
        rw [h2] at h
        cases h
        simp only [SourceArgs] at hs
        simp only [quantizersInArgs]
        exact join_range (convert_numbers e h1 hs.1) (convertArgs_numbers as h2 hs.2)

end

theorem find_first {l pre post : List (Op O)} {op : Op O} {p : Op O → Bool} (h : l = pre ++ op :: post) (hp : p op = true)
    (hn : ∀ o ∈ pre, p o = false) : l.find? p = some op := by
  subst h
  induction pre with
  | nil => simp [hp]
  | cons o pre ih =>
    rw [List.cons_append, List.find?_cons_of_neg (by rw [hn o (List.mem_cons_self ..)]; exact Bool.false_ne_true)]
    exact ih fun o' ho' => hn o' (List.mem_cons_of_mem _ ho')

theorem simpleLiteral_iff (e : Expr O) : simpleLiteral e = true ↔ Literal e := by
  cases e <;> simp [simpleLiteral, Literal]

theorem mark_literal (policy : List (List String)) (e : Expr O) : Literal (mark policy e) ↔ Literal e := by
  cases e <;> simp [mark, Literal]

theorem mark_dotted {policy : List (List String)} {e : Expr O} {x as} (h : Dotted (mark policy e) x as) : Dotted e x as := by
  generalize hm : mark policy e = e' at h
  induction h generalizing e with
  | name x => cases e <;> simp [mark] at hm; subst hm; exact .name _
  | attr a h ih =>
    cases e <;> simp [mark] at hm
    obtain ⟨h1, rfl⟩ := hm
    exact .attr _ (ih h1)

theorem marked_call (policy : List (List String)) (f : Expr O) {x as} : Dotted f x as →
    ((match f with
      | .name "super" => false
      | f => match path f with
        | some p => decide (p ∉ policy)
        | none => true) = true ↔ ¬ ((x = "super" ∧ as = []) ∨ x :: as ∈ policy)) := by
  intro h
  have hp := path_dotted h
  split
  · cases h; simp
  · rename_i hn
    have hx : ¬ (x = "super" ∧ as = []) := by
      rintro ⟨rfl, rfl⟩
      generalize hl : ([] : List String) = l at h
      cases h with
      | name => exact hn rfl
      | attr a _ => simp at hl
    simp [hp]
    intro _ h1 h2
    exact hx ⟨h1, h2⟩

mutual

theorem mark_marked (policy : List (List String)) : ∀ (e : Expr O), Source e → ∀ x, Part x (mark policy e) → Marked policy x
  | .name _, _, x, h => by simp only [mark] at h; cases h; trivial
  | .lit _, _, x, h => by simp only [mark] at h; cases h; trivial
  | .attr e a, hs, x, h => by
    simp only [mark] at h
    cases h with
    | whole => trivial
    | object _ h => exact mark_marked policy e hs x h
  | .index e i, hs, x, h => by
    simp only [mark] at h
    cases h with
    | whole => trivial
    | indexed _ h => exact mark_marked policy e hs.1 x h
    | index _ h => exact mark_marked policy i hs.2 x h
  | .call m f as, hs, x, h => by
    simp only [mark] at h
    cases h with
    | whole =>
      intro y ys hd
      exact marked_call policy f (mark_dotted hd)
    | callee _ _ h => exact mark_marked policy f hs.1 x h
    | argument _ _ ha h => exact markArgs_marked policy as hs.2 _ ha x h
  | .bin m b l r, hs, x, h => by
    simp only [mark] at h
    cases h with
    | whole =>
      have hl := (simpleLiteral_iff l).trans (mark_literal policy l).symm
      have hr := (simpleLiteral_iff r).trans (mark_literal policy r).symm
      simp only [Marked, ← hl, ← hr]
      cases simpleLiteral l <;> cases simpleLiteral r <;> simp
    | left _ _ _ h => exact mark_marked policy l hs.1 x h
    | right _ _ _ h => exact mark_marked policy r hs.2 x h
  | .un m u e, hs, x, h => by
    simp only [mark] at h
    cases h with
    | whole =>
      have hl := (simpleLiteral_iff e).trans (mark_literal policy e).symm
      simp only [Marked, ← hl]
      cases simpleLiteral e <;> simp
    | operand _ _ h => exact mark_marked policy e hs x h
  | .oper .., hs, _, _ => hs.elim
  | .user .., hs, _, _ => hs.elim

theorem markArgs_marked (policy : List (List String)) : ∀ (as : Args O), SourceArgs as → ∀ e, Argument e (markArgs policy as) → ∀ x, Part x e → Marked policy x
  | .nil, _, e, h, _, _ => by simp only [markArgs] at h; cases h
  | .cons k a as, hs, e, h, x, hx => by
    simp only [markArgs] at h
    cases h with
    | here => exact mark_marked policy a hs.1 x hx
    | later _ _ _ _ h => exact markArgs_marked policy as hs.2 e h x hx

end

mutual

theorem mark_eval (policy : List (List String)) (py : Python O) (ctx : Ctx O) (fr : Frame O) : ∀ e : Expr O, eval py ctx fr (mark policy e) = eval py ctx fr e
  | .name _ => rfl
  | .lit _ => rfl
  | .attr e a => by simp only [mark, eval, mark_eval policy py ctx fr e]
  | .index e i => by simp only [mark, eval, mark_eval policy py ctx fr e, mark_eval policy py ctx fr i]
  | .call m f as => by simp only [mark, eval, mark_eval policy py ctx fr f, markArgs_eval policy py ctx fr as]
  | .bin m b l r => by simp only [mark, eval, mark_eval policy py ctx fr l, mark_eval policy py ctx fr r]
  | .un m u e => by simp only [mark, eval, mark_eval policy py ctx fr e]
  | .oper .. => rfl
  | .user .. => rfl

theorem markArgs_eval (policy : List (List String)) (py : Python O) (ctx : Ctx O) (fr : Frame O) : ∀ as : Args O, evalArgs py ctx fr (markArgs policy as) = evalArgs py ctx fr as
  | .nil => rfl
  | .cons k e as => by simp only [markArgs, evalArgs, mark_eval policy py ctx fr e, markArgs_eval policy py ctx fr as]

end

/-! ## Properties -/

/-- **C101 (partial).** The converted expression has the value of the original one, or fails like it, as long as the quantizers that the conversion adds are
not initialized.
Missing: expressions that the conversion misunderstands: `parameter_taken_for_global`, `name_taken_for_alias`, `overridden_attribute_ignored`,
`result_of_call_taken_for_function`, `method_without_self`, `starred_arguments_miscounted`, `numbers_added_by_torch`. -/
theorem replacement_keeps_value_partial (py : Python O) (ctx : Ctx O) (t : Table O) (fr : Frame O) (hF : Faithful py t) (e e' : Expr O) (n n' : Nat)
    (h : convert py.objects ctx t n e = .ok (e', n')) (hr : Regular py ctx t fr e) : eval py ctx fr e' = eval py ctx fr e :=
  convert_eval hF e h hr

/-- **C101 (partial).** A call of a function that there are operators for becomes a call of the first of them, the one registered last, that takes arguments
as they are given, with the converted arguments and a quantizer for each that the operator takes. If none does it stays a call of the function. It does not
matter if the call was marked as a candidate.
Missing: the function must be called by a name from outside that occurs in the function's own code (`unseen_name_not_replaced`), must be hashable
(`unhashable_callee_fails`), and arguments must not be starred (`starred_arguments_miscounted`). -/
theorem operator_chosen_partial (py : Python O) (ctx : Ctx O) (t : Table O) (fr : Frame O) {f : Expr O} {x : String} {as : List String} (hd : Dotted f x as)
    (hx : fr.locals x = none) (hown : ¬ Own ctx x) (hnames : ctx.nonlocals x = none → x ∈ ctx.names)
    (hsuper : f ≠ .name "super") {v : O} (hv : eval py ctx fr f = some v) (hb : py.objects.unbound v = v) (hh : py.objects.hashable v = true)
    (ht : py.objects.truthy v = true) (hby : py.objects.bypassed v = false) (hops : t.ops v ≠ [])
    (hn : ∀ op ∈ t.ops v, (op.sig.parameters.map (·.name)).Nodup) (m : Bool) (args : Args O) (hs : ∀ k ∈ args.kinds, k.Single)
    (hk : (args.kinds.filter (· ≠ .pos)).Nodup) (e' : Expr O) (n n' : Nat)
    (h : convert py.objects ctx t n (.call m f args) = .ok (e', n')) :
    ∃ args' n1, convertArgs py.objects ctx t n args = .ok (args', n1) ∧
      (∀ pre op post, t.ops v = pre ++ op :: post → Takes op args.kinds → (∀ o ∈ pre, ¬ Takes o args.kinds) →
        ∃ qs, e' = .oper op args' qs ∧ qs.map (·.1) = quantizerParams op ∧
          qs.map (fun q => q.2.1) = op.sig.intermediates ++ (if op.sig.returnsQuantized then [py.objects.nameOf v] else []) ∧
          qs.map (fun q => q.2.2) = List.range' n1 (quantizerParams op).length) ∧
      ((∀ op ∈ t.ops v, ¬ Takes op args.kinds) → e' = .user v f args') := by
  obtain ⟨f', n1, args', n2, h1, h2, h3⟩ := convert_call h
  rw [convert_dotted py.objects ctx t n hd] at h1
  cases h1
  have ek := convertArgs_kinds args h2
  refine ⟨args', n2, h2, ?_⟩
  have hres : resolve py.objects ctx (x :: as) = some v := by
    rw [eval_dotted py ctx fr hd] at hv
    simp only [resolve, scopeVar_closure hown]
    have : scopeVar.closureVar ctx x = lookup ctx fr x := by
      unfold scopeVar.closureVar lookup
      rw [hx]
      simp only
      cases hnl : ctx.nonlocals x with
      | some o => rfl
      | none =>
        simp only
        rw [if_pos (hnames hnl)]
        cases ctx.globals x <;> rfl
    rw [this]
    cases hl : lookup ctx fr x with
    | none => rw [hl] at hv; cases hv
    | some o =>
      rw [hl, Option.bind_some] at hv
      simp only [hv, Option.map_some, hb]
  have hleave : leaveCall py.objects ctx t n2 m f args' = .ok (quantizedCall py.objects t n2 (x :: as) (some v) f args') := by
    unfold leaveCall
    split
    · exact absurd rfl hsuper
    · rw [path_dotted hd]
      simp only [hres, hh, hby, Bool.not_true, Bool.false_eq_true, if_false]
      cases hz : t.ops v with
      | nil => exact absurd hz hops
      | cons o os => simp
  rw [hleave] at h3
  have hkey : lookupKey py.objects (x :: as) (some v) = .inl v := by simp only [lookupKey, ht, if_true]
  have hq : quantizedCall py.objects t n2 (x :: as) (some v) f args' = (e', n') := by
    simpa using h3
  unfold quantizedCall resolvedCall at hq
  rw [hkey, ek] at hq
  constructor
  · intro pre op post hsplit htk hpre
    have hfind : counterpart t (.inl v) args.kinds = some op := by
      refine find_first hsplit ((accepts_iff_takes (hn op ?_) hs hk).2 htk) fun o ho => ?_
      · rw [hsplit]
        exact List.mem_append_right _ (List.mem_cons_self ..)
      · cases hacc : o.accepts args.kinds with
        | false => rfl
        | true =>
          refine absurd ((accepts_iff_takes (hn o ?_) hs hk).1 hacc) (hpre o ho)
          rw [hsplit]
          exact List.mem_append_left _ ho
    rw [hfind] at hq
    simp only at hq
    cases hq
    refine ⟨_, rfl, by rw [numbered_fst, quantizers_fst], ?_, ?_⟩
    · have : ∀ (qs : List (String × String)) (n : Nat), (numbered n qs).map (fun q => q.2.1) = qs.map Prod.snd := by
        intro qs
        induction qs with
        | nil => intro; rfl
        | cons q qs ih =>
          intro n
          have := ih (n + 1)
          simp only [numbered, List.zipIdx_cons, List.map_cons] at this ⊢
          rw [this]
      rw [this]
      have h1 : op.sig.intermediates.map (Prod.snd ∘ fun i => (i, i)) = op.sig.intermediates := by
        rw [show (Prod.snd ∘ fun i : String => (i, i)) = id from rfl, List.map_id]
      unfold Op.quantizers Op.outputs
      cases op.sig.returnsQuantized <;> simp [h1]
    · rw [numbered_ns, ← quantizers_fst op (py.objects.nameOf v), List.length_map]
  · intro hno
    have hfind : counterpart t (.inl v) args.kinds = none := by
      refine List.find?_eq_none.2 fun o ho hacc => ?_
      exact hno o ho ((accepts_iff_takes (hn o ho) hs hk).1 hacc)
    rw [hfind] at hq
    simp only at hq
    cases hq
    rfl

/-- **C101.** An operator of Python that is marked as a candidate becomes a call of the first quantized operator for the function of torch that takes its
operands by position, and stays as it is if there is none. Operators that are not marked, and `not`, stay. -/
theorem python_operator_chosen (w : Objects O) (ctx : Ctx O) (t : Table O) (hn : ∀ g, ∀ op ∈ t.ops g, (op.sig.parameters.map (·.name)).Nodup)
    (m : Bool) (n n' : Nat) (e' : Expr O) :
    (∀ b l r, convert w ctx t n (.bin m b l r) = .ok (e', n') →
      ∃ l' n1 r' n2, convert w ctx t n l = .ok (l', n1) ∧ convert w ctx t n1 r = .ok (r', n2) ∧
        (m = false → e' = .bin false b l' r') ∧
        (m = true → (∀ op ∈ t.ops (w.torchBin b), ¬ Takes op [.pos, .pos]) → e' = .bin true b l' r') ∧
        (m = true → ∀ pre op post, t.ops (w.torchBin b) = pre ++ op :: post → Takes op [.pos, .pos] → (∀ o ∈ pre, ¬ Takes o [.pos, .pos]) →
          ∃ qs, e' = .oper op (.cons .pos l' (.cons .pos r' .nil)) qs ∧ qs.map (·.1) = quantizerParams op)) ∧
    (∀ u e, convert w ctx t n (.un m u e) = .ok (e', n') →
      ∃ e1 n1, convert w ctx t n e = .ok (e1, n1) ∧
        (m = false ∨ u = .not → e' = .un m u e1) ∧
        (∀ g, (u, g) ∈ [(UnOp.invert, w.torchInvert), (.minus, w.torchMinus), (.plus, w.torchPlus)] → m = true →
          ((∀ op ∈ t.ops g, ¬ Takes op [.pos]) → e' = .un true u e1) ∧
          ∀ pre op post, t.ops g = pre ++ op :: post → Takes op [.pos] → (∀ o ∈ pre, ¬ Takes o [.pos]) →
            ∃ qs, e' = .oper op (.cons .pos e1 .nil) qs ∧ qs.map (·.1) = quantizerParams op)) := by
  have first : ∀ (g : O) (ks : List Kind), (∀ k ∈ ks, k.Single) → (ks.filter (· ≠ .pos)).Nodup → ∀ pre op post, t.ops g = pre ++ op :: post →
      Takes op ks → (∀ o ∈ pre, ¬ Takes o ks) → counterpart t (.inl g) ks = some op := by
    intro g ks hs hk pre op post hsplit htk hpre
    refine find_first hsplit ((accepts_iff_takes (hn g op ?_) hs hk).2 htk) fun o ho => ?_
    · rw [hsplit]
      exact List.mem_append_right _ (List.mem_cons_self ..)
    · cases hacc : o.accepts ks with
      | false => rfl
      | true =>
        refine absurd ((accepts_iff_takes (hn g o ?_) hs hk).1 hacc) (hpre o ho)
        rw [hsplit]
        exact List.mem_append_left _ ho
  have s2 : ∀ k ∈ [Kind.pos, Kind.pos], k.Single := by simp [Kind.Single]
  have s1 : ∀ k ∈ [Kind.pos], k.Single := by simp [Kind.Single]
  have k2 : ([Kind.pos, Kind.pos].filter (· ≠ .pos)).Nodup := by simp
  have k1 : ([Kind.pos].filter (· ≠ .pos)).Nodup := by simp
  constructor
  · intro b l r h
    obtain ⟨l', n1, r', n2, h1, h2, hcase⟩ := convert_bin h
    refine ⟨l', n1, r', n2, h1, h2, ?_, ?_, ?_⟩
    · rintro rfl
      rcases hcase with ⟨rfl, -, -⟩ | ⟨h, -⟩
      · rfl
      · cases h
    · rintro rfl hno
      rcases hcase with ⟨rfl, -, -⟩ | ⟨-, op, hc, -, -⟩
      · rfl
      · obtain ⟨hop, hacc⟩ := counterpart_mem hc
        exact absurd ((accepts_iff_takes (hn _ op hop) s2 k2).1 hacc) (hno op hop)
    · rintro rfl pre op post hsplit htk hpre
      have hf := first _ _ s2 k2 pre op post hsplit htk hpre
      rcases hcase with ⟨-, -, hc⟩ | ⟨-, op', hc, rfl, -⟩
      · rw [hc rfl] at hf
        cases hf
      · rw [hf] at hc
        cases hc
        exact ⟨_, rfl, by rw [numbered_fst, quantizers_fst]⟩
  · intro u e h
    obtain ⟨e1, n1, h1, hcase⟩ := convert_un h
    refine ⟨e1, n1, h1, ?_, ?_⟩
    · rintro (rfl | rfl)
      · rcases hcase with ⟨rfl, -, -⟩ | ⟨h, -⟩
        · rfl
        · cases h
      · rcases hcase with ⟨rfl, -, -⟩ | ⟨-, g, op, hu, -⟩
        · rfl
        · cases hu
    · rintro g hg rfl
      have hug : w.torchUn u = some g := by
        simp only [List.mem_cons, Prod.mk.injEq, List.not_mem_nil, or_false] at hg
        rcases hg with ⟨rfl, rfl⟩ | ⟨rfl, rfl⟩ | ⟨rfl, rfl⟩ <;> rfl
      refine ⟨fun hno => ?_, fun pre op post hsplit htk hpre => ?_⟩
      · rcases hcase with ⟨rfl, -, -⟩ | ⟨-, g', op, hu, hc, -, -⟩
        · rfl
        · rw [hug] at hu
          cases hu
          obtain ⟨hop, hacc⟩ := counterpart_mem hc
          exact absurd ((accepts_iff_takes (hn _ op hop) s1 k1).1 hacc) (hno op hop)
      · have hf := first _ _ s1 k1 pre op post hsplit htk hpre
        rcases hcase with ⟨-, -, hc⟩ | ⟨-, g', op', hu, hc, rfl, -⟩
        · rw [hc rfl g hug] at hf
          cases hf
        · rw [hug] at hu
          cases hu
          rw [hf] at hc
          cases hc
          exact ⟨_, rfl, by rw [numbered_fst, quantizers_fst]⟩

/-- **C101.** No quantizer is used twice: those in the converted expression are distinct, and different from those before and after it. -/
theorem quantizers_used_once (w : Objects O) (ctx : Ctx O) (t : Table O) (n n' : Nat) (e e' : Expr O) (hs : Source e)
    (h : convert w ctx t n e = .ok (e', n')) : (quantizersIn e').Nodup ∧ ∀ i ∈ quantizersIn e', n ≤ i ∧ i < n' := by
  obtain ⟨h1, h2⟩ := convert_numbers e h hs
  refine ⟨h2.nodup List.nodup_range', fun i hi => ?_⟩
  have := List.mem_range'_1.1 (h2.subset hi)
  omega

/-- **C101.** Before anything is replaced, every operator in the source is marked as a candidate unless all its operands are literals, and every call by a
dotted name unless the name is `super` or one of those to be left alone. Marking does not change what an expression computes. -/
theorem operations_marked (policy : List (List String)) (e : Expr O) (h : Source e) :
    (∀ x, Part x (mark policy e) → Marked policy x) ∧ ∀ py ctx fr, eval py ctx fr (mark policy e) = eval py ctx fr e :=
  ⟨mark_marked policy e h, fun py ctx fr => mark_eval policy py ctx fr e⟩

/-! ## Deviations -/

/-- **C101, deviation.** A call by a global name that does not occur in the function's own code, for example in a lambda or another nested function, is not
replaced even if there are operators for what is called, unless the table has the name. -/
theorem unseen_name_not_replaced (w : Objects O) (ctx : Ctx O) (t : Table O) {f : Expr O} {x : String} {as : List String} (hd : Dotted f x as)
    (hown : ¬ Own ctx x) (h1 : ctx.nonlocals x = none) (h2 : x ∉ ctx.names) (h3 : t.byName (x :: as) = none) (hsuper : f ≠ .name "super") (m : Bool)
    (args args' : Args O) (n n' : Nat) (ha : convertArgs w ctx t n args = .ok (args', n')) :
    convert w ctx t n (.call m f args) = .ok (.call m f args', n') := by
  simp only [convert, convert_dotted w ctx t n hd, ha]
  have hr : resolve w ctx (x :: as) = none := by
    simp only [resolve, scopeVar_closure hown]
    unfold scopeVar.closureVar
    rw [h1]
    simp only
    rw [if_neg h2]
  unfold leaveCall
  split
  · exact absurd rfl hsuper
  · rw [path_dotted hd]
    simp only [hr]
    cases m with
    | false => rfl
    | true =>
      simp only [if_true, quantizedCall, resolvedCall, lookupKey, counterpart, Table.get, h3, List.find?_nil]

/-- **C101, deviation.** A call through a global dictionary or list, like `ACTIVATIONS[name](x)`, makes the conversion of the function fail: the name
in front is taken for what is called, and it cannot be looked up in the table. -/
theorem unhashable_callee_fails (w : Objects O) (ctx : Ctx O) (t : Table O) (x : String) (hown : ¬ Own ctx x) (hx : x ∈ ctx.names)
    (hnl : ctx.nonlocals x = none) {d : O} (hg : ctx.globals x = some d) (hub : w.unbound d = d) (hh : w.hashable d = false) (i i' : Expr O) (m : Bool)
    (args args' : Args O) (n n1 n2 : Nat) (hi : convert w ctx t n i = .ok (i', n1)) (ha : convertArgs w ctx t n1 args = .ok (args', n2)) :
    convert w ctx t n (.call m (.index (.name x) i) args) = .error .unhashable := by
  have hr : resolve w ctx [x] = some d := by
    simp only [resolve, scopeVar_closure hown]
    unfold scopeVar.closureVar
    rw [hnl]
    simp only
    rw [if_pos hx, hg]
    simp only [Option.some_or, getattrs, Option.map_some, hub]
  simp only [convert, hi, ha]
  unfold leaveCall
  split
  · rename_i heq
    cases heq
  · simp only [path, hr, hh, Bool.not_false, if_true]

end

/-! ### A small world -/

namespace Small

/-- Functions. -/
inductive Fn
  | relu | gelu | add | pick | meth | make | other
  deriving DecidableEq

/-- Objects: functions, quantized operators, an operator for `pick` with one argument, a bound method, numbers, tensors, pairs of tensors, a class, its
instance, a module and a quantizer. -/
inductive Thing
  | fn (f : Fn)
  | op (f : Fn)
  | pick1
  | bound
  | num (n : Nat)
  | tensor (n : Nat)
  | pair (a b : Nat)
  | cls
  | inst
  | torch
  | quantizer
  deriving DecidableEq

/-- What the functions do. -/
def sem : Fn → List (Kind × Thing) → Option Thing
  | .relu, [(.pos, .tensor a)] => some (.tensor a)
  | .gelu, [(.pos, .tensor a)] => some (.tensor (a + 100))
  | .add, [(.pos, .tensor a), (.pos, .tensor b)] => some (.tensor (a + b))
  | .pick, [(.pos, .tensor a)] => some (.tensor a)
  | .pick, [(.pos, .tensor a), (.pos, .tensor b)] => some (.tensor (a + b))
  | .pick, [(.star, .pair a b)] => some (.tensor (a + b))
  | .meth, [(.pos, .inst), (.pos, .tensor a), (.pos, .tensor b)] => some (.tensor (a * b))
  | .meth, [(.pos, .tensor a), (.pos, .tensor b)] => some (.tensor (a + b))
  | .make, [(.pos, .num _)] => some (.fn .gelu)
  | _, _ => none

/-- The functions of torch for Python's operators. -/
def torchFn : BinOp → Fn
  | .add => .add
  | _ => .other

def objects : Objects Thing where
  attr o a :=
    if o = .torch ∧ a = "relu" then some (.fn .relu)
    else if o = .cls ∧ a = "act" then some (.fn .relu)
    else if o = .inst ∧ a = "act" then some (.fn .gelu)
    else if o = .cls ∧ a = "meth" then some (.fn .meth)
    else if o = .inst ∧ a = "meth" then some .bound
    else if o = .inst ∧ a = "layers" then some (.pair 0 0)
    else none
  unbound
    | .bound => .fn .meth
    | o => o
  hashable _ := true
  truthy _ := true
  nameOf
    | .fn .relu => "relu"
    | .fn .add => "add"
    | _ => "other"
  inspectable
    | .fn _ => true
    | _ => false
  bypassed _ := false
  torchBin b := .fn (torchFn b)
  torchInvert := .fn .other
  torchMinus := .fn .other
  torchPlus := .fn .other

/-- Uninitialized quantizers are ignored. -/
def python : Python Thing where
  objects := objects
  lit n := .num n
  index
    | .pair _ _, _ => some (.fn .gelu)
    | _, _ => none
  call
    | .fn f, vs => sem f (vs.filter fun v => v.1 ≠ .kw "output_quantizer")
    | .op f, vs => sem f (vs.filter fun v => v.1 ≠ .kw "output_quantizer")
    | .pick1, vs => if vs.any (fun v => v.1 = .star) then none else sem .pick (vs.filter fun v => v.1 ≠ .kw "output_quantizer")
    | .bound, vs => sem .meth ((.pos, .inst) :: vs)
    | _, _ => none
  bin
    | .add, .num a, .num b => some (.num (a + b))
    | b, x, y => sem (torchFn b) [(.pos, x), (.pos, y)]
  un _ _ := none
  tensor v := ∃ n, v = .tensor n
  quantizer _ := .quantizer
  helper
    | .fn .make => some (.op .make)
    | _ => none

def quantizedOp (target : Thing) (ps : List (FF.Operator.Param String Unit)) : Op Thing :=
  ⟨⟨ps, true, []⟩, ["fastforward", "nn", "functional", "op"], target⟩

def table : Table Thing where
  ops
    | .fn .relu => [quantizedOp (.op .relu) [⟨"input", none⟩]]
    | .fn .add => [quantizedOp (.op .add) [⟨"input", none⟩, ⟨"other", none⟩]]
    | .fn .pick => [quantizedOp .pick1 [⟨"a", none⟩], quantizedOp (.op .pick) [⟨"a", none⟩, ⟨"b", none⟩]]
    | .fn .meth => [quantizedOp (.op .meth) [⟨"self", none⟩, ⟨"x", none⟩, ⟨"y", some ()⟩]]
    | _ => []
  byName p := if p = ["conv"] ∨ p = ["torch", "relu"] then some (.fn .relu) else none

/-- A method of a module in a file with these globals. -/
def context : Ctx Thing where
  names := ["torch", "relu", "pick", "make"]
  nonlocals _ := none
  globals x :=
    if x = "torch" then some .torch
    else if x = "relu" then some (.fn .relu)
    else if x = "pick" then some (.fn .pick)
    else if x = "make" then some (.fn .make)
    else none
  builtins _ := none
  module := some .cls
  instanceVar := some "self"
  classVar := none

/-- A call of the method, with a parameter `param` whose value is the function `gelu`. -/
def frame (param : String) : Frame Thing where
  locals x :=
    if x = param then some (some (.fn .gelu))
    else if x = "self" then some (some .inst)
    else if x = "x" then some (some (.tensor 5))
    else if x = "y" then some (some (.tensor 7))
    else if x = "i" then some (some (.num 1))
    else if x = "xy" then some (some (.pair 5 7))
    else none

private theorem filter_quantizers (op : Op Thing) (hi : op.sig.intermediates = []) (label : String) (ns : List Nat) (vs : List (Kind × Thing)) :
    (vs ++ (((op.quantizers label).map Prod.fst).zip ns).map fun q => (Kind.kw q.1, python.quantizer q.2)).filter
      (fun v => v.1 ≠ .kw "output_quantizer") = vs.filter fun v => v.1 ≠ .kw "output_quantizer" := by
  rw [List.filter_append, quantizers_fst]
  have : ((List.zip (quantizerParams op) ns).map fun q => (Kind.kw q.1, python.quantizer q.2)).filter
      (fun v => v.1 ≠ .kw "output_quantizer") = [] := by
    rw [List.filter_eq_nil_iff]
    intro v hv
    obtain ⟨q, hq, rfl⟩ := List.mem_map.1 hv
    have := (List.of_mem_zip hq).1
    unfold quantizerParams at this
    rw [hi] at this
    cases hr : op.sig.returnsQuantized <;> rw [hr] at this <;> simp at this
    simp [this]
  rw [this, List.append_nil]

private theorem faithful : Faithful python table where
  distinct := by
    intro f op hop
    simp only [table] at hop
    split at hop
    all_goals
      try simp only [List.mem_cons, List.not_mem_nil, or_false] at hop
    · subst hop
      simp [quantizedOp]
    · subst hop
      simp [quantizedOp]
    · rcases hop with rfl | rfl <;> simp [quantizedOp]
    · subst hop
      simp [quantizedOp]
  operator := by
    intro f op hop vs hs htk label ns _
    simp only [table] at hop
    split at hop
    all_goals
      try simp only [List.mem_cons, List.not_mem_nil, or_false] at hop
    · subst hop
      simp only [python, quantizedOp]
      exact congrArg _ (filter_quantizers (quantizedOp _ _) rfl label ns vs)
    · subst hop
      simp only [python, quantizedOp]
      exact congrArg _ (filter_quantizers (quantizedOp _ _) rfl label ns vs)
    · rcases hop with rfl | rfl
      · have hno : ∀ ws : List (String × Nat), (vs ++ ws.map fun q => (Kind.kw q.1, python.quantizer q.2)).any (fun v => decide (v.1 = .star)) = false := by
          intro ws
          rw [List.any_eq_false]
          intro v hv
          rw [decide_eq_true_eq]
          rcases List.mem_append.1 hv with hv | hv
          · have := hs v hv
            intro h
            rw [h] at this
            exact this
          · obtain ⟨q, -, rfl⟩ := List.mem_map.1 hv
            exact nofun
        show (if List.any _ _ = true then none else _) = _
        rw [hno]
        exact congrArg (sem .pick) (filter_quantizers (quantizedOp _ _) rfl label ns vs)
      · simp only [python, quantizedOp]
        exact congrArg _ (filter_quantizers (quantizedOp _ _) rfl label ns vs)
    · subst hop
      simp only [python, quantizedOp]
      exact congrArg _ (filter_quantizers (quantizedOp _ _) rfl label ns vs)
  helper := by
    intro g h hh vs
    simp only [python] at hh
    split at hh
    · cases hh
      rfl
    · cases hh
  bin := by
    rintro b x y (⟨n, rfl⟩ | ⟨n, rfl⟩)
    · cases b <;> rfl
    · cases b <;> cases x <;> rfl
  invert x _ := rfl
  minus x _ := rfl
  plus x _ := rfl

/-- One argument. -/
def arg (e : Expr Thing) : Args Thing := .cons .pos e .nil
/-- Two arguments. -/
def args (l r : Expr Thing) : Args Thing := .cons .pos l (.cons .pos r .nil)

theorem convert_value {fr : Frame Thing} {e : Expr Thing} {v : Option Thing}
    (h : ((convert objects context table 0 e).toOption.map fun r => eval python context fr r.1) = some v) :
    ∃ e' n', convert objects context table 0 e = .ok (e', n') ∧ eval python context fr e' = v := by
  cases hc : convert objects context table 0 e with
  | error => rw [hc] at h; cases h
  | ok r =>
    rw [hc] at h
    exact ⟨r.1, r.2, rfl, Option.some.inj h⟩

end Small

open Small

/-- **C101, deviation.** A parameter or local variable with the name of a global function is taken for that function if the name also occurs as the name of
an attribute in the code: with the parameter `relu` set to `gelu`, the converted `relu(x)` computes the global `relu`. -/
theorem parameter_taken_for_global : Faithful python table ∧
    ∃ e' n', convert objects context table 0 (mark [] (.call false (.name "relu") (arg (.name "x")))) = .ok (e', n') ∧
      eval python context (frame "relu") (.call false (.name "relu") (arg (.name "x"))) = some (.tensor 105) ∧
      eval python context (frame "relu") e' = some (.tensor 5) := by
  obtain ⟨e', n', h1, h2⟩ := convert_value (fr := frame "relu") (e := mark [] (.call false (.name "relu") (arg (.name "x")))) (v := some (.tensor 5))
    (by decide +kernel)
  exact ⟨faithful, e', n', h1, by decide +kernel, h2⟩

/-- **C101, deviation.** A parameter or local variable whose name is a name in the table, for example one added with `add_alias`, is taken for the function
that the table knows by the name. -/
theorem name_taken_for_alias : Faithful python table ∧
    ∃ e' n', convert objects context table 0 (mark [] (.call false (.name "conv") (arg (.name "x")))) = .ok (e', n') ∧
      eval python context (frame "conv") (.call false (.name "conv") (arg (.name "x"))) = some (.tensor 105) ∧
      eval python context (frame "conv") e' = some (.tensor 5) := by
  obtain ⟨e', n', h1, h2⟩ := convert_value (fr := frame "conv") (e := mark [] (.call false (.name "conv") (arg (.name "x")))) (v := some (.tensor 5))
    (by decide +kernel)
  exact ⟨faithful, e', n', h1, by decide +kernel, h2⟩

/-- **C101, deviation.** `self.act(x)` is converted to an operator for the function that the class has as attribute `act` even if the instance has another
one. -/
theorem overridden_attribute_ignored : Faithful python table ∧
    ∃ e' n', convert objects context table 0 (mark [] (.call false (.attr (.name "self") "act") (arg (.name "x")))) = .ok (e', n') ∧
      eval python context (frame "f") (.call false (.attr (.name "self") "act") (arg (.name "x"))) = some (.tensor 105) ∧
      eval python context (frame "f") e' = some (.tensor 5) := by
  obtain ⟨e', n', h1, h2⟩ := convert_value (fr := frame "f") (e := mark [] (.call false (.attr (.name "self") "act") (arg (.name "x"))))
    (v := some (.tensor 5)) (by decide +kernel)
  exact ⟨faithful, e', n', h1, by decide +kernel, h2⟩

/-- **C101, deviation.** `make(1)(x)`, which calls what `make` returns, is taken for a call of `make`: if `make` is converted, the result is `make`'s
quantized version called with `x`, here an error. -/
theorem result_of_call_taken_for_function : Faithful python table ∧
    ∃ e' n', convert objects context table 0 (mark [] (.call false (.call false (.name "make") (arg (.lit 1))) (arg (.name "x")))) = .ok (e', n') ∧
      eval python context (frame "f") (.call false (.call false (.name "make") (arg (.lit 1))) (arg (.name "x"))) = some (.tensor 105) ∧
      eval python context (frame "f") e' = none := by
  obtain ⟨e', n', h1, h2⟩ := convert_value (fr := frame "f") (e := mark [] (.call false (.call false (.name "make") (arg (.lit 1))) (arg (.name "x"))))
    (v := none) (by decide +kernel)
  exact ⟨faithful, e', n', h1, by decide +kernel, h2⟩

/-- **C101, deviation.** If there is an operator for a method, it is called without the instance: `self.meth(x, y)` becomes the operator called with `x` as
`self` and `y` as `x`. -/
theorem method_without_self : Faithful python table ∧
    ∃ e' n', convert objects context table 0 (mark [] (.call false (.attr (.name "self") "meth") (args (.name "x") (.name "y")))) = .ok (e', n') ∧
      eval python context (frame "f") (.call false (.attr (.name "self") "meth") (args (.name "x") (.name "y"))) = some (.tensor 35) ∧
      eval python context (frame "f") e' = some (.tensor 12) := by
  obtain ⟨e', n', h1, h2⟩ := convert_value (fr := frame "f") (e := mark [] (.call false (.attr (.name "self") "meth") (args (.name "x") (.name "y"))))
    (v := some (.tensor 12)) (by decide +kernel)
  exact ⟨faithful, e', n', h1, by decide +kernel, h2⟩

/-- **C101, deviation.** `*xy` counts as one argument: `pick(*xy)` with two values in `xy` becomes the operator for one argument, which fails. -/
theorem starred_arguments_miscounted : Faithful python table ∧
    ∃ e' n', convert objects context table 0 (mark [] (.call false (.name "pick") (.cons .star (.name "xy") .nil))) = .ok (e', n') ∧
      eval python context (frame "f") (.call false (.name "pick") (.cons .star (.name "xy") .nil)) = some (.tensor 12) ∧
      eval python context (frame "f") e' = none := by
  obtain ⟨e', n', h1, h2⟩ := convert_value (fr := frame "f") (e := mark [] (.call false (.name "pick") (.cons .star (.name "xy") .nil)))
    (v := none) (by decide +kernel)
  exact ⟨faithful, e', n', h1, by decide +kernel, h2⟩

/-- **C101, deviation.** Without type information operators between plain numbers become calls of quantized operators too, which fail on numbers:
`i + i`. -/
theorem numbers_added_by_torch : Faithful python table ∧
    ∃ e' n', convert objects context table 0 (mark [] (.bin false .add (.name "i") (.name "i"))) = .ok (e', n') ∧
      eval python context (frame "f") (.bin false .add (.name "i") (.name "i")) = some (.num 2) ∧
      eval python context (frame "f") e' = none := by
  obtain ⟨e', n', h1, h2⟩ := convert_value (fr := frame "f") (e := mark [] (.bin false .add (.name "i") (.name "i"))) (v := none) (by decide +kernel)
  exact ⟨faithful, e', n', h1, by decide +kernel, h2⟩

/-! ## Concrete cases -/

/-- `torch.relu(x) + self.layers[0](y)`. -/
def sample : Expr Thing :=
  .bin true .add (.call true (.attr (.name "torch") "relu") (arg (.name "x"))) (.call true (.index (.attr (.name "self") "layers") (.lit 0)) (arg (.name "y")))

example : sample = mark [] (.bin false .add (.call false (.attr (.name "torch") "relu") (arg (.name "x")))
    (.call false (.index (.attr (.name "self") "layers") (.lit 0)) (arg (.name "y")))) := by
  simp [sample, mark, markArgs, arg, simpleLiteral, path]
example : Part (.bin true .add (.name "x") (.lit 1)) (mark [["torch", "save"]] (.call false (.attr (.name "torch") "save")
    (arg (.bin false .add (.name "x") (.lit 1)))) : Expr Thing) := by
  simp only [mark, markArgs, arg]
  exact .argument _ _ (.here _ _ _) (.whole _)
example : Source sample := by simp [sample, Source, SourceArgs, arg]
example : (convert objects context table 3 sample).toOption.map (fun r => (quantizersIn r.1, r.2)) = some ([3, 4], 5) := by decide +kernel
example : eval python context (frame "f") sample = some (.tensor 112) := by decide +kernel

example : Regular python context table (frame "f") sample := by
  have dotted : Dotted (.attr (.name "torch") "relu" : Expr Thing) "torch" ["relu"] := .attr "relu" (.name "torch")
  have known : Meant python context table (frame "f") (.attr (.name "torch") "relu") "torch" ["relu"] := by
    refine ⟨dotted, ?_, .inl ⟨by decide, by simp [Own, context]⟩, ?_⟩
    · intro g hg
      have : g = .fn .relu := by
        simpa [table] using hg.symm
      subst this
      decide +kernel
    · intro v hv
      have : v = .fn .relu := by
        have h : eval python context (frame "f") (.attr (.name "torch") "relu") = some (.fn .relu) := by decide +kernel
        rw [h] at hv
        cases hv
        rfl
      subst this
      exact fun h => absurd rfl h
  have unknown : Callee python context table (frame "f") (.index (.attr (.name "self") "layers") (.lit 0)) := by
    refine .inr ⟨(by rintro ⟨x, as, h⟩; cases h), fun p hp => ?_⟩
    have : p = ["self", "layers"] ∨ p = ["None", "layers"] := by
      cases hp with
      | index _ h =>
        cases h with
        | attr _ h =>
          cases h
          exact .inl rfl
        | unnamed => exact .inr rfl
    refine ⟨by rcases this with rfl | rfl <;> decide, fun x as hx o o' hv hpath => ?_⟩
    rcases this with rfl | rfl
    · cases hx
      have ho : o = .cls := by
        cases hv with
        | nonlocal h => cases h
        | global h => simp [context] at h
        | builtin h => simp [context] at h
        | module h => exact (Option.some.inj h).symm
      subst ho
      cases hpath with
      | cons h => simp [python, objects] at h
    · cases hx
      cases hv with
      | nonlocal h => cases h
      | global h => simp [context] at h
      | builtin h => simp [context] at h
      | module _ h => simp [context] at h
  simp only [sample, Regular, RegularArgs, arg, and_true]
  refine ⟨fun _ x y hx _ => .inl ?_, ⟨.inl ⟨_, _, known⟩, .inl ?_, ?_⟩, ⟨unknown, .inl ?_, ?_⟩⟩
  · have h : eval python context (frame "f") (.call true (.attr (.name "torch") "relu") (.cons .pos (.name "x") .nil)) = some (.tensor 5) := by
      decide +kernel
    rw [h] at hx
    exact ⟨5, (Option.some.inj hx).symm⟩
  all_goals simp [Args.kinds, Kind.Single]

/-- The hypotheses of `operator_chosen_partial` for `torch.relu`. -/
example : (frame "f").locals "torch" = none ∧ "torch" ∈ context.names ∧ eval python context (frame "f") (.attr (.name "torch") "relu") = some (.fn .relu) ∧
    table.ops (.fn .relu) ≠ [] ∧ (∀ op ∈ table.ops (.fn .relu), op.accepts [.pos] = true) := by decide +kernel

end FF.Replace
