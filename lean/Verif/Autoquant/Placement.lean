import Mathlib.Data.List.Basic
import Mathlib.Data.Nat.Notation

/-!
# Quantizers of variables act where the variables are bound

Models how `QuantizerFunctionTransformer` in `/repo/src/fastforward/_autoquant/cst/quantizer_analysis/transformer.py` inserts `x = quantizer(x)` for annotated
assignments, loop variables, `with` items and parameters. Which of them are annotated is modelled in `Verif.Autoquant.Annotator`.
-/

namespace FF.Placement

/-! ### Model: programs -/

/-- Local variables. -/
abbrev Env (V D : Type) := V → Option D

/-- An expression: its value and the new state (of everything but local variables), or an exception. -/
abbrev Expr (V D S X : Type) := Env V D → S → Except X D × S

/-- A quantizer of the module: it may have state. -/
abbrev Quantizer (D S X : Type) := D → S → Except X D × S

/-- The target of a binding with the names in it: a name, or a tuple of names. -/
inductive Target (V : Type) where
  | name (x : V)
  | tuple (xs : List V)

/-- An annotation: the variable and its quantizer (`QuantizationAnnotation`, and the reference made for it). -/
structure Ann (V D S X : Type) where
  x : V
  q : Quantizer D S X

/-- One item of a `with`; `exit` is what `__exit__` does. -/
structure Item (V D S X : Type) where
  enter : Expr V D S X
  exit : S → S
  target : Option (Target V)
  anns : List (Ann V D S X)

/-- Statements, with annotations on what binds variables. `quant a` is the statement `x = quantizer(x)`. Functions are made of it below. -/
inductive Prog (V D S X : Type) where
  | done
  | ret (e : Expr V D S X)
  | raise (x : X)
  | brk
  | cont
  | doc (rest : Prog V D S X)
  | assign (t : Target V) (e : Expr V D S X) (anns : List (Ann V D S X)) (rest : Prog V D S X)
  | quant (a : Ann V D S X) (rest : Prog V D S X)
  | ite (c : Expr V D S X) (thn els rest : Prog V D S X)
  | while (c : Expr V D S X) (body rest : Prog V D S X)
  | for (t : Target V) (it : Expr V D S X) (anns : List (Ann V D S X)) (body rest : Prog V D S X)
  | with (items : List (Item V D S X)) (body rest : Prog V D S X)
  | try_ (body handler rest : Prog V D S X)

/-- A function: positional-only, regular, and keyword-only parameters with their annotations, and the body. -/
structure Fun (V D S X : Type) where
  posOnly : List (V × List (Ann V D S X))
  params : List (V × List (Ann V D S X))
  kwOnly : List (V × List (Ann V D S X))
  body : Prog V D S X

variable {V D S X : Type}

/-! ### Model: the transformation -/

/-- `x = quantizer(x)` for each annotation, then the rest. -/
def quants (as : List (Ann V D S X)) (rest : Prog V D S X) : Prog V D S X := as.foldr (fun a p => .quant a p) rest

/-- `transformer.py:338-362`: the statements of one item. Items that do not bind a name get none. -/
def itemQuants (i : Item V D S X) : List (Ann V D S X) :=
  if i.anns.isEmpty then [] else match i.target with
    | some (.name _) => i.anns
    | _ => []

/-- `leave_GeneralAssignment` (295-310), `leave_For` (312-331), `leave_With` (333-363); the annotations of a node are sorted already (`_get_annotations`,
169-176). In the result no node is annotated. -/
def place : Prog V D S X → Prog V D S X
  | .done => .done
  | .ret e => .ret e
  | .raise x => .raise x
  | .brk => .brk
  | .cont => .cont
  | .doc p => .doc (place p)
  | .assign t e as rest => .assign t e [] (quants as (place rest))
  | .quant a rest => .quant a (place rest)
  | .ite c a b rest => .ite c (place a) (place b) (place rest)
  | .while c b rest => .while c (place b) (place rest)
  | .for t it as b rest => .for t it [] (quants as (place b)) (place rest)
  | .with is b rest => .with (is.map fun i => { i with anns := [] }) (quants (is.flatMap itemQuants) (place b)) (place rest)
  | .try_ b h rest => .try_ (place b) (place h) (place rest)

/-- `_insert_in_indented_block` (467-477): after a docstring. -/
def insertTop (as : List (Ann V D S X)) : Prog V D S X → Prog V D S X
  | .doc p => .doc (quants as p)
  | p => quants as p

/-- `leave_FunctionDef` (217-235): statements for regular parameters only. -/
def placeFun (f : Fun V D S X) : Fun V D S X :=
  { posOnly := f.posOnly.map fun p => (p.1, [])
    params := f.params.map fun p => (p.1, [])
    kwOnly := f.kwOnly.map fun p => (p.1, [])
    body := insertTop (f.params.flatMap Prod.snd) (place f.body) }

/-! ### Specification

Python's semantics of these statements. `bindAnn` tells what happens at a binding: in Python nothing besides the binding; in the quantized program
that is meant, the variables with an annotation are quantized right there. -/

/-- How a statement ends. -/
inductive Out (D X : Type) where
  | normal
  | returned (v : D)
  | raised (x : X)
  | broke
  | continued
  | endless

/-- Local variables and state. -/
abbrev St (V D S : Type) := Env V D × S

/-- Python: the values a value is unpacked to or iterates over, truth, and the errors of unpacking and of unbound names. -/
structure Lang (D X : Type) where
  items : D → Except X (List D)
  truth : D → Bool
  countError : X
  unbound : X

variable [DecidableEq V]

/-- Binding a variable. -/
def set (ρ : Env V D) (x : V) (v : D) : Env V D := fun y => if y = x then some v else ρ y

/-- Binding the names of a tuple. -/
def setAll (ρ : Env V D) : List V → List D → Env V D
  | x :: xs, v :: vs => setAll (set ρ x v) xs vs
  | _, _ => ρ

/-- Binding a target. -/
def bind (L : Lang D X) (t : Target V) (v : D) (s : St V D S) : Option X × St V D S :=
  match t with
  | .name x => (none, (set s.1 x v, s.2))
  | .tuple xs => match L.items v with
    | .error e => (some e, s)
    | .ok vs => if vs.length = xs.length then (none, (setAll s.1 xs vs, s.2)) else (some L.countError, s)

/-- The variable is replaced by its quantized value. -/
def requant (L : Lang D X) (a : Ann V D S X) (s : St V D S) : Option X × St V D S :=
  match s.1 a.x with
  | none => (some L.unbound, s)
  | some v => match a.q v s.2 with
    | (.error e, st) => (some e, (s.1, st))
    | (.ok w, st) => (none, (set s.1 a.x w, st))

/-- The variables are replaced by their quantized values, in order. -/
def requantAll (L : Lang D X) : List (Ann V D S X) → St V D S → Option X × St V D S
  | [], s => (none, s)
  | a :: as, s => match requant L a s with
    | (some e, s') => (some e, s')
    | (none, s') => requantAll L as s'

/-- What happens to annotations: Python ignores them; in the quantized program they are carried out. -/
def atBinding (quantized : Bool) (L : Lang D X) (as : List (Ann V D S X)) (s : St V D S) : Option X × St V D S :=
  if quantized then requantAll L as s else (none, s)

/-- A binding and what happens at it. -/
def bindQ (quantized : Bool) (L : Lang D X) (t : Target V) (as : List (Ann V D S X)) (v : D) (s : St V D S) : Option X × St V D S :=
  match bind L t v s with
  | (some e, s') => (some e, s')
  | (none, s') => atBinding quantized L as s'

/-- Entering the items of a `with`: the exits to run (last entered first), and whether there was an exception. -/
def enterAll (quantized : Bool) (L : Lang D X) : List (Item V D S X) → St V D S → List (S → S) → Option X × St V D S × List (S → S)
  | [], s, ex => (none, s, ex)
  | i :: is, s, ex => match i.enter s.1 s.2 with
    | (.error e, st) => (some e, (s.1, st), ex)
    | (.ok v, st) => match i.target with
      | none => enterAll quantized L is (s.1, st) (i.exit :: ex)
      | some t => match bindQ quantized L t i.anns v (s.1, st) with
        | (some e, s') => (some e, s', i.exit :: ex)
        | (none, s') => enterAll quantized L is s' (i.exit :: ex)

/-- At most `n` rounds of a loop. -/
def whileLoop (n : ℕ) (L : Lang D X) (c : Expr V D S X) (body : St V D S → Out D X × St V D S) (s : St V D S) : Out D X × St V D S :=
  match n with
  | 0 => (.endless, s)
  | n + 1 => match c s.1 s.2 with
    | (.error e, st) => (.raised e, (s.1, st))
    | (.ok v, st) => if L.truth v then
        match body (s.1, st) with
        | (.normal, s') => whileLoop n L c body s'
        | (.continued, s') => whileLoop n L c body s'
        | (.broke, s') => (.normal, s')
        | r => r
      else (.normal, (s.1, st))

/-- The rounds of a `for`. -/
def forLoop (quantized : Bool) (L : Lang D X) (t : Target V) (as : List (Ann V D S X)) (body : St V D S → Out D X × St V D S) :
    List D → St V D S → Out D X × St V D S
  | [], s => (.normal, s)
  | v :: vs, s => match bindQ quantized L t as v s with
    | (some e, s') => (.raised e, s')
    | (none, s') => match body s' with
      | (.normal, s'') => forLoop quantized L t as body vs s''
      | (.continued, s'') => forLoop quantized L t as body vs s''
      | (.broke, s'') => (.normal, s'')
      | r => r

/-- What follows a statement, if it ends normally. -/
def next (r : Out D X × St V D S) (k : St V D S → Out D X × St V D S) : Out D X × St V D S :=
  match r with
  | (.normal, s) => k s
  | r => r

/-- The exception of a step, as the end of a statement. -/
def ended (r : Option X × St V D S) : Out D X × St V D S :=
  match r with
  | (none, s) => (.normal, s)
  | (some e, s) => (.raised e, s)

/-- Running statements, with at most `n` rounds in each `while`. -/
def run (quantized : Bool) (n : ℕ) (L : Lang D X) : Prog V D S X → St V D S → Out D X × St V D S
  | .done => fun s => (.normal, s)
  | .ret e => fun s => match e s.1 s.2 with
    | (.error x, st) => (.raised x, (s.1, st))
    | (.ok v, st) => (.returned v, (s.1, st))
  | .raise x => fun s => (.raised x, s)
  | .brk => fun s => (.broke, s)
  | .cont => fun s => (.continued, s)
  | .doc p => fun s => run quantized n L p s
  | .assign t e as rest => fun s => match e s.1 s.2 with
    | (.error x, st) => (.raised x, (s.1, st))
    | (.ok v, st) => next (ended (bindQ quantized L t as v (s.1, st))) (run quantized n L rest)
  | .quant a rest => fun s => next (ended (requant L a s)) (run quantized n L rest)
  | .ite c a b rest => fun s => match c s.1 s.2 with
    | (.error x, st) => (.raised x, (s.1, st))
    | (.ok v, st) => next (if L.truth v then run quantized n L a (s.1, st) else run quantized n L b (s.1, st)) (run quantized n L rest)
  | .while c b rest => fun s => next (whileLoop n L c (run quantized n L b) s) (run quantized n L rest)
  | .for t it as b rest => fun s => match it s.1 s.2 with
    | (.error x, st) => (.raised x, (s.1, st))
    | (.ok v, st) => match L.items v with
      | .error x => (.raised x, (s.1, st))
      | .ok vs => next (forLoop quantized L t as (run quantized n L b) vs (s.1, st)) (run quantized n L rest)
  | .with is b rest => fun s =>
    let (err, s', ex) := enterAll quantized L is s []
    let r : Out D X × St V D S := match err with
      | some e => (.raised e, s')
      | none => run quantized n L b s'
    next (r.1, (r.2.1, ex.foldl (fun st f => f st) r.2.2)) (run quantized n L rest)
  | .try_ b h rest => fun s => next (match run quantized n L b s with
    | (.raised _, s') => run quantized n L h s'
    | r => r) (run quantized n L rest)

/-- Calling a function: the arguments are bound to the parameters; in the quantized program, annotated parameters are quantized. -/
def call (quantized : Bool) (n : ℕ) (L : Lang D X) (f : Fun V D S X) (args : Env V D) (st : S) : Out D X × St V D S :=
  next (ended (atBinding quantized L ((f.posOnly ++ f.params ++ f.kwOnly).flatMap Prod.snd) (args, st))) (run quantized n L f.body)

/-- Only the last item of a `with` is annotated, and it binds a name. -/
def LastOnly : List (Item V D S X) → Prop
  | [] => True
  | [i] => i.anns = [] ∨ ∃ x, i.target = some (.name x)
  | i :: is => i.anns = [] ∧ LastOnly is

/-- All `with` statements of a program are like this. -/
def Plain : Prog V D S X → Prop
  | .done => True
  | .ret _ => True
  | .raise _ => True
  | .brk => True
  | .cont => True
  | .doc p => Plain p
  | .assign _ _ _ rest => Plain rest
  | .quant _ rest => Plain rest
  | .ite _ a b rest => Plain a ∧ Plain b ∧ Plain rest
  | .while _ b rest => Plain b ∧ Plain rest
  | .for _ _ _ b rest => Plain b ∧ Plain rest
  | .with is b rest => LastOnly is ∧ Plain b ∧ Plain rest
  | .try_ b h rest => Plain b ∧ Plain h ∧ Plain rest

/-- No annotations in a program. -/
def Unannotated : Prog V D S X → Prop
  | .done => True
  | .ret _ => True
  | .raise _ => True
  | .brk => True
  | .cont => True
  | .doc p => Unannotated p
  | .assign _ _ as rest => as = [] ∧ Unannotated rest
  | .quant _ rest => Unannotated rest
  | .ite _ a b rest => Unannotated a ∧ Unannotated b ∧ Unannotated rest
  | .while _ b rest => Unannotated b ∧ Unannotated rest
  | .for _ _ as b rest => as = [] ∧ Unannotated b ∧ Unannotated rest
  | .with is b rest => (∀ i ∈ is, i.anns = []) ∧ Unannotated b ∧ Unannotated rest
  | .try_ b h rest => Unannotated b ∧ Unannotated h ∧ Unannotated rest

/-! ### Lemmas -/

theorem run_quants (b : Bool) (n : ℕ) (L : Lang D X) : ∀ (as : List (Ann V D S X)) (p : Prog V D S X) (s : St V D S),
    run b n L (quants as p) s = next (ended (requantAll L as s)) (run b n L p)
  | [], p, s => rfl
  | a :: as, p, s => by
    show next (ended (requant L a s)) (run b n L (quants as p)) = _
    rw [requantAll]
    rcases h : requant L a s with ⟨_ | e, s'⟩
    · show run b n L (quants as p) s' = _
      exact run_quants b n L as p s'
    · rfl

theorem bindQ_false (L : Lang D X) (t : Target V) (as : List (Ann V D S X)) (v : D) (s : St V D S) : bindQ false L t as v s = bind L t v s := by
  unfold bindQ
  rcases bind L t v s with ⟨_ | e, s'⟩ <;> rfl

theorem next_bindQ_true (L : Lang D X) (t : Target V) (as : List (Ann V D S X)) (v : D) (s : St V D S) (k : St V D S → Out D X × St V D S) :
    next (ended (bind L t v s)) (fun s' => next (ended (requantAll L as s')) k) = next (ended (bindQ true L t as v s)) k := by
  unfold bindQ
  rcases bind L t v s with ⟨_ | e, s'⟩ <;> rfl

theorem forLoop_place (L : Lang D X) (t : Target V) (as : List (Ann V D S X)) (body : St V D S → Out D X × St V D S) : ∀ (vs : List D) (s : St V D S),
    forLoop false L t [] (fun s => next (ended (requantAll L as s)) body) vs s = forLoop true L t as body vs s
  | [], s => rfl
  | v :: vs, s => by
    rw [forLoop, forLoop, bindQ_false]
    unfold bindQ atBinding
    rcases bind L t v s with ⟨_ | e, s'⟩
    · simp only [if_true]
      rcases requantAll L as s' with ⟨_ | e, s''⟩
      · show (match body s'' with
          | (.normal, s'') => forLoop false L t [] (fun s => next (ended (requantAll L as s)) body) vs s''
          | (.continued, s'') => forLoop false L t [] (fun s => next (ended (requantAll L as s)) body) vs s''
          | (.broke, s'') => (.normal, s'')
          | r => r) = _
        rcases hb : body s'' with ⟨o, s3⟩
        cases o <;> simp only [forLoop_place L t as body vs, hb]
      · rfl
    · rfl

/-- The end of a `with` block. -/
def within (E : Option X × St V D S × List (S → S)) (body : St V D S → Out D X × St V D S) : Out D X × St V D S :=
  let r : Out D X × St V D S := match E.1 with
    | some e => (.raised e, E.2.1)
    | none => body E.2.1
  (r.1, (r.2.1, E.2.2.foldl (fun st f => f st) r.2.2))

theorem run_with (b : Bool) (n : ℕ) (L : Lang D X) (is : List (Item V D S X)) (p rest : Prog V D S X) (s : St V D S) :
    run b n L (.with is p rest) s = next (within (enterAll b L is s []) (run b n L p)) (run b n L rest) := rfl

theorem within_place (L : Lang D X) (body : St V D S → Out D X × St V D S) : ∀ (is : List (Item V D S X)) (s : St V D S) (ex : List (S → S)),
    LastOnly is →
    within (enterAll false L (is.map fun i => { i with anns := [] }) s ex) (fun s => next (ended (requantAll L (is.flatMap itemQuants) s)) body)
      = within (enterAll true L is s ex) body
  | [], s, ex, _ => rfl
  | [i], s, ex, h => by
    simp only [List.map_cons, List.map_nil, List.flatMap_cons, List.flatMap_nil, List.append_nil]
    rw [enterAll, enterAll]
    rcases i.enter s.1 s.2 with ⟨e | v, st⟩
    · rfl
    · simp only
      rcases h with h | ⟨x, hx⟩
      · have hq : itemQuants i = [] := by unfold itemQuants; rw [h]; rfl
        rw [hq, h]
        cases i.target with
        | none => rfl
        | some t =>
          simp only [bindQ_false]
          unfold bindQ
          rcases bind L t v (s.1, st) with ⟨_ | e, s'⟩ <;> rfl
      · have hq : itemQuants i = i.anns := by
          unfold itemQuants
          rw [hx]
          cases ha : i.anns <;> rfl
        rw [hq, hx]
        simp only [bindQ_false]
        unfold bindQ
        rcases bind L (.name x) v (s.1, st) with ⟨_ | e, s'⟩
        · simp only [atBinding, if_true, enterAll]
          unfold within
          simp only
          rcases requantAll L i.anns s' with ⟨_ | e, s''⟩ <;> rfl
        · rfl
  | i :: j :: is, s, ex, h => by
    obtain ⟨h1, h2⟩ := h
    have hq : itemQuants i = [] := by unfold itemQuants; rw [h1]; rfl
    have ih := fun s ex => within_place L body (j :: is) s ex h2
    rw [List.map_cons, List.flatMap_cons, hq, List.nil_append]
    rw [enterAll, enterAll]
    rcases i.enter s.1 s.2 with ⟨e | v, st⟩
    · rfl
    · simp only
      cases i.target with
      | none => exact ih _ _
      | some t =>
        simp only [bindQ_false]
        unfold bindQ
        rw [h1]
        rcases bind L t v (s.1, st) with ⟨_ | e, s'⟩
        · exact ih _ _
        · rfl

/-! ### Properties -/

/-- **C119 (partial).** The generated statements do what is meant: running the program with the inserted statements is running the source in a Python in which every
annotated binding binds the quantized value, with the same result, exceptions, effects and variables, through branches, loops, exceptions and `with`. Missing: `with`
statements whose earlier items are annotated, see `later_item_sees_unquantized`, or that bind a tuple, see `tuple_item_not_quantized`. -/
theorem placed_acts_at_binding_partial (n : ℕ) (L : Lang D X) : ∀ (p : Prog V D S X), Plain p → ∀ s, run false n L (place p) s = run true n L p s := by
  intro p
  induction p with
  | done => intro _ s; rfl
  | ret e => intro _ s; rfl
  | raise x => intro _ s; rfl
  | brk => intro _ s; rfl
  | cont => intro _ s; rfl
  | doc p ih => intro h s; exact ih h s
  | assign t e as rest ih =>
    intro h s
    have ih' : run false n L (place rest) = run true n L rest := funext (ih h)
    simp only [place, run]
    rcases e s.1 s.2 with ⟨x | v, st⟩
    · rfl
    · simp only
      rw [bindQ_false, ← next_bindQ_true, ← ih']
      congr 1
      funext s'
      exact run_quants false n L as (place rest) s'
  | quant a rest ih =>
    intro h s
    have ih' : run false n L (place rest) = run true n L rest := funext (ih h)
    simp only [place, run, ih']
  | ite c a b rest iha ihb ih =>
    intro h s
    obtain ⟨h1, h2, h3⟩ := h
    have i1 : run false n L (place a) = run true n L a := funext (iha h1)
    have i2 : run false n L (place b) = run true n L b := funext (ihb h2)
    have i3 : run false n L (place rest) = run true n L rest := funext (ih h3)
    simp only [place, run, i1, i2, i3]
  | «while» c b rest ihb ih =>
    intro h s
    obtain ⟨h1, h2⟩ := h
    have i1 : run false n L (place b) = run true n L b := funext (ihb h1)
    have i2 : run false n L (place rest) = run true n L rest := funext (ih h2)
    simp only [place, run, i1, i2]
  | «for» t it as b rest ihb ih =>
    intro h s
    obtain ⟨h1, h2⟩ := h
    have i1 : run false n L (place b) = run true n L b := funext (ihb h1)
    have i2 : run false n L (place rest) = run true n L rest := funext (ih h2)
    have i3 : run false n L (quants as (place b)) = fun s => next (ended (requantAll L as s)) (run true n L b) := by
      funext s'
      rw [run_quants, i1]
    simp only [place, run, i2, i3]
    rcases it s.1 s.2 with ⟨x | v, st⟩
    · rfl
    · simp only
      cases L.items v with
      | error x => rfl
      | ok vs => simp only [forLoop_place]
  | «with» is b rest ihb ih =>
    intro h s
    obtain ⟨h0, h1, h2⟩ := h
    have i1 : run false n L (place b) = run true n L b := funext (ihb h1)
    have i2 : run false n L (place rest) = run true n L rest := funext (ih h2)
    have i3 : run false n L (quants (is.flatMap itemQuants) (place b)) = fun s => next (ended (requantAll L (is.flatMap itemQuants) s)) (run true n L b) := by
      funext s'
      rw [run_quants, i1]
    rw [place, run_with, run_with, i2, i3, within_place L _ is s [] h0]
  | try_ b h rest ihb ihh ih =>
    intro hp s
    obtain ⟨h1, h2, h3⟩ := hp
    have i1 : run false n L (place b) = run true n L b := funext (ihb h1)
    have i2 : run false n L (place h) = run true n L h := funext (ihh h2)
    have i3 : run false n L (place rest) = run true n L rest := funext (ih h3)
    simp only [place, run, i1, i2, i3]

theorem run_insertTop (n : ℕ) (L : Lang D X) (as : List (Ann V D S X)) (p : Prog V D S X) (s : St V D S) :
    run false n L (insertTop as p) s = next (ended (requantAll L as s)) (run false n L p) := by
  cases p <;> simp only [insertTop, run, run_quants]

omit [DecidableEq V] in
theorem noAnn_flatMap (l : List (V × List (Ann V D S X))) (h : ∀ p ∈ l, p.2 = []) : l.flatMap Prod.snd = [] := by
  rw [List.flatMap_eq_nil_iff]
  exact h

/-- **C119 (partial).** A call of the generated function is a call of the source function in which the annotated parameters are quantized first, and then every annotated binding.
Missing: annotated positional-only and keyword-only parameters, see `keyword_only_not_quantized`, and the `with` statements above. -/
theorem call_acts_at_binding_partial (n : ℕ) (L : Lang D X) (f : Fun V D S X) (hb : Plain f.body) (h1 : ∀ p ∈ f.posOnly, p.2 = []) (h2 : ∀ p ∈ f.kwOnly, p.2 = [])
    (args : Env V D) (st : S) : call false n L (placeFun f) args st = call true n L f args st := by
  have hr : run false n L (place f.body) = run true n L f.body := funext (placed_acts_at_binding_partial n L f.body hb)
  have e : (f.posOnly ++ f.params ++ f.kwOnly).flatMap Prod.snd = f.params.flatMap Prod.snd := by
    rw [List.flatMap_append, List.flatMap_append, noAnn_flatMap _ h1, noAnn_flatMap _ h2, List.nil_append, List.append_nil]
  show run false n L (insertTop (f.params.flatMap Prod.snd) (place f.body)) (args, st) = _
  rw [run_insertTop, hr]
  unfold call
  rw [e]
  rfl

omit [DecidableEq V] in
/-- **C119.** A docstring stays the first statement of its function. -/
theorem docstring_stays_first (f : Fun V D S X) (p : Prog V D S X) (h : f.body = .doc p) : ∃ p', (placeFun f).body = .doc p' := by
  refine ⟨quants (f.params.flatMap Prod.snd) (place p), ?_⟩
  simp only [placeFun, h, place, insertTop]

omit [DecidableEq V] in
/-- **C119.** A function without annotations is left as it is. -/
theorem unannotated_unchanged (p : Prog V D S X) (h : Unannotated p) : place p = p := by
  induction p with
  | done => rfl
  | ret e => rfl
  | raise x => rfl
  | brk => rfl
  | cont => rfl
  | doc p ih => rw [place, ih h]
  | assign t e as rest ih => obtain ⟨rfl, h⟩ := h; rw [place, ih h]; rfl
  | quant a rest ih => rw [place, ih h]
  | ite c a b rest iha ihb ih => rw [place, iha h.1, ihb h.2.1, ih h.2.2]
  | «while» c b rest ihb ih => rw [place, ihb h.1, ih h.2]
  | «for» t it as b rest ihb ih => obtain ⟨rfl, h⟩ := h; rw [place, ihb h.1, ih h.2]; rfl
  | «with» is b rest ihb ih =>
    obtain ⟨h0, h1, h2⟩ := h
    rw [place, ihb h1, ih h2]
    have e1 : is.map (fun i => { i with anns := [] }) = is := by
      conv => rhs; rw [← List.map_id is]
      apply List.map_congr_left
      intro i hi
      have := h0 i hi
      cases i; simp only at this; subst this; rfl
    have e2 : is.flatMap itemQuants = [] := by
      rw [List.flatMap_eq_nil_iff]
      intro i hi
      unfold itemQuants; rw [h0 i hi]; rfl
    rw [e1, e2]; rfl
  | try_ b h' rest ihb ihh ih => rw [place, ihb h.1, ihh h.2.1, ih h.2.2]

/-! ### Deviations -/

/-- A quantizer that counts its calls and doubles its argument, for the concrete cases. -/
def double : Quantizer ℕ ℕ String := fun v st => (.ok (2 * v), st + 1)

def exLang : Lang ℕ String := { items := fun n => .ok (List.range n), truth := fun n => n != 0, countError := "ValueError", unbound := "NameError" }

/-- The expression that is a variable. -/
def var (x : String) : Expr String ℕ ℕ String := fun ρ st => match ρ x with
  | some v => (.ok v, st)
  | none => (.error "NameError", st)

def lit (v : ℕ) : Expr String ℕ ℕ String := fun _ st => (.ok v, st)

/-- What a run returns. -/
def returned (r : Out ℕ String × St String ℕ ℕ) : Option ℕ := match r.1 with
  | .returned v => some v
  | _ => none

/-- **C119, deviation.** An annotated parameter that can be passed by keyword only is not quantized. The same holds for positional-only ones. -/
theorem keyword_only_not_quantized : ∃ (f : Fun String ℕ ℕ String) (args : Env String ℕ),
    f.kwOnly = [("x", [⟨"x", double⟩])] ∧ returned (call false 0 exLang (placeFun f) args 0) = some 3 ∧ returned (call true 0 exLang f args 0) = some 6 :=
  ⟨⟨[], [], [("x", [⟨"x", double⟩])], .ret (var "x")⟩, fun _ => some 3, rfl, by decide, by decide⟩

/-- **C119, deviation.** The variable of a `with` item is quantized after all items are entered: in `with a as x, x as y: return y` the second item is given the value that is not
quantized. -/
theorem later_item_sees_unquantized : ∃ p : Prog String ℕ ℕ String,
    returned (run false 0 exLang (place p) (fun _ => none, 0)) = some 3 ∧ returned (run true 0 exLang p (fun _ => none, 0)) = some 6 :=
  ⟨.with [⟨lit 3, id, some (.name "x"), [⟨"x", double⟩]⟩, ⟨var "x", id, some (.name "y"), []⟩] (.ret (var "y")) .done, by decide, by decide⟩

/-- **C119, deviation.** Variables that a `with` item binds in a tuple are not quantized, although they are annotated; there is a warning. -/
theorem tuple_item_not_quantized : ∃ p : Prog String ℕ ℕ String,
    returned (run false 0 exLang (place p) (fun _ => none, 0)) = some 1 ∧ returned (run true 0 exLang p (fun _ => none, 0)) = some 2 :=
  ⟨.with [⟨lit 2, id, some (.tuple ["x", "y"]), [⟨"y", double⟩]⟩] (.ret (var "y")) .done, by decide, by decide⟩

/-! ### Concrete cases -/

/-- `for x in 3: if x: y = x; break` with both quantized, and a parameter. -/
def exBody : Prog String ℕ ℕ String :=
  .doc (.for (.name "x") (var "n") [⟨"x", double⟩] (.ite (var "x") (.assign (.name "y") (var "x") [⟨"y", double⟩] .brk) .done .done) (.ret (var "y")))

def exFun : Fun String ℕ ℕ String := ⟨[], [("n", [⟨"n", double⟩])], [("k", [])], exBody⟩

example : Plain exFun.body := by simp [exFun, exBody, Plain]

example : returned (call false 5 exLang (placeFun exFun) (fun x => if x = "n" then some 2 else none) 0) = some 4 := by decide

/-- Four calls of quantizers: the parameter, the loop variable twice, and the assignment. -/
example : (call false 5 exLang (placeFun exFun) (fun x => if x = "n" then some 2 else none) 0).2.2 = 4 := by decide

end FF.Placement
