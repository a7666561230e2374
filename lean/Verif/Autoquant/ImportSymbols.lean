/-!
# Imports of the generated module

A converted function is moved from the module it is written in to the generated
module.  `find_required_imports` (`_autoquant/pysource/scope.py`) collects an
import for every global name that the function uses; `import_statements`
(`_autoquant/pybuilder/builder.py`) puts the imports of all functions at the top
of the generated module.  This file models both and proves when the names mean
in the generated module what they mean in the source.
-/

namespace FF.ImportSymbols

/-! ## Model -/

/-- An assignment that the scope analysis of libcst records for a symbol:
`import a.b.c [as n]`, `from m import x [as n]` (`m` after resolution of relative
imports, see C61) or something else (`def`, `class`, an assignment).  A statement
with several names is taken as several statements; `import *` records nothing. -/
inductive Binding where
  | imp (name : List String) (asname : Option String)
  | frm (module name : String) (asname : Option String)
  | other
  deriving DecidableEq

/-- `ImportSymbol` (`scope.py` 16–22); a dotted name is the list of its parts. -/
structure Symbol where
  name : List String
  asname : Option String
  module : Option String
  deriving DecidableEq

mutual

/-- Expressions: names, literals, `e.a`, calls, `e[i]`, `lambda params: e`. -/
inductive Expr where
  | name (x : String)
  | lit (n : Nat)
  | attr (e : Expr) (a : String)
  | call (f : Expr) (as : Args)
  | sub (e i : Expr)
  | lam (params : List String) (e : Expr)

/-- Arguments, with keywords. -/
inductive Args where
  | nil
  | cons (k : Option String) (e : Expr) (as : Args)

end

/-- Targets of assignments. -/
inductive Target where
  | name (x : String)
  | attr (e : Expr) (a : String)
  | sub (e i : Expr)

/-- Statements; `aug` is `t += e`. -/
inductive Stmt where
  | assign (t : Target) (e : Expr)
  | aug (t : Target) (e : Expr)
  | expr (e : Expr)
  | ret (e : Expr)

/-- A function: the module it is written in, its name and parameters, the
expressions of its header (defaults, annotations, decorators), its body and what
the scope around it records for a symbol (the class, function or module that
encloses it, from the inside out). -/
structure Fn where
  module : String
  name : String
  params : List String
  header : List Expr
  body : List Stmt
  outer : List String → List Binding

/-- Names that a target binds. -/
def Target.binds : Target → List String
  | .name x => [x]
  | _ => []

/-- Names that the statements assign (`ScopeVisitor`, `scope.py` 290–319). -/
def assigned : List Stmt → List String
  | [] => []
  | .assign t _ :: ss | .aug t _ :: ss => t.binds ++ assigned ss
  | _ :: ss => assigned ss

/-- `symbol_parts[0] in self._function_scope` (`scope.py` 240–242): the scope of
the function in a module of its own: its parameters and variables, the function
itself and, as the outermost scope of libcst, builtins. -/
def inFunctionScope (builtin : String → Bool) (fn : Fn) (x : String) : Bool :=
  decide (x ∈ fn.params) || decide (x ∈ assigned fn.body) || x == fn.name || builtin x

/-- `_record_symbol_from_import_node` and the other case of
`_record_import_symbol` (`scope.py` 199–238). -/
def symbolOf (fn : Fn) (parts : List String) : Binding → List Symbol
  | .imp name none => if name = parts then [⟨name, none, none⟩] else []
  | .imp name (some a) => if [a] = parts then [⟨name, some a, none⟩] else []
  | .frm m n as => if [as.getD n] = parts then [⟨[n], as, some m⟩] else []
  | .other => [⟨parts, none, some fn.module⟩]

/-- `_record_import_symbol` (`scope.py` 199–216): whether the symbol is known, and
what is recorded. -/
def record (builtin : String → Bool) (fn : Fn) (parts : List String) : Bool × List Symbol :=
  match parts with
  | [] => (false, [])
  | x :: _ =>
    if inFunctionScope builtin fn x then (false, [])
    else if fn.outer parts = [] then (false, [])
    else (true, (fn.outer parts).flatMap (symbolOf fn parts))

/-- `_importable_attribute_parts` (`scope.py` 360–377). -/
def parts : Expr → List String
  | .name x => [x]
  | .attr e a => parts e ++ [a]
  | _ => []

mutual

/-- `_RequiredSymbolsVisitor` on expressions (`scope.py` 244–253). -/
def visit (builtin : String → Bool) (fn : Fn) : Expr → List Symbol
  | .name x => (record builtin fn [x]).2
  | .lit _ => []
  | .attr e a =>
    if (record builtin fn (parts (.attr e a))).1 then (record builtin fn (parts (.attr e a))).2
    else visit builtin fn e
  | .call f as => visit builtin fn f ++ visitArgs builtin fn as
  | .sub e i => visit builtin fn e ++ visit builtin fn i
  | .lam _ e => visit builtin fn e

/-- `visit_Arg`: the value, not the keyword. -/
def visitArgs (builtin : String → Bool) (fn : Fn) : Args → List Symbol
  | .nil => []
  | .cons _ e as => visit builtin fn e ++ visitArgs builtin fn as

end

/-- `visit_Assign`, `visit_AugAssign` (`scope.py` 271–287): the value, not the
target. -/
def visitStmt (builtin : String → Bool) (fn : Fn) : Stmt → List Symbol
  | .assign _ e | .aug _ e | .expr e | .ret e => visit builtin fn e

/-- `find_required_imports` (`scope.py` 94–155).  `fastforward` is not modelled. -/
def required (builtin : String → Bool) (fn : Fn) : List Symbol :=
  fn.header.flatMap (visit builtin fn) ++ fn.body.flatMap (visitStmt builtin fn)

/-- The order of imports: by module, name and alias (`builder.py` 83–85). -/
def before (s t : Symbol) : Bool :=
  let key := fun u : Symbol => (u.module.getD "", ".".intercalate u.name, u.asname.getD "")
  if (key s).1 ≠ (key t).1 then decide ((key s).1 < (key t).1)
  else if (key s).2.1 ≠ (key t).2.1 then decide ((key s).2.1 < (key t).2.1)
  else decide ((key s).2.2 ≤ (key t).2.2)

/-- Insertion before the first symbol that does not come before. -/
def insert (s : Symbol) : List Symbol → List Symbol
  | [] => [s]
  | t :: ts => if before s t then s :: t :: ts else t :: insert s ts

/-- `sorted` (`builder.py` 83). -/
def sort : List Symbol → List Symbol
  | [] => []
  | s :: ss => insert s (sort ss)

/-- `ModuleBuilder.import_statements` (`builder.py` 76–97).  The code removes
duplicates; importing twice does no more than importing once. -/
def importList (builtin : String → Bool) (fns : List Fn) : List Symbol :=
  sort (fns.flatMap (required builtin))

/-- What Python has loaded: modules by dotted name, the attributes of modules and
builtins. -/
structure World (V : Type) where
  modules : List String → Option V
  attr : String → String → Option V
  builtins : String → Option V
  /-- identifiers that are no keywords (`_is_valid_identifier`, `scope.py` 24–26) -/
  ident : String → Bool
  /-- `_is_valid_dotted_name` of the name of a module (28–31) -/
  dotted : String → Bool

variable {V : Type}

/-- `is_valid` (`scope.py` 33–40). -/
def isValid (w : World V) (s : Symbol) : Bool :=
  s.asname.all w.ident &&
    match s.module with
    | none => s.name.all w.ident
    | some m => w.dotted m && s.name.all w.ident

/-- The import statement of a symbol (`as_node`, `scope.py` 82–91): the name it
binds and the value, or an exception.  `import a.b` binds `a`. -/
def importNode (w : World V) (s : Symbol) : Option (String × V) :=
  match s.module, s.asname, s.name with
  | none, none, x :: rest => (w.modules (x :: rest)).bind fun _ => (w.modules [x]).map (x, ·)
  | none, some a, name => (w.modules name).map (a, ·)
  | some m, as, [n] => (w.attr m n).map (as.getD n, ·)
  | _, _, _ => none

/-- The assignment that is used if the symbol is not valid (`as_fallback_node`,
`scope.py` 42–79). -/
def fallbackNode (w : World V) (s : Symbol) : Option (String × V) :=
  match s.module, s.asname, s.name with
  | none, none, [x] => if w.ident x then (w.modules [x]).map (x, ·) else none
  | none, some a, name => if w.ident a then (w.modules name).map (a, ·) else none
  | some m, as, [n] => if w.ident (as.getD n) then (w.attr m n).map (as.getD n, ·) else none
  | _, _, _ => none

/-- One statement at the top of the module (`builder.py` 93–97). -/
def statement (w : World V) (s : Symbol) : Option (String × V) :=
  if isValid w s then importNode w s else fallbackNode w s

/-- Running statements one after the other; the last one is first in the result. -/
def execImports (w : World V) : List (String × V) → List Symbol → Option (List (String × V))
  | env, [] => some env
  | env, s :: ss => (statement w s).bind fun b => execImports w (b :: env) ss

/-- The globals of the generated module after its imports, or an exception. -/
def imported (w : World V) (fns : List Fn) : Option (List (String × V)) :=
  execImports w [] (importList (fun x => (w.builtins x).isSome) fns)

/-! ## Specification -/

/-- Reading a global name in the module a function is written in. -/
def sourceGlobal (w : World V) (m x : String) : Option V := (w.attr m x).or (w.builtins x)

/-- Reading a global name in the generated module. -/
def generatedGlobal (w : World V) (fns : List Fn) (x : String) : Option V :=
  (imported w fns).bind fun env => (env.lookup x).or (w.builtins x)

mutual

/-- The names that occur in an expression. -/
def names : Expr → List String
  | .name x => [x]
  | .lit _ => []
  | .attr e _ => names e
  | .call f as => names f ++ namesArgs as
  | .sub e i => names e ++ names i
  | .lam _ e => names e

/-- See `names`. -/
def namesArgs : Args → List String
  | .nil => []
  | .cons _ e as => names e ++ namesArgs as

end

mutual

/-- The names an expression reads that are not bound. -/
def free (bound : List String) : Expr → List String
  | .name x => if x ∈ bound then [] else [x]
  | .lit _ => []
  | .attr e _ => free bound e
  | .call f as => free bound f ++ freeArgs bound as
  | .sub e i => free bound e ++ free bound i
  | .lam ps e => free (ps ++ bound) e

/-- See `free`. -/
def freeArgs (bound : List String) : Args → List String
  | .nil => []
  | .cons _ e as => free bound e ++ freeArgs bound as

end

/-- The local names of a function: its parameters and the names that are targets
of its assignments. -/
def Fn.locals (fn : Fn) : List String :=
  fn.params ++ fn.body.flatMap fun
    | .assign (.name x) _ => [x]
    | .aug (.name x) _ => [x]
    | _ => []

/-- The names a target reads that are not bound. -/
def Target.free (bound : List String) : Target → List String
  | .name _ => []
  | .attr e _ => ImportSymbols.free bound e
  | .sub e i => ImportSymbols.free bound e ++ ImportSymbols.free bound i

/-- The global names a statement reads. -/
def Stmt.globals (bound : List String) : Stmt → List String
  | .assign t e | .aug t e => t.free bound ++ free bound e
  | .expr e | .ret e => free bound e

/-- The global names a function reads, when it is defined or when it runs. -/
def Fn.globals (fn : Fn) : List String :=
  fn.header.flatMap (free []) ++ fn.body.flatMap (Stmt.globals fn.locals)

/-- The expressions of a function but those in targets. -/
def Fn.exprs (fn : Fn) : List Expr :=
  fn.header ++ fn.body.map fun
    | .assign _ e | .aug _ e | .expr e | .ret e => e

/-- The expression is a name with attributes. -/
def rooted : Expr → Bool
  | .name _ => true
  | .attr e _ => rooted e
  | _ => false

mutual

/-- No attribute of something that is not a dotted name is called like something
in scope. -/
def AttrsApart (outer : List String → List Binding) : Expr → Prop
  | .name _ => True
  | .lit _ => True
  | .attr e a => (rooted e = true ∨ outer (parts (.attr e a)) = []) ∧ AttrsApart outer e
  | .call f as => AttrsApart outer f ∧ AttrsApartArgs outer as
  | .sub e i => AttrsApart outer e ∧ AttrsApart outer i
  | .lam _ e => AttrsApart outer e

/-- See `AttrsApart`. -/
def AttrsApartArgs (outer : List String → List Binding) : Args → Prop
  | .nil => True
  | .cons _ e as => AttrsApart outer e ∧ AttrsApartArgs outer as

end

mutual

/-- The dotted names in an expression, with the attributes after other
expressions. -/
def chains : Expr → List (List String)
  | .name x => [[x]]
  | .lit _ => []
  | .attr e a => parts (.attr e a) :: chains e
  | .call f as => chains f ++ chainsArgs as
  | .sub e i => chains e ++ chains i
  | .lam _ e => chains e

/-- See `chains`. -/
def chainsArgs : Args → List (List String)
  | .nil => []
  | .cons _ e as => chains e ++ chainsArgs as

end

/-- The import that stands for a statement which binds the dotted name in the
module `m`: the same import, with its alias, or an import from `m`. -/
inductive Stands (m : String) : List String → Binding → Symbol → Prop
  | module (name) : Stands m name (.imp name none) ⟨name, none, none⟩
  | moduleAs (name a) : Stands m [a] (.imp name (some a)) ⟨name, some a, none⟩
  | member (m' n) : Stands m [n] (.frm m' n none) ⟨[n], none, some m'⟩
  | memberAs (m' n a) : Stands m [a] (.frm m' n (some a)) ⟨[n], some a, some m'⟩
  | own (p) : Stands m p .other ⟨p, none, some m⟩

/-- The binding of a global is what it says: the module has under the name `x`
what the statement imports. -/
def Means (w : World V) (m x : String) : Binding → Prop
  | .imp name none => name = [x] ∧ w.ident x = true ∧ w.modules [x] = w.attr m x
  | .imp name (some a) => a = x ∧ (∀ p ∈ name, w.ident p = true) ∧ w.modules name = w.attr m x
  | .frm m' n as => as.getD n = x ∧ w.ident n = true ∧ w.attr m' n = w.attr m x
  | .other => True

/-- The function uses global names in the ways that are followed. -/
structure Plain (w : World V) (fn : Fn) : Prop where
  /-- a name that occurs and is not local is not in scope, and the module has no
  such global, or is bound once, is what it says, and is neither the name of the
  function nor a builtin -/
  once : ∀ e ∈ fn.exprs, ∀ x ∈ names e, x ∉ fn.locals →
    (fn.outer [x] = [] ∧ w.attr fn.module x = none) ∨
    (∃ b v, fn.outer [x] = [b] ∧ w.attr fn.module x = some v ∧ Means w fn.module x b ∧
      x ≠ fn.name ∧ w.builtins x = none ∧ w.ident x = true)
  /-- dotted names in scope are imported under that name -/
  dotted : ∀ e ∈ fn.exprs, ∀ x ∈ names e, x ∉ fn.locals → ∀ p, p ≠ [] → ∀ b ∈ fn.outer (x :: p),
    b = .imp (x :: p) none ∧ (w.modules (x :: p)).isSome = true ∧ (∀ q ∈ x :: p, w.ident q = true) ∧
    w.modules [x] = w.attr fn.module x ∧ (w.attr fn.module x).isSome = true
  /-- targets are names -/
  targets : ∀ s ∈ fn.body, match s with
    | .assign t _ | .aug t _ => t.free fn.locals = []
    | _ => True
  /-- defaults and annotations use no local names -/
  header : ∀ e ∈ fn.header, ∀ x ∈ names e, x ∉ fn.locals
  attrs : ∀ e ∈ fn.exprs, AttrsApart fn.outer e

/-- Functions that use the same global name mean the same by it. -/
def Agree (w : World V) (fns : List Fn) : Prop :=
  ∀ fn ∈ fns, ∀ fn' ∈ fns, ∀ e ∈ fn.exprs, ∀ e' ∈ fn'.exprs, ∀ x, x ∈ names e → x ∉ fn.locals →
    x ∈ names e' → x ∉ fn'.locals → ∀ v v', w.attr fn.module x = some v →
    w.attr fn'.module x = some v' → v = v'

/-! ## Lemmas -/

section

variable {w : World V} {fn : Fn}

/-- A symbol that binds `x` to what the module of the function has. -/
def Good (w : World V) (fn : Fn) (x : String) (s : Symbol) : Prop :=
  ∃ v, statement w s = some (x, v) ∧ w.attr fn.module x = some v

/-- The builtins of a world, as the scope analysis sees them. -/
abbrev World.builtin (w : World V) (x : String) : Bool := (w.builtins x).isSome

theorem locals_eq (fn : Fn) : fn.locals = fn.params ++ assigned fn.body := by
  have key : ∀ ss : List Stmt, (ss.flatMap fun
      | .assign (.name x) _ => [x]
      | .aug (.name x) _ => [x]
      | _ => []) = assigned ss := by
    intro ss
    induction ss with
    | nil => rfl
    | cons s ss ih =>
      rw [List.flatMap_cons, ih]
      cases s with
      | assign t e => cases t <;> rfl
      | aug t e => cases t <;> rfl
      | expr e => rfl
      | ret e => rfl
  rw [Fn.locals, key]

theorem not_inFunctionScope {x : String} (h1 : x ∉ fn.locals) (h2 : x ≠ fn.name) (h3 : w.builtins x = none) :
    inFunctionScope w.builtin fn x = false := by
  simp only [locals_eq, List.mem_append, not_or] at h1
  simp [inFunctionScope, h1.1, h1.2, h2, h3]

theorem not_local {x : String} (h : inFunctionScope w.builtin fn x = false) : x ∉ fn.locals := by
  simp only [inFunctionScope, Bool.or_eq_false_iff, decide_eq_false_iff_not] at h
  simp only [locals_eq, List.mem_append, not_or]
  exact ⟨h.1.1.1, h.1.1.2⟩

theorem all_ident {p : List String} (h : ∀ q ∈ p, w.ident q = true) : p.all w.ident = true := by
  rw [List.all_eq_true]; exact h

theorem statement_imp {x : String} {p : List String} (h1 : ∀ q ∈ x :: p, w.ident q = true)
    (h2 : (w.modules (x :: p)).isSome = true) {v : V} (h3 : w.modules [x] = some v) :
    statement w ⟨x :: p, none, none⟩ = some (x, v) := by
  have hv : isValid w ⟨x :: p, none, none⟩ = true := by
    simp only [isValid, Option.all_none, Bool.true_and]
    exact all_ident h1
  obtain ⟨u, hu⟩ := Option.isSome_iff_exists.1 h2
  simp only [statement, hv, if_true, importNode, hu, Option.bind_some, h3, Option.map_some]

theorem statement_as {a : String} {p : List String} (ha : w.ident a = true) {v : V}
    (h3 : w.modules p = some v) : statement w ⟨p, some a, none⟩ = some (a, v) := by
  simp only [statement, importNode, fallbackNode, ha, if_true, h3, Option.map_some]
  cases isValid w ⟨p, some a, none⟩ <;> rfl

theorem statement_frm {m n : String} {as : Option String} (ha : w.ident (as.getD n) = true) {v : V}
    (h3 : w.attr m n = some v) : statement w ⟨[n], as, some m⟩ = some (as.getD n, v) := by
  simp only [statement, importNode, fallbackNode, ha, if_true, h3, Option.map_some]
  cases isValid w ⟨[n], as, some m⟩ <;> rfl

theorem record_one (hp : Plain w fn) {e : Expr} (he : e ∈ fn.exprs) {x : String} (hx : x ∈ names e) :
    (∀ s ∈ (record w.builtin fn [x]).2, x ∉ fn.locals ∧ Good w fn x s) ∧
    (x ∉ fn.locals → w.attr fn.module x ≠ none → (record w.builtin fn [x]).2 ≠ []) := by
  by_cases hs : inFunctionScope w.builtin fn x = true
  · have hr : record w.builtin fn [x] = (false, []) := by simp only [record, hs, if_true]
    rw [hr]
    refine ⟨fun s h => (by cases h), fun hl ha => ?_⟩
    exfalso
    rcases hp.once e he x hx hl with h | ⟨b, v, _, _, _, h2, h3, _⟩
    · exact ha h.2
    · rw [not_inFunctionScope hl h2 h3] at hs
      cases hs
  · have hs : inFunctionScope w.builtin fn x = false := by
      cases h : inFunctionScope w.builtin fn x with
      | true => exact absurd h hs
      | false => rfl
    have hl := not_local hs
    rcases hp.once e he x hx hl with h | ⟨b, v, hb, hv, hm, h2, h3, hi⟩
    · have hr : record w.builtin fn [x] = (false, []) := by
        simp only [record, hs, Bool.false_eq_true, if_false, h.1, if_true]
      rw [hr]
      exact ⟨fun s h' => (by cases h'), fun _ ha => absurd h.2 ha⟩
    · have hr : record w.builtin fn [x] = (true, symbolOf fn [x] b) := by
        simp only [record, hs, Bool.false_eq_true, if_false, hb, List.flatMap_cons, List.flatMap_nil,
          List.append_nil]
        rfl
      rw [hr]
      cases b with
      | other =>
        have e1 : symbolOf fn [x] .other = [⟨[x], none, some fn.module⟩] := rfl
        simp only [e1]
        refine ⟨fun s hsm => ?_, fun _ _ => by simp⟩
        rw [List.mem_singleton] at hsm
        subst hsm
        exact ⟨hl, v, statement_frm (as := none) hi hv, hv⟩
      | frm m n as =>
        simp only [Means] at hm
        have e1 : symbolOf fn [x] (.frm m n as) = [⟨[n], as, some m⟩] := by
          simp only [symbolOf, hm.1, if_true]
        simp only [e1]
        refine ⟨fun s hsm => ?_, fun _ _ => by simp⟩
        rw [List.mem_singleton] at hsm
        subst hsm
        refine ⟨hl, v, ?_, hv⟩
        rw [statement_frm (by rw [hm.1]; exact hi) (hm.2.2.trans hv), hm.1]
      | imp name as =>
        cases as with
        | none =>
          simp only [Means] at hm
          have e1 : symbolOf fn [x] (.imp name none) = [⟨name, none, none⟩] := by
            simp only [symbolOf, hm.1, if_true]
          simp only [e1]
          refine ⟨fun s hsm => ?_, fun _ _ => by simp⟩
          rw [List.mem_singleton] at hsm
          subst hsm
          refine ⟨hl, v, ?_, hv⟩
          rw [hm.1]
          have hmv := hm.2.2.trans hv
          exact statement_imp (by simpa using hi) (by rw [hmv]; rfl) hmv
        | some a =>
          simp only [Means] at hm
          have e1 : symbolOf fn [x] (.imp name (some a)) = [⟨name, some a, none⟩] := by
            simp only [symbolOf, hm.1, if_true]
          simp only [e1]
          refine ⟨fun s hsm => ?_, fun _ _ => by simp⟩
          rw [List.mem_singleton] at hsm
          subst hsm
          refine ⟨hl, v, ?_, hv⟩
          rw [statement_as (by rw [hm.1]; exact hi) (hm.2.2.trans hv), hm.1]

theorem rooted_parts : ∀ e : Expr, rooted e = true → ∃ x p, parts e = x :: p ∧ names e = [x]
  | .name x, _ => ⟨x, [], rfl, rfl⟩
  | .attr e a, h => by
    obtain ⟨x, p, h1, h2⟩ := rooted_parts e (by simpa only [rooted] using h)
    exact ⟨x, p ++ [a], by simp only [parts, h1, List.cons_append], by simp only [names, h2]⟩

/-- A dotted name that is known is imported so that its first part is bound. -/
theorem record_dotted (hp : Plain w fn) {e : Expr} (he : e ∈ fn.exprs) {x : String} (hx : x ∈ names e)
    {p : List String} (hne : p ≠ []) (hr : (record w.builtin fn (x :: p)).1 = true) :
    (∀ s ∈ (record w.builtin fn (x :: p)).2, x ∉ fn.locals ∧ Good w fn x s) ∧
    (record w.builtin fn (x :: p)).2 ≠ [] := by
  simp only [record] at hr ⊢
  by_cases hs : inFunctionScope w.builtin fn x = true
  · rw [if_pos hs] at hr; cases hr
  · rw [if_neg hs] at hr ⊢
    have hl : x ∉ fn.locals := not_local (w := w) (by simpa using hs)
    by_cases ho : fn.outer (x :: p) = []
    · rw [if_pos ho] at hr; cases hr
    · rw [if_neg ho]
      have hall := hp.dotted e he x hx hl p hne
      refine ⟨fun s hsm => ⟨hl, ?_⟩, ?_⟩
      · obtain ⟨b, hb, hsb⟩ := List.mem_flatMap.1 hsm
        obtain ⟨rfl, h1, h2, h3, h4⟩ := hall b hb
        simp only [symbolOf, if_true, List.mem_singleton] at hsb
        subst hsb
        obtain ⟨v, hv⟩ := Option.isSome_iff_exists.1 h4
        exact ⟨v, statement_imp h2 h1 (h3.trans hv), hv⟩
      · cases hb : fn.outer (x :: p) with
        | nil => exact absurd hb ho
        | cons b bs =>
          have := (hall b (by rw [hb]; exact List.mem_cons_self)).1
          subst this
          simp [symbolOf]

mutual

/-- Every import that is collected binds a name that occurs to the right value. -/
theorem visit_good (hp : Plain w fn) {e0 : Expr} (he : e0 ∈ fn.exprs) : ∀ e : Expr, (∀ x ∈ names e, x ∈ names e0) →
    AttrsApart fn.outer e → ∀ s ∈ visit w.builtin fn e, ∃ x ∈ names e, x ∉ fn.locals ∧ Good w fn x s
  | .name x, hn, _, s, hs => by
    simp only [visit] at hs
    exact ⟨x, by simp [names], (record_one hp he (hn x (by simp [names]))).1 s hs⟩
  | .lit _, _, _, s, hs => by simp [visit] at hs
  | .attr e a, hn, ha, s, hs => by
    simp only [visit] at hs
    simp only [AttrsApart] at ha
    by_cases hr : (record w.builtin fn (parts (.attr e a))).1 = true
    · rw [if_pos hr] at hs
      rcases ha.1 with h | h
      · obtain ⟨x, p, h1, h2⟩ := rooted_parts e h
        have hpa : parts (.attr e a) = x :: (p ++ [a]) := by simp only [parts, h1, List.cons_append]
        rw [hpa] at hr hs
        have hx : x ∈ names e := by rw [h2]; exact List.mem_singleton.2 rfl
        exact ⟨x, by simpa only [names] using hx,
          (record_dotted hp he (hn x (by simpa only [names] using hx)) (by simp) hr).1 s hs⟩
      · exfalso
        revert hr
        cases hpe : parts (.attr e a) with
        | nil => simp [record]
        | cons y q =>
          rw [hpe] at h
          simp only [record, h, if_true]
          by_cases hs : inFunctionScope w.builtin fn y = true
          · rw [if_pos hs]; simp
          · rw [if_neg hs]; simp
    · rw [if_neg hr] at hs
      obtain ⟨x, hx, h⟩ := visit_good hp he e (fun x hx => hn x (by simpa only [names] using hx)) ha.2 s hs
      exact ⟨x, by simpa only [names] using hx, h⟩
  | .call f as, hn, ha, s, hs => by
    simp only [visit, List.mem_append] at hs
    simp only [AttrsApart] at ha
    rcases hs with hs | hs
    · obtain ⟨x, hx, h⟩ := visit_good hp he f (fun x hx => hn x (by simp [names, hx])) ha.1 s hs
      exact ⟨x, by simp [names, hx], h⟩
    · obtain ⟨x, hx, h⟩ := visitArgs_good hp he as (fun x hx => hn x (by simp [names, hx])) ha.2 s hs
      exact ⟨x, by simp [names, hx], h⟩
  | .sub e i, hn, ha, s, hs => by
    simp only [visit, List.mem_append] at hs
    simp only [AttrsApart] at ha
    rcases hs with hs | hs
    · obtain ⟨x, hx, h⟩ := visit_good hp he e (fun x hx => hn x (by simp [names, hx])) ha.1 s hs
      exact ⟨x, by simp [names, hx], h⟩
    · obtain ⟨x, hx, h⟩ := visit_good hp he i (fun x hx => hn x (by simp [names, hx])) ha.2 s hs
      exact ⟨x, by simp [names, hx], h⟩
  | .lam ps e, hn, ha, s, hs => by
    simp only [visit] at hs
    simp only [AttrsApart] at ha
    obtain ⟨x, hx, h⟩ := visit_good hp he e (fun x hx => hn x (by simpa only [names] using hx)) ha s hs
    exact ⟨x, by simpa only [names] using hx, h⟩

theorem visitArgs_good (hp : Plain w fn) {e0 : Expr} (he : e0 ∈ fn.exprs) : ∀ as : Args,
    (∀ x ∈ namesArgs as, x ∈ names e0) → AttrsApartArgs fn.outer as →
    ∀ s ∈ visitArgs w.builtin fn as, ∃ x ∈ namesArgs as, x ∉ fn.locals ∧ Good w fn x s
  | .nil, _, _, s, hs => by simp [visitArgs] at hs
  | .cons k e as, hn, ha, s, hs => by
    simp only [visitArgs, List.mem_append] at hs
    simp only [AttrsApartArgs] at ha
    rcases hs with hs | hs
    · obtain ⟨x, hx, h⟩ := visit_good hp he e (fun x hx => hn x (by simp [namesArgs, hx])) ha.1 s hs
      exact ⟨x, by simp [namesArgs, hx], h⟩
    · obtain ⟨x, hx, h⟩ := visitArgs_good hp he as (fun x hx => hn x (by simp [namesArgs, hx])) ha.2 s hs
      exact ⟨x, by simp [namesArgs, hx], h⟩

end

/-- What a dotted name contributes. -/
theorem visit_rooted (hp : Plain w fn) {e0 : Expr} (he : e0 ∈ fn.exprs) : ∀ e : Expr, rooted e = true →
    ∀ x, names e = [x] → x ∈ names e0 → x ∉ fn.locals → w.attr fn.module x ≠ none →
    AttrsApart fn.outer e → ∃ s ∈ visit w.builtin fn e, Good w fn x s
  | .name y, _, x, hx, hx0, hl, hv, _ => by
    simp only [names, List.cons.injEq, and_true] at hx
    subst hx
    obtain ⟨h1, h2⟩ := record_one hp he hx0
    have := h2 hl hv
    cases hr : (record w.builtin fn [y]).2 with
    | nil => exact absurd hr this
    | cons s ss =>
      exact ⟨s, by simp only [visit, hr]; exact List.mem_cons_self,
        (h1 s (by rw [hr]; exact List.mem_cons_self)).2⟩
  | .attr e a, hr, x, hx, hx0, hl, hv, ha => by
    simp only [rooted] at hr
    simp only [names] at hx
    simp only [AttrsApart] at ha
    obtain ⟨y, p, h1, h2⟩ := rooted_parts e hr
    have hyx : y = x := by rw [h2] at hx; simpa using hx
    subst hyx
    have hpa : parts (.attr e a) = y :: (p ++ [a]) := by simp only [parts, h1, List.cons_append]
    by_cases hk : (record w.builtin fn (parts (.attr e a))).1 = true
    · have hk' := hk
      rw [hpa] at hk'
      obtain ⟨g1, g2⟩ := record_dotted hp he hx0 (p := p ++ [a]) (by simp) hk'
      cases hrr : (record w.builtin fn (y :: (p ++ [a]))).2 with
      | nil => exact absurd hrr g2
      | cons s ss =>
        refine ⟨s, ?_, (g1 s (by rw [hrr]; exact List.mem_cons_self)).2⟩
        simp only [visit, if_pos hk]
        rw [hpa, hrr]
        exact List.mem_cons_self
    · obtain ⟨s, hs, hg⟩ := visit_rooted hp he e hr y h2 hx0 hl hv ha.2
      exact ⟨s, by simp only [visit, if_neg hk]; exact hs, hg⟩

mutual

/-- Every global that an expression reads is imported. -/
theorem visit_covers (hp : Plain w fn) {e0 : Expr} (he : e0 ∈ fn.exprs) : ∀ (e : Expr) (bound : List String),
    (∀ x ∈ names e, x ∈ names e0) → AttrsApart fn.outer e →
    ∀ x ∈ free bound e, x ∉ fn.locals → w.attr fn.module x ≠ none →
      x ∈ names e ∧ ∃ s ∈ visit w.builtin fn e, Good w fn x s
  | .name y, bound, hn, ha, x, hx, hl, hv => by
    simp only [free] at hx
    by_cases hb : y ∈ bound
    · rw [if_pos hb] at hx; cases hx
    · rw [if_neg hb, List.mem_singleton] at hx
      subst hx
      exact ⟨by simp [names], visit_rooted hp he (.name x) rfl x rfl (hn x (by simp [names])) hl hv ha⟩
  | .lit _, _, _, _, x, hx, _, _ => by simp [free] at hx
  | .attr e a, bound, hn, ha, x, hx, hl, hv => by
    simp only [free] at hx
    have ha' := ha
    simp only [AttrsApart] at ha
    obtain ⟨h1, s, hs, hg⟩ := visit_covers hp he e bound (fun x hx => hn x (by simpa only [names] using hx)) ha.2 x hx hl hv
    refine ⟨by simpa only [names] using h1, ?_⟩
    rcases ha.1 with h | h
    · obtain ⟨y, p, h2, h3⟩ := rooted_parts e h
      have hxy : x = y := by rw [h3] at h1; simpa using h1
      subst hxy
      exact visit_rooted hp he (.attr e a) h x h3 (hn x (by simpa only [names] using h1)) hl hv ha'
    · refine ⟨s, ?_, hg⟩
      have hk : ¬ (record w.builtin fn (parts (.attr e a))).1 = true := by
        cases hpe : parts (.attr e a) with
        | nil => simp [record]
        | cons y q =>
          rw [hpe] at h
          simp only [record, h, if_true]
          by_cases hs : inFunctionScope w.builtin fn y = true
          · rw [if_pos hs]; simp
          · rw [if_neg hs]; simp
      simp only [visit, if_neg hk]
      exact hs
  | .call f as, bound, hn, ha, x, hx, hl, hv => by
    simp only [free, List.mem_append] at hx
    simp only [AttrsApart] at ha
    rcases hx with hx | hx
    · obtain ⟨h1, s, hs, hg⟩ := visit_covers hp he f bound (fun x hx => hn x (by simp [names, hx])) ha.1 x hx hl hv
      exact ⟨by simp [names, h1], s, by simp [visit, hs], hg⟩
    · obtain ⟨h1, s, hs, hg⟩ := visitArgs_covers hp he as bound (fun x hx => hn x (by simp [names, hx])) ha.2 x hx hl hv
      exact ⟨by simp [names, h1], s, by simp [visit, hs], hg⟩
  | .sub e i, bound, hn, ha, x, hx, hl, hv => by
    simp only [free, List.mem_append] at hx
    simp only [AttrsApart] at ha
    rcases hx with hx | hx
    · obtain ⟨h1, s, hs, hg⟩ := visit_covers hp he e bound (fun x hx => hn x (by simp [names, hx])) ha.1 x hx hl hv
      exact ⟨by simp [names, h1], s, by simp [visit, hs], hg⟩
    · obtain ⟨h1, s, hs, hg⟩ := visit_covers hp he i bound (fun x hx => hn x (by simp [names, hx])) ha.2 x hx hl hv
      exact ⟨by simp [names, h1], s, by simp [visit, hs], hg⟩
  | .lam ps e, bound, hn, ha, x, hx, hl, hv => by
    simp only [free] at hx
    simp only [AttrsApart] at ha
    obtain ⟨h1, s, hs, hg⟩ := visit_covers hp he e (ps ++ bound) (fun x hx => hn x (by simpa only [names] using hx)) ha x hx hl hv
    exact ⟨by simpa only [names] using h1, s, by simpa only [visit] using hs, hg⟩

theorem visitArgs_covers (hp : Plain w fn) {e0 : Expr} (he : e0 ∈ fn.exprs) : ∀ (as : Args) (bound : List String),
    (∀ x ∈ namesArgs as, x ∈ names e0) → AttrsApartArgs fn.outer as →
    ∀ x ∈ freeArgs bound as, x ∉ fn.locals → w.attr fn.module x ≠ none →
      x ∈ namesArgs as ∧ ∃ s ∈ visitArgs w.builtin fn as, Good w fn x s
  | .nil, _, _, _, x, hx, _, _ => by simp [freeArgs] at hx
  | .cons k e as, bound, hn, ha, x, hx, hl, hv => by
    simp only [freeArgs, List.mem_append] at hx
    simp only [AttrsApartArgs] at ha
    rcases hx with hx | hx
    · obtain ⟨h1, s, hs, hg⟩ := visit_covers hp he e bound (fun x hx => hn x (by simp [namesArgs, hx])) ha.1 x hx hl hv
      exact ⟨by simp [namesArgs, h1], s, by simp [visitArgs, hs], hg⟩
    · obtain ⟨h1, s, hs, hg⟩ := visitArgs_covers hp he as bound (fun x hx => hn x (by simp [namesArgs, hx])) ha.2 x hx hl hv
      exact ⟨by simp [namesArgs, h1], s, by simp [visitArgs, hs], hg⟩

end

theorem required_eq (builtin : String → Bool) (fn : Fn) :
    ∀ s, s ∈ required builtin fn ↔ ∃ e ∈ fn.exprs, s ∈ visit builtin fn e := by
  intro s
  simp only [required, Fn.exprs, List.mem_append, List.mem_flatMap, List.mem_map]
  constructor
  · rintro (⟨e, he, hs⟩ | ⟨st, hst, hs⟩)
    · exact ⟨e, .inl he, hs⟩
    · cases st with
      | assign t e => exact ⟨e, .inr ⟨_, hst, rfl⟩, hs⟩
      | aug t e => exact ⟨e, .inr ⟨_, hst, rfl⟩, hs⟩
      | expr e => exact ⟨e, .inr ⟨_, hst, rfl⟩, hs⟩
      | ret e => exact ⟨e, .inr ⟨_, hst, rfl⟩, hs⟩
  · rintro ⟨e, he | ⟨st, hst, hse⟩, hs⟩
    · exact .inl ⟨e, he, hs⟩
    · refine .inr ⟨st, hst, ?_⟩
      cases st <;> (simp only at hse; subst hse; exact hs)

theorem required_good (hp : Plain w fn) {s : Symbol} (hs : s ∈ required w.builtin fn) :
    ∃ e ∈ fn.exprs, ∃ x ∈ names e, x ∉ fn.locals ∧ Good w fn x s := by
  obtain ⟨e, he, hse⟩ := (required_eq _ _ s).1 hs
  exact ⟨e, he, visit_good hp he e (fun _ h => h) (hp.attrs e he) s hse⟩

mutual

theorem free_spec : ∀ (e : Expr) (bound : List String) (x : String), x ∈ free bound e → x ∉ bound ∧ x ∈ names e
  | .name y, bound, x, h => by
    simp only [free] at h
    by_cases hb : y ∈ bound
    · rw [if_pos hb] at h; cases h
    · rw [if_neg hb, List.mem_singleton] at h
      subst h
      exact ⟨hb, by simp [names]⟩
  | .lit _, _, x, h => by simp [free] at h
  | .attr e _, bound, x, h => by
    simp only [free] at h
    simpa only [names] using free_spec e bound x h
  | .call f as, bound, x, h => by
    simp only [free, List.mem_append] at h
    simp only [names, List.mem_append]
    rcases h with h | h
    · exact ⟨(free_spec f bound x h).1, .inl (free_spec f bound x h).2⟩
    · exact ⟨(freeArgs_spec as bound x h).1, .inr (freeArgs_spec as bound x h).2⟩
  | .sub e i, bound, x, h => by
    simp only [free, List.mem_append] at h
    simp only [names, List.mem_append]
    rcases h with h | h
    · exact ⟨(free_spec e bound x h).1, .inl (free_spec e bound x h).2⟩
    · exact ⟨(free_spec i bound x h).1, .inr (free_spec i bound x h).2⟩
  | .lam ps e, bound, x, h => by
    simp only [free] at h
    have := free_spec e (ps ++ bound) x h
    simp only [List.mem_append, not_or] at this
    exact ⟨this.1.2, by simpa only [names] using this.2⟩

theorem freeArgs_spec : ∀ (as : Args) (bound : List String) (x : String), x ∈ freeArgs bound as →
    x ∉ bound ∧ x ∈ namesArgs as
  | .nil, _, x, h => by simp [freeArgs] at h
  | .cons k e as, bound, x, h => by
    simp only [freeArgs, List.mem_append] at h
    simp only [namesArgs, List.mem_append]
    rcases h with h | h
    · exact ⟨(free_spec e bound x h).1, .inl (free_spec e bound x h).2⟩
    · exact ⟨(freeArgs_spec as bound x h).1, .inr (freeArgs_spec as bound x h).2⟩

end

theorem globals_exprs (hp : Plain w fn) {x : String} (hx : x ∈ fn.globals) :
    x ∉ fn.locals ∧ ∃ e ∈ fn.exprs, ∃ bound, x ∈ free bound e := by
  simp only [Fn.globals, List.mem_append, List.mem_flatMap] at hx
  rcases hx with ⟨e, he, hx⟩ | ⟨st, hst, hx⟩
  · exact ⟨hp.header e he x (free_spec e [] x hx).2, e, List.mem_append_left _ he, [], hx⟩
  · have key : ∀ e, x ∈ free fn.locals e → (∃ st ∈ fn.body, (match st with
        | .assign _ e | .aug _ e | .expr e | .ret e => e) = e) →
        x ∉ fn.locals ∧ ∃ e ∈ fn.exprs, ∃ bound, x ∈ free bound e := by
      rintro e hx ⟨st, hst, h⟩
      exact ⟨(free_spec e _ x hx).1, e, List.mem_append_right _ (List.mem_map.2 ⟨st, hst, h⟩), _, hx⟩
    have ht := hp.targets st hst
    cases st with
    | assign t e =>
      simp only at ht
      simp only [Stmt.globals, ht, List.nil_append] at hx
      exact key e hx ⟨_, hst, rfl⟩
    | aug t e =>
      simp only at ht
      simp only [Stmt.globals, ht, List.nil_append] at hx
      exact key e hx ⟨_, hst, rfl⟩
    | expr e => exact key e hx ⟨_, hst, rfl⟩
    | ret e => exact key e hx ⟨_, hst, rfl⟩

end

theorem execImports_spec (w : World V) : ∀ (ss : List Symbol) (env : List (String × V)),
    (∀ s ∈ ss, ∃ b, statement w s = some b) →
    ∃ env', execImports w env ss = some (env' ++ env) ∧
      ∀ b, b ∈ env' ↔ ∃ s ∈ ss, statement w s = some b
  | [], env, _ => ⟨[], rfl, by simp⟩
  | s :: ss, env, h => by
    obtain ⟨b, hb⟩ := h s List.mem_cons_self
    obtain ⟨env', h1, h2⟩ := execImports_spec w ss (b :: env) fun t ht => h t (List.mem_cons_of_mem _ ht)
    refine ⟨env' ++ [b], by simp only [execImports, hb, Option.bind_some, h1, List.append_assoc]; rfl, fun c => ?_⟩
    rw [List.mem_append, h2, List.mem_singleton]
    constructor
    · rintro (⟨t, ht, hc⟩ | rfl)
      · exact ⟨t, List.mem_cons_of_mem _ ht, hc⟩
      · exact ⟨s, List.mem_cons_self, hb⟩
    · rintro ⟨t, ht, hc⟩
      rcases List.mem_cons.1 ht with rfl | ht
      · rw [hb] at hc; cases hc; exact .inr rfl
      · exact .inl ⟨t, ht, hc⟩

theorem mem_insert (s t : Symbol) : ∀ ss, t ∈ insert s ss ↔ t = s ∨ t ∈ ss
  | [] => by simp [insert]
  | u :: ss => by
    simp only [insert]
    split
    · simp
    · simp only [List.mem_cons, mem_insert s t ss]
      constructor
      · rintro (h | h | h) <;> simp [h]
      · rintro (h | h | h) <;> simp [h]

theorem mem_sort (t : Symbol) : ∀ ss, t ∈ sort ss ↔ t ∈ ss
  | [] => by simp [sort]
  | s :: ss => by simp only [sort, mem_insert, mem_sort t ss, List.mem_cons]

theorem lookup_some_mem {l : List (String × V)} {x : String} {v : V} (h : l.lookup x = some v) :
    (x, v) ∈ l := by
  induction l with
  | nil => cases h
  | cons p l ih =>
    simp only [List.lookup] at h
    split at h
    · rename_i he
      cases h
      rw [beq_iff_eq] at he
      subst he
      exact List.mem_cons_self
    · exact List.mem_cons_of_mem _ (ih h)

theorem lookup_none_iff {l : List (String × V)} {x : String} (h : l.lookup x = none) (v : V) :
    (x, v) ∉ l := by
  induction l with
  | nil => simp
  | cons p l ih =>
    simp only [List.lookup] at h
    split at h
    · cases h
    · rename_i he
      rw [beq_eq_false_iff_ne] at he
      intro hm
      rcases List.mem_cons.1 hm with rfl | hm
      · exact he rfl
      · exact ih h hm

theorem symbolOf_stands {fn : Fn} {p : List String} {b : Binding} {s : Symbol} (h : s ∈ symbolOf fn p b) :
    Stands fn.module p b s := by
  cases b with
  | other =>
    simp only [symbolOf, List.mem_singleton] at h
    subst h
    exact .own p
  | imp name as =>
    cases as with
    | none =>
      simp only [symbolOf] at h
      split at h
      · rename_i he
        rw [List.mem_singleton] at h
        subst h he
        exact .module _
      · cases h
    | some a =>
      simp only [symbolOf] at h
      split at h
      · rename_i he
        rw [List.mem_singleton] at h
        subst h he
        exact .moduleAs _ _
      · cases h
  | frm m n as =>
    simp only [symbolOf] at h
    split at h
    · rename_i he
      rw [List.mem_singleton] at h
      subst h he
      cases as with
      | none => exact .member _ _
      | some a => exact .memberAs _ _ _
    · cases h

/-- What is recorded stands for a binding of a name that is not local. -/
def Justified (builtin : String → Bool) (fn : Fn) (p : List String) (s : Symbol) : Prop :=
  (∃ x q, p = x :: q ∧ x ∉ fn.locals ∧ x ≠ fn.name ∧ builtin x = false) ∧
  ∃ b ∈ fn.outer p, Stands fn.module p b s

theorem record_justified {builtin : String → Bool} {fn : Fn} {p : List String} {s : Symbol}
    (h : s ∈ (record builtin fn p).2) : Justified builtin fn p s := by
  cases p with
  | nil => simp [record] at h
  | cons x q =>
    simp only [record] at h
    by_cases hs : inFunctionScope builtin fn x = true
    · rw [if_pos hs] at h; cases h
    · rw [if_neg hs] at h
      by_cases ho : fn.outer (x :: q) = []
      · rw [if_pos ho] at h; cases h
      · rw [if_neg ho] at h
        obtain ⟨b, hb, hsb⟩ := List.mem_flatMap.1 h
        simp only [inFunctionScope, Bool.not_eq_true, Bool.or_eq_false_iff, decide_eq_false_iff_not,
          beq_eq_false_iff_ne] at hs
        refine ⟨⟨x, q, rfl, ?_, hs.1.2, hs.2⟩, b, hb, symbolOf_stands hsb⟩
        simp only [locals_eq, List.mem_append, not_or]
        exact hs.1.1

mutual

theorem visit_justified {builtin : String → Bool} {fn : Fn} : ∀ (e : Expr), ∀ s ∈ visit builtin fn e,
    ∃ p ∈ chains e, Justified builtin fn p s
  | .name x, s, h => ⟨[x], by simp [chains], record_justified (by simpa only [visit] using h)⟩
  | .lit _, s, h => by simp [visit] at h
  | .attr e a, s, h => by
    simp only [visit] at h
    split at h
    · exact ⟨_, by simp only [chains]; exact List.mem_cons_self, record_justified h⟩
    · obtain ⟨p, hp, hj⟩ := visit_justified e s h
      exact ⟨p, by simp only [chains]; exact List.mem_cons_of_mem _ hp, hj⟩
  | .call f as, s, h => by
    simp only [visit, List.mem_append] at h
    rcases h with h | h
    · obtain ⟨p, hp, hj⟩ := visit_justified f s h
      exact ⟨p, by simp [chains, hp], hj⟩
    · obtain ⟨p, hp, hj⟩ := visitArgs_justified as s h
      exact ⟨p, by simp [chains, hp], hj⟩
  | .sub e i, s, h => by
    simp only [visit, List.mem_append] at h
    rcases h with h | h
    · obtain ⟨p, hp, hj⟩ := visit_justified e s h
      exact ⟨p, by simp [chains, hp], hj⟩
    · obtain ⟨p, hp, hj⟩ := visit_justified i s h
      exact ⟨p, by simp [chains, hp], hj⟩
  | .lam _ e, s, h => by
    simp only [visit] at h
    obtain ⟨p, hp, hj⟩ := visit_justified e s h
    exact ⟨p, by simpa only [chains] using hp, hj⟩

theorem visitArgs_justified {builtin : String → Bool} {fn : Fn} : ∀ (as : Args), ∀ s ∈ visitArgs builtin fn as,
    ∃ p ∈ chainsArgs as, Justified builtin fn p s
  | .nil, s, h => by simp [visitArgs] at h
  | .cons k e as, s, h => by
    simp only [visitArgs, List.mem_append] at h
    rcases h with h | h
    · obtain ⟨p, hp, hj⟩ := visit_justified e s h
      exact ⟨p, by simp [chainsArgs, hp], hj⟩
    · obtain ⟨p, hp, hj⟩ := visitArgs_justified as s h
      exact ⟨p, by simp [chainsArgs, hp], hj⟩

end

/-! ## Properties -/

/-- **C104.** Nothing is imported without a use: every import of a function
stands for a binding, in the scope around it, of a dotted name that the function
contains and whose first part is neither a parameter nor a variable of it. -/
theorem imports_are_used (builtin : String → Bool) (fn : Fn) :
    ∀ s ∈ required builtin fn, ∃ e ∈ fn.exprs, ∃ p ∈ chains e, (∃ x q, p = x :: q ∧ x ∉ fn.locals) ∧
      ∃ b ∈ fn.outer p, Stands fn.module p b s := by
  intro s hs
  obtain ⟨e, he, hse⟩ := (required_eq _ _ s).1 hs
  obtain ⟨p, hp, ⟨x, q, h1, h2, _⟩, h3⟩ := visit_justified e s hse
  exact ⟨e, he, p, hp, ⟨x, q, h1, h2⟩, h3⟩

/-- **C104.** An import statement is written if all names in it are identifiers,
and the assignment if one is not. -/
theorem import_written_iff_valid (w : World V) (s : Symbol) :
    ((∀ a, s.asname = some a → w.ident a = true) → (∀ m, s.module = some m → w.dotted m = true) →
      (∀ q ∈ s.name, w.ident q = true) → statement w s = importNode w s) ∧
    (((∃ a, s.asname = some a ∧ w.ident a = false) ∨ (∃ m, s.module = some m ∧ w.dotted m = false) ∨
      (∃ q ∈ s.name, w.ident q = false)) → statement w s = fallbackNode w s) := by
  obtain ⟨name, as, m⟩ := s
  constructor
  · intro h1 h2 h3
    have : isValid w ⟨name, as, m⟩ = true := by
      have ha : as.all w.ident = true := by
        cases as with
        | none => rfl
        | some a => exact h1 a rfl
      have hn : name.all w.ident = true := List.all_eq_true.2 h3
      cases m with
      | none => simp only [isValid, ha, hn, Bool.true_and]
      | some m => simp only [isValid, ha, hn, h2 m rfl, Bool.true_and]
    rw [statement, if_pos this]
  · intro h
    have : isValid w ⟨name, as, m⟩ = false := by
      rcases h with ⟨a, h, hf⟩ | ⟨m', h, hf⟩ | ⟨q, hq, hf⟩
      · simp only at h
        subst h
        simp only [isValid, Option.all_some, hf, Bool.false_and]
      · simp only at h
        subst h
        simp only [isValid, hf, Bool.false_and, Bool.and_false]
      · have hn : name.all w.ident = false := by
          cases hc : name.all w.ident with
          | false => rfl
          | true => rw [List.all_eq_true] at hc; rw [hc q hq] at hf; cases hf
        cases m with
        | none => simp only [isValid, hn, Bool.and_false]
        | some m => simp only [isValid, hn, Bool.and_false]
    rw [statement, if_neg (by rw [this]; exact Bool.false_ne_true)]

/-- **C104.** The assignment that replaces an import with a name that is not
valid does the same as the import would: it binds the same name to the same
value. -/
theorem fallback_does_the_same (w : World V) (s : Symbol) (b : String × V)
    (h : fallbackNode w s = some b) : importNode w s = some b := by
  obtain ⟨name, as, m⟩ := s
  cases m with
  | none =>
    cases as with
    | none =>
      match name, h with
      | [x], h =>
        simp only [fallbackNode] at h
        split at h
        · simp only [importNode]
          cases hm : w.modules [x] with
          | none => rw [hm] at h; cases h
          | some v => rw [hm] at h; exact h
        · cases h
    | some a =>
      simp only [fallbackNode] at h
      split at h
      · simpa only [importNode] using h
      · cases h
  | some m =>
    match name, h with
    | [n], h =>
      simp only [fallbackNode] at h
      split at h
      · simpa only [importNode] using h
      · cases h

/-- **C104 (partial).** The imports of the generated module succeed, and every
name that a converted function reads as a global has there the value that it has
in the module the function is written in.  Missing: functions that use names in
ways that are not followed (`Plain`), and functions of different modules that
mean different things by the same name (`Agree`); see the deviations. -/
theorem globals_keep_values_partial (w : World V) (fns : List Fn) (hp : ∀ fn ∈ fns, Plain w fn)
    (ha : Agree w fns) :
    (∃ env, imported w fns = some env) ∧
    ∀ fn ∈ fns, ∀ x ∈ fn.globals, ∀ v, sourceGlobal w fn.module x = some v →
      generatedGlobal w fns x = some v := by
  have hmem : ∀ s, s ∈ importList w.builtin fns ↔ ∃ fn ∈ fns, s ∈ required w.builtin fn := by
    intro s
    rw [importList, mem_sort, List.mem_flatMap]
  have hgood : ∀ s ∈ importList w.builtin fns, ∃ b, statement w s = some b := by
    intro s hs
    obtain ⟨fn, hf, hs⟩ := (hmem s).1 hs
    obtain ⟨_, _, x, _, _, v, h, _⟩ := required_good (hp fn hf) hs
    exact ⟨_, h⟩
  obtain ⟨env, h1, h2⟩ := execImports_spec w _ [] hgood
  rw [List.append_nil] at h1
  have himp : imported w fns = some env := h1
  refine ⟨⟨env, himp⟩, fun fn hf x hx v hv => ?_⟩
  obtain ⟨hl, e, he, bound, hfr⟩ := globals_exprs (hp fn hf) hx
  have hxe := (free_spec e bound x hfr).2
  -- what the environment has under the name
  have henv : ∀ v', (x, v') ∈ env → ∃ fn' ∈ fns, ∃ e' ∈ fn'.exprs, x ∈ names e' ∧ x ∉ fn'.locals ∧
      w.attr fn'.module x = some v' := by
    intro v' hm
    obtain ⟨s, hs, hst⟩ := (h2 _).1 hm
    obtain ⟨fn', hf', hs⟩ := (hmem s).1 hs
    obtain ⟨e', he', y, hy, hly, v'', h3, h4⟩ := required_good (hp fn' hf') hs
    rw [h3] at hst
    cases hst
    exact ⟨fn', hf', e', he', hy, hly, h4⟩
  simp only [generatedGlobal, himp, Option.bind_some]
  cases hat : w.attr fn.module x with
  | some u =>
    rw [sourceGlobal, hat, Option.some_or] at hv
    cases hv
    obtain ⟨_, s, hs, v', h3, h4⟩ := visit_covers (hp fn hf) he e bound (fun _ h => h)
      ((hp fn hf).attrs e he) x hfr hl (by rw [hat]; exact Option.some_ne_none _)
    have hm : (x, v') ∈ env :=
      (h2 _).2 ⟨s, (hmem s).2 ⟨fn, hf, (required_eq _ _ s).2 ⟨e, he, hs⟩⟩, h3⟩
    cases hlk : env.lookup x with
    | none => exact absurd hm (lookup_none_iff hlk v')
    | some u =>
      obtain ⟨fn', hf', e', he', g1, g2, g3⟩ := henv u (lookup_some_mem hlk)
      rw [ha fn hf fn' hf' e he e' he' x hxe hl g1 g2 v u hat g3]
      rfl
  | none =>
    rw [sourceGlobal, hat, Option.none_or] at hv
    have hlk : env.lookup x = none := by
      cases hlk : env.lookup x with
      | none => rfl
      | some u =>
        exfalso
        obtain ⟨fn', hf', e', he', g1, g2, g3⟩ := henv u (lookup_some_mem hlk)
        rcases (hp fn' hf').once e' he' x g1 g2 with h | ⟨_, _, _, _, _, _, h, _⟩
        · rw [h.2] at g3; cases g3
        · rw [hv] at h; cases h
    rw [hlk, Option.none_or, hv]

/-! ## Deviations -/

namespace Small

/-- A world with two modules `m1` and `m2`, some libraries and the builtin
`sum`.  `other.f` does not exist. -/
def world : World String where
  modules p :=
    if p = ["torch"] then some "torch"
    else if p = ["torch", "nn", "functional"] then some "torch.nn.functional"
    else if p = ["torch", "nn"] then some "torch.nn"
    else none
  attr m x :=
    if m = "m1" then
      if x = "EPS" then some "1e-5"
      else if x = "sum" then some "ops.sum"
      else if x = "norm" then some "ops.norm"
      else if x = "f" then some "wrapped f"
      else if x = "CACHE" then some "cache"
      else if x = "torch" then some "torch"
      else if x = "F" then some "torch.nn.functional"
      else if x = "scale" then some "scale"
      else if x = "_private" then some "private"
      else none
    else if m = "m2" then
      if x = "EPS" then some "1e-6"
      else if x = "norm" then some "ops.norm"
      else none
    else if m = "ops" then
      if x = "sum" then some "ops.sum"
      else if x = "norm" then some "ops.norm"
      else if x = "f" then some "f"
      else none
    else none
  builtins x := if x = "sum" then some "builtin sum" else if x = "len" then some "builtin len" else none
  ident x := x ≠ "class"
  dotted _ := true

/-- A function of `m1` without parameters. -/
def fn (name : String) (e : Expr) (outer : List String → List Binding) : Fn :=
  ⟨"m1", name, [], [], [.ret e], outer⟩

/-- The scope in which a symbol has the given bindings, and others have none. -/
def binding (x : String) (bs : List Binding) (p : List String) : List Binding := if p = [x] then bs else []

/-- `return EPS`, in two modules with a constant of that name. -/
def eps1 : Fn := fn "forward" (.name "EPS") (binding "EPS" [.other])

/-- See `eps1`. -/
def eps2 : Fn := { eps1 with module := "m2" }

/-- `from ops import sum` … `return sum(0)`. -/
def builtin : Fn := fn "forward" (.call (.name "sum") (.cons none (.lit 0) .nil)) (binding "sum" [.frm "ops" "sum" none])

/-- `from ops import norm` … `def norm(): return norm(0)`, a method. -/
def ownName : Fn := fn "norm" (.call (.name "norm") (.cons none (.lit 0) .nil)) (binding "norm" [.frm "ops" "norm" none])

/-- `try: from missing import f` / `except ImportError: from ops import f`. -/
def conditional : Fn := fn "forward" (.name "f") (binding "f" [.frm "missing" "f" none, .frm "ops" "f" none])

/-- `from ops import f` … `f = wrap(f)`. -/
def rebound : Fn := fn "forward" (.name "f") (binding "f" [.frm "ops" "f" none, .other])

/-- `CACHE[0] = 1`. -/
def target : Fn :=
  ⟨"m1", "forward", [], [], [.assign (.sub (.name "CACHE") (.lit 0)) (.lit 1)], binding "CACHE" [.other]⟩

/-- `return f().norm`, where the module also has a function `norm`. -/
def attrCall : Fn :=
  fn "forward" (.attr (.call (.name "f") .nil) "norm")
    (fun p => if p = ["f"] then [.other] else if p = ["norm"] then [.frm "ops" "norm" none] else [])

/-- `import torch` / `import torch.nn.functional` … `return torch.nn.Linear`. -/
def prefixed : Fn :=
  fn "forward" (.attr (.attr (.name "torch") "nn") "Linear")
    (fun p =>
      if p = ["torch"] then [.imp ["torch"] none, .imp ["torch", "nn", "functional"] none]
      else if p = ["torch", "nn"] then [.imp ["torch", "nn", "functional"] none]
      else if p = ["torch", "nn", "functional"] then [.imp ["torch", "nn", "functional"] none]
      else [])

/-- A variable of the function around the function. -/
def closure : Fn := fn "inner" (.name "k") (binding "k" [.other])

/-- `from ops import *` … `return f`. -/
def star : Fn := fn "forward" (.name "f") (fun _ => [])

/-- `def forward(scale=scale): return scale`. -/
def default : Fn :=
  ⟨"m1", "forward", ["scale"], [.name "scale"], [.ret (.name "scale")], binding "scale" [.other]⟩

/-- `import torch.nn.functional as F`, `from ops import norm`, `EPS = …`:
`y = F.relu(norm(x, eps=EPS)); return len(y)`. -/
def good : Fn :=
  ⟨"m1", "forward", ["x"], [],
    [.assign (.name "y") (.call (.attr (.name "F") "relu")
      (.cons none (.call (.name "norm") (.cons none (.name "x") (.cons (some "eps") (.name "EPS") .nil))) .nil)),
     .ret (.call (.name "len") (.cons none (.name "y") .nil))],
    fun p =>
      if p = ["F"] then [.imp ["torch", "nn", "functional"] (some "F")]
      else if p = ["norm"] then [.frm "ops" "norm" none]
      else if p = ["EPS"] then [.other]
      else []⟩

/-- Another module that uses `norm`. -/
def good2 : Fn :=
  ⟨"m2", "forward", ["x"], [], [.ret (.call (.name "norm") (.cons none (.name "x") .nil))],
    binding "norm" [.frm "ops" "norm" none]⟩

end Small

open Small

/-- **C104, deviation.** If functions of two modules use a global with the same
name, it is imported twice, and both read the one that is imported last. -/
theorem same_name_in_two_modules :
    "EPS" ∈ eps1.globals ∧ sourceGlobal world "m1" "EPS" = some "1e-5" ∧
    generatedGlobal world [eps1, eps2] "EPS" = some "1e-6" := by
  refine ⟨?_, ?_, ?_⟩ <;> decide +kernel

/-- **C104, deviation.** A global with the name of a builtin is not imported: the
generated function uses the builtin. -/
theorem global_named_like_builtin :
    "sum" ∈ builtin.globals ∧ sourceGlobal world "m1" "sum" = some "ops.sum" ∧
    generatedGlobal world [builtin] "sum" = some "builtin sum" := by
  refine ⟨?_, ?_, ?_⟩ <;> decide +kernel

/-- **C104, deviation.** A method that uses a global with its own name finds none
in the generated module. -/
theorem global_named_like_method :
    "norm" ∈ ownName.globals ∧ sourceGlobal world "m1" "norm" = some "ops.norm" ∧
    generatedGlobal world [ownName] "norm" = none := by
  refine ⟨?_, ?_, ?_⟩ <;> decide +kernel

/-- **C104, deviation.** If a name is imported from different modules, depending
on which exist, all of the imports are generated; the generated module cannot be
loaded. -/
theorem conditional_import_fails :
    "f" ∈ conditional.globals ∧ sourceGlobal world "m1" "f" = some "wrapped f" ∧
    imported world [conditional] = none := by
  refine ⟨?_, ?_, ?_⟩ <;> decide +kernel

/-- **C104, deviation.** If a module assigns to a name it has imported, the
generated function may read what was imported: imports are in the order of the
names of modules. -/
theorem rebound_import_kept :
    "f" ∈ rebound.globals ∧ sourceGlobal world "m1" "f" = some "wrapped f" ∧
    generatedGlobal world [rebound] "f" = some "f" := by
  refine ⟨?_, ?_, ?_⟩ <;> decide +kernel

/-- **C104, deviation.** Names in the target of an assignment are not imported. -/
theorem name_in_target_not_imported :
    "CACHE" ∈ target.globals ∧ sourceGlobal world "m1" "CACHE" = some "cache" ∧
    generatedGlobal world [target] "CACHE" = none := by
  refine ⟨?_, ?_, ?_⟩ <;> decide +kernel

/-- **C104, deviation.** If an attribute of the result of a call has the name of
a global, that global is imported, and the function that is called is not. -/
theorem attribute_named_like_global :
    "f" ∈ attrCall.globals ∧ sourceGlobal world "m1" "f" = some "wrapped f" ∧
    generatedGlobal world [attrCall] "f" = none := by
  refine ⟨?_, ?_, ?_⟩ <;> decide +kernel

/-- **C104, deviation.** In a module with `import torch` and
`import torch.nn.functional`, a use of `torch.nn.Linear` imports nothing. -/
theorem part_of_dotted_import :
    "torch" ∈ prefixed.globals ∧ sourceGlobal world "m1" "torch" = some "torch" ∧
    generatedGlobal world [prefixed] "torch" = none := by
  refine ⟨?_, ?_, ?_⟩ <;> decide +kernel

/-- **C104, deviation.** A variable of an enclosing function is imported from the
module, which has no such name: the generated module cannot be loaded. -/
theorem closure_variable_fails : "k" ∈ closure.globals ∧ imported world [closure] = none := by
  refine ⟨?_, ?_⟩ <;> decide +kernel

/-- **C104, deviation.** Names that a module gets by `import *` are not
imported. -/
theorem star_import_lost :
    "f" ∈ star.globals ∧ sourceGlobal world "m1" "f" = some "wrapped f" ∧
    generatedGlobal world [star] "f" = none := by
  refine ⟨?_, ?_, ?_⟩ <;> decide +kernel

/-- **C104, deviation.** A default that is a global with the name of the
parameter is not imported. -/
theorem default_named_like_parameter :
    "scale" ∈ default.globals ∧ sourceGlobal world "m1" "scale" = some "scale" ∧
    generatedGlobal world [default] "scale" = none := by
  refine ⟨?_, ?_, ?_⟩ <;> decide +kernel

/-! ## Concrete cases -/

theorem good_plain : Plain world good where
  once := by
    intro e he x hx hl
    have : x = "F" ∨ x = "norm" ∨ x = "EPS" ∨ x = "len" ∨ x = "x" ∨ x = "y" := by
      simp only [good, Fn.exprs, List.nil_append, List.map_cons, List.map_nil, List.mem_cons,
        List.not_mem_nil, or_false] at he
      rcases he with rfl | rfl
      · simp [names, namesArgs] at hx
        rcases hx with h | h | h | h <;> simp [h]
      · simp [names, namesArgs] at hx
        rcases hx with h | h <;> simp [h]
    rcases this with rfl | rfl | rfl | rfl | rfl | rfl
    · exact .inr ⟨_, _, rfl, rfl, ⟨rfl, by decide, by decide +kernel⟩, by decide, by decide, by decide⟩
    · exact .inr ⟨_, _, rfl, rfl, ⟨rfl, by decide, by decide +kernel⟩, by decide, by decide, by decide⟩
    · exact .inr ⟨_, _, rfl, rfl, trivial, by decide, by decide, by decide⟩
    · exact .inl ⟨rfl, rfl⟩
    · exact absurd (by decide) hl
    · exact absurd (by decide) hl
  dotted := by
    intro e he x hx hl p hp b hb
    have hne : ∀ y : String, x :: p ≠ [y] := by
      intro y h
      cases h
      exact hp rfl
    simp [good, hne] at hb
  targets := by
    intro s hs
    simp only [good, List.mem_cons, List.not_mem_nil, or_false] at hs
    rcases hs with rfl | rfl <;> simp [Target.free]
  header := by intro e he; cases he
  attrs := by
    intro e he
    simp only [good, Fn.exprs, List.nil_append, List.map_cons, List.map_nil, List.mem_cons,
      List.not_mem_nil, or_false] at he
    rcases he with rfl | rfl <;> simp [AttrsApart, AttrsApartArgs, rooted]

theorem good2_plain : Plain world good2 where
  once := by
    intro e he x hx hl
    have : x = "norm" ∨ x = "x" := by
      simp only [good2, Fn.exprs, List.nil_append, List.map_cons, List.map_nil, List.mem_cons,
        List.not_mem_nil, or_false] at he
      subst he
      simpa [names, namesArgs] using hx
    rcases this with rfl | rfl
    · exact .inr ⟨_, _, rfl, rfl, ⟨rfl, by decide, by decide +kernel⟩, by decide, by decide, by decide⟩
    · exact absurd (by decide) hl
  dotted := by
    intro e he x hx hl p hp b hb
    have hne : ∀ y : String, x :: p ≠ [y] := by
      intro y h
      cases h
      exact hp rfl
    simp [good2, binding, hne] at hb
  targets := by
    intro s hs
    simp only [good2, List.mem_cons, List.not_mem_nil, or_false] at hs
    subst hs
    trivial
  header := by intro e he; cases he
  attrs := by
    intro e he
    simp only [good2, Fn.exprs, List.nil_append, List.map_cons, List.map_nil, List.mem_cons,
      List.not_mem_nil, or_false] at he
    subst he
    simp [AttrsApart, AttrsApartArgs]

theorem good_agree : Agree world [good, good2] := by
  intro fn hf fn' hf' e he e' he' x hx hl hx' hl' v v' hv hv'
  have key : ∀ fn ∈ [good, good2], ∀ e ∈ fn.exprs, x ∈ names e → x ∉ fn.locals →
      (x ≠ "norm" → fn = good) := by
    intro fn hf e he hx hl hn
    simp only [List.mem_cons, List.not_mem_nil, or_false] at hf
    rcases hf with rfl | rfl
    · rfl
    · exfalso
      simp only [good2, Fn.exprs, List.nil_append, List.map_cons, List.map_nil, List.mem_cons,
        List.not_mem_nil, or_false] at he
      subst he
      simp [names, namesArgs, hn] at hx
      subst hx
      exact hl (by decide)
  by_cases hn : x = "norm"
  · subst hn
    have hm : ∀ fn ∈ [good, good2], ∀ v, world.attr fn.module "norm" = some v → v = "ops.norm" := by
      intro fn hf v hv
      simp only [List.mem_cons, List.not_mem_nil, or_false] at hf
      rcases hf with rfl | rfl
      · have h : world.attr good.module "norm" = some "ops.norm" := by decide +kernel
        rw [h] at hv
        cases hv
        rfl
      · have h : world.attr good2.module "norm" = some "ops.norm" := by decide +kernel
        rw [h] at hv
        cases hv
        rfl
    rw [hm fn hf v hv, hm fn' hf' v' hv']
  · rw [key fn hf e he hx hl hn] at hv
    rw [key fn' hf' e' he' hx' hl' hn, hv] at hv'
    cases hv'
    rfl

/-- The hypotheses of `globals_keep_values_partial` hold for two functions of
different modules. -/
example : generatedGlobal world [good, good2] "norm" = some "ops.norm" ∧
    generatedGlobal world [good, good2] "F" = some "torch.nn.functional" := by
  have h := (globals_keep_values_partial world [good, good2]
    (by
      intro fn hf
      simp only [List.mem_cons, List.not_mem_nil, or_false] at hf
      rcases hf with rfl | rfl
      · exact good_plain
      · exact good2_plain) good_agree).2 good (by simp)
  exact ⟨h "norm" (by decide) _ (by decide +kernel), h "F" (by decide) _ (by decide +kernel)⟩

example : required (fun x => (world.builtins x).isSome) good =
    [⟨["torch", "nn", "functional"], some "F", none⟩, ⟨["norm"], none, some "ops"⟩, ⟨["EPS"], none, some "m1"⟩] := by
  decide +kernel

example : fallbackNode world ⟨["norm"], none, some "ops"⟩ = some ("norm", "ops.norm") := by decide +kernel

/-- A module whose name is no identifier is loaded by the assignment. -/
example :
    let w : World Nat := ⟨fun _ => none, fun m n => if m = "my-mod" ∧ n = "f" then some 3 else none, fun _ => none,
      fun _ => true, fun m => m ≠ "my-mod"⟩
    (∃ m, (⟨["f"], none, some "my-mod"⟩ : Symbol).module = some m ∧ w.dotted m = false) ∧
      statement w ⟨["f"], none, some "my-mod"⟩ = some ("f", 3) := by
  exact ⟨⟨_, rfl, by decide +kernel⟩, by decide +kernel⟩

end FF.ImportSymbols
