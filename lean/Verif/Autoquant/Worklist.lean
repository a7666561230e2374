/-!
# Which functions autoquant converts

`autoquant` converts the `forward` method of every module type of the model.
The functions these methods call are found by reading the source of what was
converted: calls of methods of the same class, calls of functions by name and
calls by dotted path.  They are put in a queue and converted in turn, until the
queue is empty.  This file models the two searches, the queue and the choice of
module types (`_autoquant/autoquant.py`), and proves that the loop ends, that
nothing is converted twice, that only what is called is converted, and when
everything that is called is converted.
-/

namespace FF.Worklist

/-! ## Model -/

/-- A function object; identity of the object is equality of the number. -/
abbrev Fn := Nat
/-- A torch module class. -/
abbrev Cls := Nat

/-- `MethodType` without `NO_METHOD` (`type_common.py` 25–41). -/
inductive Kind where
  | method | classMethod | staticMethod
deriving DecidableEq, Repr

/-- A function stored in the `__dict__` of a class: how it is wrapped, and the
function. -/
structure Member where
  kind : Kind
  fn : Fn
deriving DecidableEq, Repr

/-- The Python objects names refer to: functions, methods bound to a class
(what reading a class method gives), torch module classes, Python modules, and
anything else (plain classes, instances, builtins). -/
inductive Ref where
  | fn (f : Fn)
  | bound (f : Fn)
  | cls (c : Cls)
  | mod (m : Nat)
  | other (k : Nat)
deriving DecidableEq, Repr

/-- The function expression of a call: a name, a dotted path `x.y.….a` (the
names before the last one, and the last one), or anything else. -/
inductive Callee where
  | name (x : String)
  | attr (x : String) (path : List String) (a : String)
  | opaque
deriving DecidableEq, Repr

/-- A call in the source of a function: whether it was marked as a candidate for
replacement (`cst/passes.py` 237–397) and what it calls. -/
structure Call where
  marked : Bool
  callee : Callee
deriving DecidableEq, Repr

/-- What converting a function produces: a method of the generated class for a
module type, or a helper function of the generated module. -/
inductive Place where
  | method (c : Cls) (n : String)
  | helper (f : Fn)
deriving DecidableEq, Repr

/-- The Python program the model under quantization lives in.

* `ancestors`: the method resolution order of a class after the class itself;
* `classDict`: the functions in the `__dict__` of a class (attributes that are
  not functions are left out);
* `attr`: attributes of modules and other objects that are not torch classes;
* `scope`: the globals and closure variables a function uses
  (`inspect.getclosurevars`), without its parameters (`params`) and local
  variables;
* `defName`: the name in the `def` statement (also taken for `__name__`);
* `firstParam`: the first parameter;
* `calls`: the calls in the source, in order;
* `pyModule`: `sys.modules.get(ref.__module__)`;
* `noModule`, `unhashable`: objects without `__module__`, and objects that
  cannot be hashed;
* `inTable`: registered in the operator table;
* `bypassed`: one of the callables autoquant must leave alone;
* `sourceFile`: the function has a regular source file;
* `converts`: reading the source and converting it raises no exception. -/
structure World where
  ancestors : Cls → List Cls
  classDict : Cls → String → Option Member
  attr : Ref → String → Option Ref
  scope : Fn → String → Option Ref
  defName : Fn → String
  firstParam : Fn → Option String
  calls : Fn → List Call
  pyModule : Ref → Option Nat
  noModule : Nat → Bool
  unhashable : Nat → Bool
  inTable : Ref → Bool
  bypassed : Ref → Bool
  sourceFile : Fn → Bool
  converts : Place → Bool
  params : ∀ f x, firstParam f = some x → scope f x = none

/-- `cls.__mro__`: it begins with the class itself. -/
def World.mro (w : World) (c : Cls) : List Cls := c :: w.ancestors c

/-- Attribute lookup on a class finds the first class in the method resolution
order that has the name (Python's `type.__getattribute__`, for functions). -/
def World.find (w : World) (c : Cls) (n : String) : Option Member :=
  (w.mro c).findSome? (fun o => w.classDict o n)

/-- `getattr(obj, name, None)`.  Reading a class method from a class gives a
bound method; reading another function gives the function. -/
def World.getattr (w : World) (r : Ref) (n : String) : Option Ref :=
  match r with
  | .cls c =>
    match w.find c n with
    | some m => some (if m.kind = .classMethod then .bound m.fn else .fn m.fn)
    | none => none
  | r => w.attr r n

/-- `_AqTask` (`autoquant.py` 290–296): the function, the class or module it
belongs to, and the name it was reached by. -/
structure Task where
  function : Ref
  owner : Ref
  alias : Option String
deriving DecidableEq, Repr

/-- The function behind a reference (`__func__` for bound methods). -/
def Ref.code : Ref → Option Fn
  | .fn f => some f
  | .bound f => some f
  | _ => none

/-- `_resolve_method_owner_and_name` (`autoquant.py` 305–327), first loop: the
first class in the resolution order whose own entry under the accessed name is
the function. -/
def ownerByName (w : World) (n : String) (r : Ref) : List Cls → Option Cls
  | [] => none
  | o :: os =>
    match w.classDict o n with
    | some m => if r = .fn m.fn then some o else ownerByName w n r os
    | none => ownerByName w n r os

/-- The source that is read for a method: the function found under the resolved
owner and name (`autoquant.py` 205–219, with `source_context.get` following the
reference to the function's definition).  The second loop of
`_resolve_method_owner_and_name`, over all names of all classes, can only be
reached with a bound method, which is identical to no class entry; the result is
then the class itself with the accessed name. -/
def methodSource (w : World) (c : Cls) (n : String) (r : Ref) : Option Fn :=
  match ownerByName w n r (w.mro c) with
  | some o => (w.getattr (.cls o) n).bind Ref.code
  | none => (w.getattr (.cls c) n).bind Ref.code

/-- The kind of the method `n` of `c`, through the resolution order
(`FunctionContext._from_torch_module`, `function_context.py` 61–90). -/
def methodKind (w : World) (c : Cls) (n : String) : Option Kind :=
  (w.find c n).map (·.kind)

/-- `ctx.instance_var` (`function_context.py` 80–87). -/
def instanceVar (w : World) (c : Cls) (n : String) (f : Fn) : Option String :=
  if methodKind w c n = some .method then w.firstParam f else none

/-- `ctx.class_var` (`function_context.py` 80–88). -/
def classVar (w : World) (c : Cls) (n : String) (f : Fn) : Option String :=
  if methodKind w c n = some .classMethod then w.firstParam f else none

/-- `_scope_vars_and_module_refs` (`autoquant.py` 1219–1238): the scope of the
object found in the class or module under the name in the function's `def`
statement; `none` if there is none (`ValueError`); no names if its variables
cannot be read (`TypeError`). -/
def scopeVars (w : World) (owner : Ref) (f : Fn) : Option (String → Option Ref) :=
  match w.getattr owner (w.defName f) with
  | none => none
  | some (.fn g) => some (w.scope g)
  | some (.bound g) => some (w.scope g)
  | some _ => some (fun _ => none)

/-- The names that stand for the class: the class parameter and the names in
scope that refer to it (`autoquant.py` 1053–1058). -/
def classRefs (w : World) (c : Cls) (n : String) (f : Fn) (x : String) : Bool :=
  (classVar w c n f == some x) ||
  (match scopeVars w (.cls c) f with
   | some sc => sc x == some (.cls c)
   | none => false)

/-- One call in `_find_dependent_methods` (`autoquant.py` 1060–1079).
`method_type` looks at the `__dict__` of the class only (`type_common.py`
44–66). -/
def methodTask (w : World) (c : Cls) (n : String) (f : Fn) : Callee → Option Task
  | .attr x [] a =>
    if instanceVar w c n f = some x ∨ classRefs w c n f x = true then
      match w.classDict c a with
      | some _ => (w.getattr (.cls c) a).map (fun r => ⟨r, .cls c, some a⟩)
      | none => none
    else none
  | .name x =>
    if methodKind w c n = some .method ∧ instanceVar w c n f = some x then
      (w.getattr (.cls c) "forward").map (fun r => ⟨r, .cls c, some "forward"⟩)
    else none
  | _ => none

/-- `_find_dependent_methods` (`autoquant.py` 1021–1079). -/
def dependentMethods (w : World) (c : Cls) (n : String) (f : Fn) : List Task :=
  ((w.calls f).filter (·.marked)).filterMap (fun k => methodTask w c n f k.callee)

/-- What the search finds for one call: nothing, a task, or an exception. -/
inductive Found where
  | nothing
  | task (t : Task)
  | raised
deriving DecidableEq, Repr

/-- `_resolve_attribute` (`autoquant.py` 1241–1260): the object before the last
attribute and the object itself; `none` for the `AttributeError`, and for an
object that is `None`. -/
def resolveAttr (w : World) (sc : String → Option Ref) (x : String) (path : List String)
    (a : String) : Option (Ref × Ref) :=
  match path.foldl (fun r p => r.bind (fun r => w.getattr r p)) (sc x) with
  | some parent => (w.getattr parent a).map (fun r => (parent, r))
  | none => none

/-- Looking an object up in a set of callables raises for an object that cannot
be hashed (`bypass.py` 82–84). -/
def Ref.cannotHash (w : World) : Ref → Bool
  | .other k => w.unhashable k
  | _ => false

/-- Reading `__module__` raises for some objects (`autoquant.py` 1140). -/
def Ref.lacksModule (w : World) : Ref → Bool
  | .other k => w.noModule k
  | _ => false

/-- The last checks of both cases: only Python functions with a source file that
are not in the operator table (`autoquant.py` 1147–1158, 1197–1208). -/
def inspected (w : World) (r : Ref) (t : Task) : Found :=
  match r with
  | .fn g => if w.sourceFile g = true ∧ w.inTable (.fn g) = false then .task t else .nothing
  | _ => .nothing

/-- `_is_method_call` (`autoquant.py` 1117–1128), for a search in a method of a
class; helper functions have no method calls. -/
def isMethodCall (w : World) (owner : Ref) (inst : Option String)
    (sc : String → Option Ref) : Callee → Bool
  | .attr x [] a =>
    match owner with
    | .cls c => (inst == some x || sc x == some (.cls c)) && (w.classDict c a).isSome
    | _ => false
  | _ => false

/-- One call in `_find_dependent_functions` (`autoquant.py` 1130–1216). -/
def functionTask (w : World) (owner : Ref) (inst : Option String) (sc : String → Option Ref)
    (k : Callee) : Found :=
  if isMethodCall w owner inst sc k then .nothing
  else
    match k with
    | .name x =>
      match sc x with
      | none => .nothing
      | some r =>
        if r.lacksModule w then .raised
        else
          match w.pyModule r with
          | none => .nothing
          | some m =>
            if r.cannotHash w then .raised
            else if w.bypassed r then .nothing
            else
              inspected w r
                ⟨r, .mod m, if w.getattr (.mod m) x = some r then some x else none⟩
    | .attr x path a =>
      match resolveAttr w sc x path a with
      | none => .nothing
      | some (parent, r) =>
        if r.cannotHash w then .raised
        else if w.bypassed r then .nothing
        else inspected w r ⟨r, parent, some a⟩
    | .opaque => .nothing

/-- The tasks found until the first exception. -/
def collect : List Found → List Task
  | [] => []
  | .nothing :: fs => collect fs
  | .task t :: fs => t :: collect fs
  | .raised :: _ => []

/-- `_find_dependent_functions` (`autoquant.py` 1082–1216).  The generator is
consumed as the queue is filled, so that the tasks before an exception are
queued. -/
def dependentFunctions (w : World) (owner : Ref) (inst : Option String) (f : Fn) : List Task :=
  match scopeVars w owner f with
  | none => []
  | some sc =>
    collect (((w.calls f).filter (·.marked)).map
      (fun k => functionTask w owner inst sc k.callee))

/-- A helper that was converted: the function, the module it was reached
through, and the name it was given. -/
structure Helper where
  fn : Fn
  owner : Ref
  name : String
deriving DecidableEq, Repr

/-- A method that was converted: class, name, and the function whose source was
converted. -/
structure Method where
  cls : Cls
  name : String
  fn : Fn
deriving DecidableEq, Repr

/-- The state of the loop (`autoquant.py` 126–133): the queue, the helper
functions of the module builder, the methods of the class builders. -/
structure State where
  queue : List Task
  helpers : List Helper
  methods : List Method
deriving Repr

/-- The name of a task: `task.alias or task.function.__name__`
(`autoquant.py` 139).  Names are never empty. -/
def taskName (w : World) (t : Task) : String :=
  match t.alias with
  | some a => a
  | none => ((t.function.code).map w.defName).getD ""

/-- One round of the loop (`autoquant.py` 135–266).  A function that is already
a helper of the module is skipped; only helpers are seen by this test, because
the classes are added to the module after the loop (268–269).  An exception
leaves a warning and nothing else.  A task for a class (148–153) is never made
by the two searches and is left out. -/
def step (w : World) (s : State) : State :=
  match s.queue with
  | [] => s
  | t :: q =>
    if s.helpers.any (fun h => t.function == .fn h.fn) then { s with queue := q }
    else
      match t.owner with
      | .mod m =>
        match t.function.code with
        | some f =>
          if w.converts (.helper f) then
            { queue := q ++ dependentFunctions w (.mod m) none f
              helpers := s.helpers ++ [⟨f, .mod m, taskName w t⟩]
              methods := s.methods }
          else { s with queue := q }
        | none => { s with queue := q }
      | .cls c =>
        if s.methods.any (fun m => m.cls == c && m.name == taskName w t) then
          { s with queue := q }
        else
          match methodSource w c (taskName w t) t.function with
          | some f =>
            if w.converts (.method c (taskName w t)) then
              { queue := q ++
                  (dependentMethods w c (taskName w t) f ++
                   dependentFunctions w (.cls c) (instanceVar w c (taskName w t) f) f).filter
                    (fun t => !w.inTable t.function)
                helpers := s.helpers
                methods := s.methods ++ [⟨c, taskName w t, f⟩] }
            else { s with queue := q }
          | none => { s with queue := q }
      | _ => { s with queue := q }

/-- `n` rounds. -/
def rounds (w : World) : Nat → State → State
  | 0, s => s
  | n + 1, s => rounds w n (step w s)

/-- `_find_unquantized_submodules` (`autoquant.py` 457–474), on the types of the
modules in the order of `modules()`: the first occurrence of every type that is
not known. -/
def unquantized (known : List Cls) : List Cls → List Cls
  | [] => []
  | c :: cs => if c ∈ known then unquantized known cs else c :: unquantized (c :: known) cs

/-- The queue at the start: `forward` of every module type (`autoquant.py`
126–132). -/
def start (w : World) (known types : List Cls) : State where
  queue := (unquantized known types).filterMap
    (fun c => (w.getattr (.cls c) "forward").map (fun r => ⟨r, .cls c, some "forward"⟩))
  helpers := []
  methods := []

/-! ## Specification -/

/-- Looking up the name `n` on class `c` finds `m`: the first class in the
resolution order with an entry of that name has `m`. -/
def Inherits (w : World) (c : Cls) (n : String) (m : Member) : Prop :=
  ∃ before o after, w.mro c = before ++ o :: after ∧ w.classDict o n = some m ∧
    ∀ b ∈ before, w.classDict b n = none

/-- Reading an attribute of an object gives another object.  On a class this is
the inherited function, or a bound method for a class method. -/
inductive Attr (w : World) : Ref → String → Ref → Prop where
  | object (r n r') : (∀ c, r ≠ .cls c) → w.attr r n = some r' → Attr w r n r'
  | function (c n m) : Inherits w c n m → m.kind ≠ .classMethod → Attr w (.cls c) n (.fn m.fn)
  | bound (c n m) : Inherits w c n m → m.kind = .classMethod → Attr w (.cls c) n (.bound m.fn)

/-- A path of attributes leads from one object to another. -/
inductive Leads (w : World) : Ref → List String → Ref → Prop where
  | here (r) : Leads w r [] r
  | step (r r' r'' p ps) : Attr w r p r' → Leads w r' ps r'' → Leads w r (p :: ps) r''

/-- How a function is called. -/
inductive Via where
  | itself | instance | classParam | className | name | path (parent : Ref)
deriving DecidableEq, Repr

/-- What is called when the code of a method or helper runs. -/
inductive Runs (w : World) : Place → Fn → Prop where
  | method (c n m) : Inherits w c n m → Runs w (.method c n) m.fn
  | helper (f) : Runs w (.helper f) f

/-- The call `k` in the code of `p` calls `q`. -/
inductive Calls (w : World) : Place → Call → Via → Place → Prop where
  /-- `self(…)` runs `forward`. -/
  | itself (c n m k x m') : Inherits w c n m → m.kind = .method →
      k ∈ w.calls m.fn → k.callee = .name x → w.firstParam m.fn = some x →
      Inherits w c "forward" m' →
      Calls w (.method c n) k .itself (.method c "forward")
  /-- `self.a(…)`. -/
  | instance (c n m k x a m') : Inherits w c n m → m.kind = .method →
      k ∈ w.calls m.fn → k.callee = .attr x [] a → w.firstParam m.fn = some x →
      Inherits w c a m' →
      Calls w (.method c n) k .instance (.method c a)
  /-- `cls.a(…)` in a class method. -/
  | classParam (c n m k x a m') : Inherits w c n m → m.kind = .classMethod →
      k ∈ w.calls m.fn → k.callee = .attr x [] a → w.firstParam m.fn = some x →
      Inherits w c a m' →
      Calls w (.method c n) k .classParam (.method c a)
  /-- `ClassName.a(…)` or `module.….ClassName.a(…)`. -/
  | className (p f k x r ps c a m') : Runs w p f →
      k ∈ w.calls f → k.callee = .attr x ps a → w.scope f x = some r →
      Leads w r ps (.cls c) → Inherits w c a m' →
      Calls w p k .className (.method c a)
  /-- `helper(…)`. -/
  | name (p f k x g) : Runs w p f →
      k ∈ w.calls f → k.callee = .name x → w.scope f x = some (.fn g) →
      Calls w p k .name (.helper g)
  /-- `module.….helper(…)`. -/
  | path (p f k x r ps a parent g) : Runs w p f →
      k ∈ w.calls f → k.callee = .attr x ps a → w.scope f x = some r →
      Leads w r ps parent → (∀ c, parent ≠ .cls c) → w.attr parent a = some (.fn g) →
      Calls w p k (.path parent) (.helper g)

/-- The code of the place is to be left alone or cannot be converted: it is a
registered operator, must not be rewritten, has no source file, or its
conversion fails. -/
def Excluded (w : World) (q : Place) : Prop :=
  w.converts q = false ∨
  ∃ f, Runs w q f ∧
    (w.sourceFile f = false ∨
      ∃ r, (r = .fn f ∨ r = .bound f) ∧ (w.inTable r = true ∨ w.bypassed r = true))

/-- Autoquant produced code for the place. -/
def Converted (s : State) : Place → Prop
  | .method c n => ∃ m ∈ s.methods, m.cls = c ∧ m.name = n
  | .helper f => ∃ h ∈ s.helpers, h.fn = f

/-- Reached from the `forward` methods of the module types, through marked or
unmarked calls. -/
inductive Reached (w : World) (known types : List Cls) : Place → Prop where
  | forward (c m) : c ∈ types → c ∉ known → Inherits w c "forward" m →
      Reached w known types (.method c "forward")
  | call (p k v q) : Reached w known types p → Calls w p k v q → Reached w known types q

/-- The program is laid out plainly:

* the name of a method's `def` statement leads back to the method;
* every module that offers a function, and the module a function was defined in,
  offer it under the name of its `def` statement;
* no function is both a method and a function offered by a module or in scope;
* all objects have a module and can be hashed. -/
structure Plain (w : World) : Prop where
  ownMethod : ∀ c n m, Inherits w c n m → ∃ m', Inherits w c (w.defName m.fn) m' ∧ m'.fn = m.fn
  ownHelper : ∀ m a f, w.attr (.mod m) a = some (.fn f) →
    w.attr (.mod m) (w.defName f) = some (.fn f)
  defined : ∀ x f g, w.scope f x = some (.fn g) →
    ∃ m, w.pyModule (.fn g) = some m ∧ w.attr (.mod m) (w.defName g) = some (.fn g)
  separate : ∀ c n m, w.classDict c n = some m →
    (∀ f x, w.scope f x ≠ some (.fn m.fn)) ∧ (∀ r a, w.attr r a ≠ some (.fn m.fn))
  hasModule : ∀ k, w.noModule k = false
  hashable : ∀ k, w.unhashable k = false

/-- The call is of a kind autoquant follows: it was marked; a method called on
the instance or the class parameter is defined by the class itself; a method
called on a named class is not a class method, or the class is the one the code
belongs to, is named directly and defines the method itself; a function called
by path is an attribute of a module. -/
def Followed (w : World) (p : Place) (k : Call) (v : Via) (q : Place) : Prop :=
  k.marked = true ∧
  match v, q with
  | .instance, .method c a => ∃ m, w.classDict c a = some m
  | .classParam, .method c a => ∃ m, w.classDict c a = some m
  | .className, .method c a =>
    (∀ m, Inherits w c a m → m.kind ≠ .classMethod) ∨
      ((∃ n, p = .method c n) ∧ (∃ x, k.callee = .attr x [] a) ∧ ∃ m, w.classDict c a = some m)
  | .path parent, _ => ∃ m, parent = .mod m
  | _, _ => True

/-- The object is one of the first `N` functions or classes. -/
def Ref.Below (N : Nat) : Ref → Prop
  | .fn f => f < N
  | .bound f => f < N
  | .cls c => c < N
  | _ => True

/-- The program has finitely many functions and torch classes. -/
structure Bounded (w : World) (types : List Cls) (N : Nat) : Prop where
  types : ∀ c ∈ types, c < N
  classDict : ∀ c n m, w.classDict c n = some m → m.fn < N
  attr : ∀ r a r', w.attr r a = some r' → r'.Below N
  scope : ∀ f x r, w.scope f x = some r → r.Below N

/-! ## Lemmas -/

section Lookup

variable {w : World}

theorem find_of_inherits {c : Cls} {n : String} {m : Member} (h : Inherits w c n m) :
    w.find c n = some m := by
  obtain ⟨before, o, after, hm, ho, hb⟩ := h
  unfold World.find
  rw [hm]
  clear hm
  induction before with
  | nil => simp [ho]
  | cons b bs ih =>
    rw [List.cons_append, List.findSome?_cons, hb b List.mem_cons_self]
    exact ih (fun x hx => hb x (List.mem_cons_of_mem _ hx))

theorem inherits_of_find {c : Cls} {n : String} {m : Member} (h : w.find c n = some m) :
    Inherits w c n m := by
  unfold World.find at h
  have key : ∀ l : List Cls, l.findSome? (fun o => w.classDict o n) = some m →
      ∃ before o after, l = before ++ o :: after ∧ w.classDict o n = some m ∧
        ∀ b ∈ before, w.classDict b n = none := by
    intro l
    induction l with
    | nil => intro h; simp at h
    | cons a as ih =>
      intro h
      rw [List.findSome?_cons] at h
      cases ha : w.classDict a n with
      | some m' =>
        rw [ha] at h
        cases h
        exact ⟨[], a, as, rfl, ha, by simp⟩
      | none =>
        rw [ha] at h
        obtain ⟨b, o, af, h1, h2, h3⟩ := ih h
        refine ⟨a :: b, o, af, by rw [h1]; rfl, h2, ?_⟩
        intro x hx
        rcases List.mem_cons.1 hx with rfl | hx
        · exact ha
        · exact h3 x hx
  exact key _ h

theorem inherits_unique {c : Cls} {n : String} {m m' : Member} (h : Inherits w c n m)
    (h' : Inherits w c n m') : m = m' :=
  Option.some.inj ((find_of_inherits h).symm.trans (find_of_inherits h'))

theorem inherits_own {c : Cls} {n : String} {m : Member} (h : w.classDict c n = some m) :
    Inherits w c n m :=
  ⟨[], c, w.ancestors c, rfl, h, by simp⟩

theorem getattr_iff {r : Ref} {n : String} {r' : Ref} :
    w.getattr r n = some r' ↔ Attr w r n r' := by
  constructor
  · intro h
    cases r with
    | cls c =>
      simp only [World.getattr] at h
      cases hf : w.find c n with
      | none => rw [hf] at h; cases h
      | some m =>
        rw [hf] at h
        simp only [Option.some.injEq] at h
        by_cases hk : m.kind = .classMethod
        · rw [if_pos hk] at h
          subst h
          exact .bound c n m (inherits_of_find hf) hk
        · rw [if_neg hk] at h
          subst h
          exact .function c n m (inherits_of_find hf) hk
    | fn f => exact .object _ _ _ (by intro c h; cases h) h
    | bound f => exact .object _ _ _ (by intro c h; cases h) h
    | mod f => exact .object _ _ _ (by intro c h; cases h) h
    | other f => exact .object _ _ _ (by intro c h; cases h) h
  · intro h
    cases h with
    | object _ _ _ hn ha =>
      cases r with
      | cls c => exact absurd rfl (hn c)
      | fn f => exact ha
      | bound f => exact ha
      | mod f => exact ha
      | other f => exact ha
    | function c _ m hi hk =>
      simp only [World.getattr]
      rw [find_of_inherits hi]
      simp [hk]
    | bound c _ m hi hk =>
      simp only [World.getattr]
      rw [find_of_inherits hi]
      simp [hk]

theorem foldl_none (w : World) (ps : List String) :
    ps.foldl (fun r p => Option.bind r (fun r => w.getattr r p)) none = none := by
  induction ps with
  | nil => rfl
  | cons p ps ih => simpa using ih

theorem foldl_leads {r : Ref} {ps : List String} {r' : Ref} :
    ps.foldl (fun r p => Option.bind r (fun r => w.getattr r p)) (some r) = some r' ↔
      Leads w r ps r' := by
  induction ps generalizing r with
  | nil =>
    constructor
    · intro h; cases h; exact .here _
    · intro h; cases h; rfl
  | cons p ps ih =>
    rw [List.foldl_cons]
    simp only [Option.bind_some]
    constructor
    · intro h
      cases hg : w.getattr r p with
      | none => rw [hg, foldl_none] at h; cases h
      | some r1 =>
        rw [hg] at h
        exact .step _ _ _ _ _ (getattr_iff.1 hg) (ih.1 h)
    · intro h
      cases h with
      | step _ r1 _ _ _ ha hl =>
        rw [getattr_iff.2 ha]
        exact ih.2 hl

theorem resolveAttr_iff {sc : String → Option Ref} {x : String} {ps : List String} {a : String}
    {parent r : Ref} :
    resolveAttr w sc x ps a = some (parent, r) ↔
      ∃ r0, sc x = some r0 ∧ Leads w r0 ps parent ∧ Attr w parent a r := by
  unfold resolveAttr
  constructor
  · intro h
    cases hs : sc x with
    | none => rw [hs, foldl_none] at h; cases h
    | some r0 =>
      rw [hs] at h
      cases hf : ps.foldl (fun r p => Option.bind r (fun r => w.getattr r p)) (some r0) with
      | none => rw [hf] at h; cases h
      | some pa =>
        rw [hf] at h
        simp only [Option.map_eq_some_iff, Prod.mk.injEq] at h
        obtain ⟨y, hy, h1, h2⟩ := h
        subst h1 h2
        exact ⟨r0, rfl, foldl_leads.1 hf, getattr_iff.1 hy⟩
  · rintro ⟨r0, hs, hl, ha⟩
    rw [hs, foldl_leads.2 hl]
    simp [getattr_iff.2 ha]

theorem methodSource_eq {c : Cls} {n : String} {r : Ref} (h : w.getattr (.cls c) n = some r) :
    methodSource w c n r = r.code := by
  have hown : ∀ l : List Cls, ∀ m, l.findSome? (fun o => w.classDict o n) = some m →
      r = .fn m.fn → ∃ o, ownerByName w n r l = some o ∧ w.classDict o n = some m := by
    intro l
    induction l with
    | nil => intro m h; simp at h
    | cons a as ih =>
      intro m h hr
      rw [List.findSome?_cons] at h
      unfold ownerByName
      cases ha : w.classDict a n with
      | some m' =>
        rw [ha] at h
        cases h
        exact ⟨a, by simp [hr], ha⟩
      | none =>
        rw [ha] at h
        exact ih m h hr
  have hnone : ∀ f, r = .bound f → ∀ l : List Cls, ownerByName w n r l = none := by
    intro f hf l
    induction l with
    | nil => rfl
    | cons a as ih =>
      unfold ownerByName
      cases ha : w.classDict a n with
      | some m' => simp only [hf] at ih ⊢; simp [ih]
      | none => exact ih
  unfold methodSource
  cases getattr_iff.1 h with
  | object _ _ _ hn _ => exact absurd rfl (hn c)
  | function _ _ m hi hk =>
    obtain ⟨o, h1, h2⟩ := hown (w.mro c) m (find_of_inherits hi) rfl
    rw [h1]
    simp only
    rw [getattr_iff.2 (Attr.function o n m (inherits_own h2) hk)]
    rfl
  | bound _ _ m hi hk =>
    rw [hnone m.fn rfl]
    simp only
    rw [h]
    rfl

end Lookup

section Search

variable {w : World}

theorem collect_sound {fs : List Found} {t : Task} (h : t ∈ collect fs) : Found.task t ∈ fs := by
  induction fs with
  | nil => cases h
  | cons f fs ih =>
    cases f with
    | nothing => exact List.mem_cons_of_mem _ (ih h)
    | task t' =>
      simp only [collect, List.mem_cons] at h
      rcases h with rfl | h
      · exact List.mem_cons_self
      · exact List.mem_cons_of_mem _ (ih h)
    | raised => cases h

theorem collect_complete {fs : List Found} {t : Task} (hr : Found.raised ∉ fs)
    (h : Found.task t ∈ fs) : t ∈ collect fs := by
  induction fs with
  | nil => cases h
  | cons f fs ih =>
    have hr' : Found.raised ∉ fs := fun hx => hr (List.mem_cons_of_mem _ hx)
    cases f with
    | nothing =>
      rcases List.mem_cons.1 h with h | h
      · cases h
      · exact ih hr' h
    | task t' =>
      rcases List.mem_cons.1 h with h | h
      · cases h; exact List.mem_cons_self
      · exact List.mem_cons_of_mem _ (ih hr' h)
    | raised => exact absurd List.mem_cons_self hr

/-- Where a task comes from: a method of a class, a function named in some scope
with the module it was defined in, or a function reached as an attribute of an
object. -/
inductive Origin (w : World) : Task → Prop where
  | method (r c a) : Attr w (.cls c) a r → Origin w ⟨r, .cls c, some a⟩
  | named (g m al f x) : w.scope f x = some (.fn g) → w.pyModule (.fn g) = some m →
      Origin w ⟨.fn g, .mod m, al⟩
  | path (g parent a) : (∀ c, parent ≠ .cls c) → w.attr parent a = some (.fn g) →
      Origin w ⟨.fn g, parent, some a⟩

theorem inspected_task {r : Ref} {t t' : Task} (h : inspected w r t = .task t') :
    t = t' ∧ ∃ g, r = .fn g ∧ w.sourceFile g = true ∧ w.inTable (.fn g) = false := by
  unfold inspected at h
  split at h
  · rename_i g
    by_cases hc : w.sourceFile g = true ∧ w.inTable (.fn g) = false
    · rw [if_pos hc] at h
      cases h
      exact ⟨rfl, g, rfl, hc⟩
    · rw [if_neg hc] at h; cases h
  · cases h

theorem inspected_not_raised {r : Ref} {t : Task} : inspected w r t ≠ .raised := by
  unfold inspected
  split
  · split <;> simp
  · simp

/-- What a task found by the function search is. -/
theorem functionTask_sound {owner : Ref} {inst : Option String} {sc : String → Option Ref}
    {k : Callee} {t : Task} (h : functionTask w owner inst sc k = .task t) :
    (∃ x g m al, k = .name x ∧ sc x = some (.fn g) ∧ w.pyModule (.fn g) = some m ∧
      t = ⟨.fn g, .mod m, al⟩) ∨
    (∃ x ps a parent g, k = .attr x ps a ∧
      (∃ r0, sc x = some r0 ∧ Leads w r0 ps parent) ∧ Attr w parent a (.fn g) ∧
      t = ⟨.fn g, parent, some a⟩) := by
  unfold functionTask at h
  split at h
  · cases h
  · cases k with
    | name x =>
      left
      simp only at h
      cases hs : sc x with
      | none => rw [hs] at h; cases h
      | some r =>
        rw [hs] at h
        simp only at h
        split at h
        · cases h
        · cases hp : w.pyModule r with
          | none => rw [hp] at h; cases h
          | some m =>
            rw [hp] at h
            simp only at h
            split at h
            · cases h
            · split at h
              · cases h
              · obtain ⟨ht, g, hg, -, -⟩ := inspected_task h
                subst hg
                exact ⟨x, g, m, _, rfl, hs, hp, ht.symm⟩
    | attr x ps a =>
      right
      simp only at h
      cases hr : resolveAttr w sc x ps a with
      | none => rw [hr] at h; cases h
      | some pr =>
        obtain ⟨parent, r⟩ := pr
        rw [hr] at h
        simp only at h
        split at h
        · cases h
        · split at h
          · cases h
          · obtain ⟨ht, g, hg, -, -⟩ := inspected_task h
            subst hg
            obtain ⟨r0, h0, h1, h2⟩ := resolveAttr_iff.1 hr
            exact ⟨x, ps, a, parent, g, rfl, ⟨r0, h0, h1⟩, h2, ht.symm⟩
    | «opaque» => cases h

theorem scopeVars_origin {owner : Ref} {f : Fn} {sc : String → Option Ref} {x : String} {r : Ref}
    (h : scopeVars w owner f = some sc) (hx : sc x = some r) : ∃ g, w.scope g x = some r := by
  unfold scopeVars at h
  split at h
  · cases h
  · rename_i g _; cases h; exact ⟨g, hx⟩
  · rename_i g _; cases h; exact ⟨g, hx⟩
  · cases h; cases hx

theorem attr_task {parent : Ref} {a : String} {g : Fn} (h : Attr w parent a (.fn g)) :
    Origin w ⟨.fn g, parent, some a⟩ := by
  cases parent with
  | cls c => exact .method _ _ _ h
  | fn f => cases h with | object _ _ _ hn ha => exact .path _ _ _ hn ha
  | bound f => cases h with | object _ _ _ hn ha => exact .path _ _ _ hn ha
  | mod f => cases h with | object _ _ _ hn ha => exact .path _ _ _ hn ha
  | other f => cases h with | object _ _ _ hn ha => exact .path _ _ _ hn ha

theorem dependentFunctions_found {owner : Ref} {inst : Option String} {f : Fn} {t : Task}
    (h : t ∈ dependentFunctions w owner inst f) :
    ∃ sc k, scopeVars w owner f = some sc ∧ k ∈ w.calls f ∧ k.marked = true ∧
      functionTask w owner inst sc k.callee = .task t := by
  unfold dependentFunctions at h
  cases hs : scopeVars w owner f with
  | none => rw [hs] at h; cases h
  | some sc =>
    rw [hs] at h
    obtain ⟨k, hk, he⟩ := List.mem_map.1 (collect_sound h)
    obtain ⟨hk, hm⟩ := List.mem_filter.1 hk
    exact ⟨sc, k, rfl, hk, hm, he⟩

theorem dependentFunctions_origin {owner : Ref} {inst : Option String} {f : Fn} {t : Task}
    (h : t ∈ dependentFunctions w owner inst f) : Origin w t := by
  obtain ⟨sc, k, hs, -, -, ht⟩ := dependentFunctions_found h
  rcases functionTask_sound ht with ⟨x, g, m, al, -, hx, hp, rfl⟩ | ⟨x, ps, a, parent, g, -, -, ha, rfl⟩
  · obtain ⟨f', hf'⟩ := scopeVars_origin hs hx
    exact .named _ _ _ _ _ hf' hp
  · exact attr_task ha

theorem methodTask_origin {c : Cls} {n : String} {f : Fn} {k : Callee} {t : Task}
    (h : methodTask w c n f k = some t) :
    ∃ a r, t = ⟨r, .cls c, some a⟩ ∧ Attr w (.cls c) a r ∧
      ((∃ x, k = .attr x [] a ∧ (instanceVar w c n f = some x ∨ classRefs w c n f x = true)) ∨
       (∃ x, k = .name x ∧ a = "forward" ∧ methodKind w c n = some .method ∧
          instanceVar w c n f = some x)) := by
  unfold methodTask at h
  split at h
  · rename_i x a
    split at h
    · rename_i hx
      split at h
      · obtain ⟨r, hr, ht⟩ := Option.map_eq_some_iff.1 h
        exact ⟨a, r, ht.symm, getattr_iff.1 hr, .inl ⟨x, rfl, hx⟩⟩
      · cases h
    · cases h
  · rename_i x
    split at h
    · rename_i hx
      obtain ⟨r, hr, ht⟩ := Option.map_eq_some_iff.1 h
      exact ⟨_, r, ht.symm, getattr_iff.1 hr, .inr ⟨x, rfl, rfl, hx⟩⟩
    · cases h
  · cases h

theorem dependentMethods_origin {c : Cls} {n : String} {f : Fn} {t : Task}
    (h : t ∈ dependentMethods w c n f) : Origin w t := by
  unfold dependentMethods at h
  obtain ⟨k, -, hk⟩ := List.mem_filterMap.1 h
  obtain ⟨a, r, rfl, ha, -⟩ := methodTask_origin hk
  exact .method _ _ _ ha

/-- The place a task is for. -/
def Task.place (t : Task) : Option Place :=
  match t.owner, t.function, t.alias with
  | .cls c, _, some a => some (.method c a)
  | .mod _, .fn f, _ => some (.helper f)
  | _, _, _ => none

/-- The tasks queued after a method was converted. -/
def methodDeps (w : World) (m : Method) : List Task :=
  (dependentMethods w m.cls m.name m.fn ++
    dependentFunctions w (.cls m.cls) (instanceVar w m.cls m.name m.fn) m.fn).filter
      (fun t => !w.inTable t.function)

/-- The tasks queued after a helper was converted. -/
def helperDeps (w : World) (h : Helper) : List Task :=
  dependentFunctions w h.owner none h.fn

theorem methodDeps_origin {m : Method} {t : Task} (h : t ∈ methodDeps w m) : Origin w t := by
  rcases List.mem_append.1 (List.mem_filter.1 h).1 with h | h
  · exact dependentMethods_origin h
  · exact dependentFunctions_origin h

end Search

section Loop

variable {w : World}

/-- What one round does, for a task with an origin. -/
inductive Stepped (w : World) (s : State) (t : Task) (q : List Task) : State → Prop where
  | known (h) : h ∈ s.helpers → t.function = .fn h.fn →
      Stepped w s t q { s with queue := q }
  | done (m a) : m ∈ s.methods → t.owner = .cls m.cls → t.alias = some a → m.name = a →
      Stepped w s t q { s with queue := q }
  | failed (p) : t.place = some p → w.converts p = false →
      Stepped w s t q { s with queue := q }
  | foreign : t.place = none → Stepped w s t q { s with queue := q }
  | helper (f m nm) : t = ⟨.fn f, .mod m, t.alias⟩ → (∀ h ∈ s.helpers, h.fn ≠ f) →
      w.converts (.helper f) = true →
      Stepped w s t q
        ⟨q ++ helperDeps w ⟨f, .mod m, nm⟩, s.helpers ++ [⟨f, .mod m, nm⟩], s.methods⟩
  | method (c a r f) : t = ⟨r, .cls c, some a⟩ → Attr w (.cls c) a r → r.code = some f →
      (∀ m ∈ s.methods, m.cls = c → m.name ≠ a) → w.converts (.method c a) = true →
      Stepped w s t q
        ⟨q ++ methodDeps w ⟨c, a, f⟩, s.helpers, s.methods ++ [⟨c, a, f⟩]⟩

theorem step_stepped {s : State} {t : Task} {q : List Task} (hq : s.queue = t :: q)
    (ho : Origin w t) : Stepped w s t q (step w s) := by
  unfold step
  rw [hq]
  simp only
  by_cases hk : s.helpers.any (fun h => t.function == .fn h.fn) = true
  · rw [if_pos hk]
    obtain ⟨h, hh, he⟩ := List.any_eq_true.1 hk
    exact .known h hh (by simpa using he)
  · rw [if_neg hk]
    have hk' : ∀ h ∈ s.helpers, t.function ≠ .fn h.fn := by
      intro h hh he
      exact hk (List.any_eq_true.2 ⟨h, hh, by simp [he]⟩)
    have helperCase : ∀ g m al, t = ⟨.fn g, .mod m, al⟩ → Stepped w s t q
        (if w.converts (.helper g) then
            { queue := q ++ dependentFunctions w (.mod m) none g
              helpers := s.helpers ++ [⟨g, .mod m, taskName w t⟩]
              methods := s.methods }
          else { s with queue := q }) := by
      intro g m al ht
      by_cases hc : w.converts (.helper g) = true
      · rw [if_pos hc]
        refine .helper g m (taskName w t) (by rw [ht]) ?_ hc
        intro h hh he
        exact hk' h hh (by rw [ht, he])
      · rw [if_neg hc]
        exact .failed (.helper g) (by rw [ht]; rfl) (by simpa using hc)
    cases ho with
    | named g m al f x hs hp => exact helperCase g m al rfl
    | path g parent a hn ha =>
      cases parent with
      | cls c => exact absurd rfl (hn c)
      | mod m => exact helperCase g m _ rfl
      | fn f => exact .foreign rfl
      | bound f => exact .foreign rfl
      | other f => exact .foreign rfl
    | method r c a ha =>
      have hname : taskName w ⟨r, .cls c, some a⟩ = a := rfl
      simp only [hname]
      by_cases hm : s.methods.any (fun m => m.cls == c && m.name == a) = true
      · rw [if_pos hm]
        obtain ⟨m, hm, he⟩ := List.any_eq_true.1 hm
        simp only [Bool.and_eq_true, beq_iff_eq] at he
        exact .done m a hm (by simp [he.1]) rfl he.2
      · rw [if_neg hm]
        have hm' : ∀ m ∈ s.methods, m.cls = c → m.name ≠ a := by
          intro m hmm h1 h2
          exact hm (List.any_eq_true.2 ⟨m, hmm, by simp [h1, h2]⟩)
        rw [methodSource_eq (getattr_iff.2 ha)]
        have hcode : ∃ f, r.code = some f := by
          cases ha with
          | object _ _ _ hn _ => exact absurd rfl (hn c)
          | function _ _ m _ _ => exact ⟨m.fn, rfl⟩
          | bound _ _ m _ _ => exact ⟨m.fn, rfl⟩
        obtain ⟨f, hf⟩ := hcode
        rw [hf]
        simp only
        by_cases hc : w.converts (.method c a) = true
        · rw [if_pos hc]
          exact .method c a r f rfl ha hf hm' hc
        · rw [if_neg hc]
          exact .failed (.method c a) rfl (by simpa using hc)

/-- An invariant of single rounds holds of every state of the loop. -/
theorem rounds_inv {P : State → Prop} (hstep : ∀ s, P s → P (step w s)) :
    ∀ n s, P s → P (rounds w n s)
  | 0, _, h => h
  | n + 1, s, h => rounds_inv hstep n (step w s) (hstep s h)

/-- The queue only ever holds tasks with an origin, and what was converted came
from such a task. -/
structure Sourced (w : World) (s : State) : Prop where
  queue : ∀ t ∈ s.queue, Origin w t
  helpers : ∀ h ∈ s.helpers, ∃ m al, h.owner = .mod m ∧ Origin w ⟨.fn h.fn, .mod m, al⟩
  methods : ∀ m ∈ s.methods, ∃ r, Attr w (.cls m.cls) m.name r ∧ r.code = some m.fn

theorem step_nil {s : State} (h : s.queue = []) : step w s = s := by
  unfold step
  rw [h]

theorem sourced_step (s : State) (h : Sourced w s) : Sourced w (step w s) := by
  cases hq : s.queue with
  | nil => rw [step_nil hq]; exact h
  | cons t q =>
    have ho : Origin w t := h.queue t (by rw [hq]; exact List.mem_cons_self)
    have hrest : ∀ t ∈ q, Origin w t := fun t ht =>
      h.queue t (by rw [hq]; exact List.mem_cons_of_mem _ ht)
    have hst := step_stepped hq ho
    generalize step w s = s' at hst
    cases hst with
    | known => exact ⟨hrest, h.helpers, h.methods⟩
    | done => exact ⟨hrest, h.helpers, h.methods⟩
    | failed => exact ⟨hrest, h.helpers, h.methods⟩
    | foreign => exact ⟨hrest, h.helpers, h.methods⟩
    | helper f m nm ht _ _ =>
      refine ⟨?_, ?_, h.methods⟩
      · intro t' ht'
        rcases List.mem_append.1 ht' with h1 | h1
        · exact hrest t' h1
        · exact dependentFunctions_origin h1
      · intro h' hh'
        rcases List.mem_append.1 hh' with h1 | h1
        · exact h.helpers h' h1
        · rw [List.mem_singleton] at h1
          subst h1
          refine ⟨m, t.alias, rfl, ?_⟩
          rw [← ht]; exact ho
    | method c a r f ht ha hf _ _ =>
      refine ⟨?_, h.helpers, ?_⟩
      · intro t' ht'
        rcases List.mem_append.1 ht' with h1 | h1
        · exact hrest t' h1
        · exact methodDeps_origin h1
      · intro m' hm'
        rcases List.mem_append.1 hm' with h1 | h1
        · exact h.methods m' h1
        · rw [List.mem_singleton] at h1
          subst h1
          exact ⟨r, ha, hf⟩

theorem start_task {known types : List Cls} {t : Task} (h : t ∈ (start w known types).queue) :
    ∃ c r, c ∈ unquantized known types ∧ t = ⟨r, .cls c, some "forward"⟩ ∧
      Attr w (.cls c) "forward" r := by
  obtain ⟨c, hc, hr⟩ := List.mem_filterMap.1 h
  obtain ⟨r, hr', rfl⟩ := Option.map_eq_some_iff.1 hr
  exact ⟨c, r, hc, rfl, getattr_iff.1 hr'⟩

theorem sourced_start (known types : List Cls) : Sourced w (start w known types) := by
  refine ⟨?_, ?_, ?_⟩
  · intro t ht
    obtain ⟨c, r, -, rfl, ha⟩ := start_task ht
    exact .method _ _ _ ha
  · intro h hh; cases hh
  · intro h hh; cases hh

theorem sourced_rounds (known types : List Cls) (n : Nat) :
    Sourced w (rounds w n (start w known types)) :=
  rounds_inv sourced_step n _ (sourced_start known types)

/-- No method and no helper was converted twice. -/
structure Once (s : State) : Prop where
  helpers : (s.helpers.map (·.fn)).Nodup
  methods : (s.methods.map (fun m => (m.cls, m.name))).Nodup

theorem once_step (s : State) (h : Sourced w s ∧ Once s) :
    Sourced w (step w s) ∧ Once (step w s) := by
  refine ⟨sourced_step s h.1, ?_⟩
  obtain ⟨hs, ho⟩ := h
  cases hq : s.queue with
  | nil => rw [step_nil hq]; exact ho
  | cons t q =>
    have hst := step_stepped hq (hs.queue t (by rw [hq]; exact List.mem_cons_self))
    generalize step w s = s' at hst
    cases hst with
    | known => exact ⟨ho.helpers, ho.methods⟩
    | done => exact ⟨ho.helpers, ho.methods⟩
    | failed => exact ⟨ho.helpers, ho.methods⟩
    | foreign => exact ⟨ho.helpers, ho.methods⟩
    | helper f m nm ht hn _ =>
      refine ⟨?_, ho.methods⟩
      rw [List.map_append, List.nodup_append]
      refine ⟨ho.helpers, by simp, ?_⟩
      intro a ha b hb
      obtain ⟨h', hh', rfl⟩ := List.mem_map.1 ha
      simp only [List.map_cons, List.map_nil, List.mem_singleton] at hb
      subst hb
      exact hn h' hh'
    | method c a r f ht ha hf hn _ =>
      refine ⟨ho.helpers, ?_⟩
      rw [List.map_append, List.nodup_append]
      refine ⟨ho.methods, by simp, ?_⟩
      intro x hx b hb
      obtain ⟨m', hm', rfl⟩ := List.mem_map.1 hx
      simp only [List.map_cons, List.map_nil, List.mem_singleton] at hb
      subst hb
      intro he
      simp only [Prod.mk.injEq] at he
      exact hn m' hm' he.1 he.2

/-- A task was dealt with: what it is for was converted, its function is a
helper, it cannot be converted, or it is for neither a class nor a module. -/
def Settled (w : World) (s : State) (t : Task) : Prop :=
  (∃ p, t.place = some p ∧ Converted s p) ∨ (∃ h ∈ s.helpers, t.function = .fn h.fn) ∨
  (∃ p, t.place = some p ∧ w.converts p = false) ∨ t.place = none

/-- Everything found so far is queued or dealt with. -/
structure Tracked (w : World) (ts : List Task) (s : State) : Prop where
  start : ∀ t ∈ ts, t ∈ s.queue ∨ Settled w s t
  helpers : ∀ h ∈ s.helpers, ∀ t ∈ helperDeps w h, t ∈ s.queue ∨ Settled w s t
  methods : ∀ m ∈ s.methods, ∀ t ∈ methodDeps w m, t ∈ s.queue ∨ Settled w s t

theorem settled_mono {s s' : State} {t : Task} (hh : ∀ h ∈ s.helpers, h ∈ s'.helpers)
    (hm : ∀ m ∈ s.methods, m ∈ s'.methods) (h : Settled w s t) : Settled w s' t := by
  rcases h with ⟨p, hp, hc⟩ | ⟨h, h1, h2⟩ | h | h
  · refine .inl ⟨p, hp, ?_⟩
    cases p with
    | method c n => obtain ⟨m, h1, h2⟩ := hc; exact ⟨m, hm m h1, h2⟩
    | helper f => obtain ⟨m, h1, h2⟩ := hc; exact ⟨m, hh m h1, h2⟩
  · exact .inr (.inl ⟨h, hh h h1, h2⟩)
  · exact .inr (.inr (.inl h))
  · exact .inr (.inr (.inr h))

theorem tracked_step (ts : List Task) (s : State) (h : Sourced w s ∧ Tracked w ts s) :
    Sourced w (step w s) ∧ Tracked w ts (step w s) := by
  refine ⟨sourced_step s h.1, ?_⟩
  obtain ⟨hs, ho⟩ := h
  cases hq : s.queue with
  | nil => rw [step_nil hq]; exact ho
  | cons t q =>
    have hst := step_stepped hq (hs.queue t (by rw [hq]; exact List.mem_cons_self))
    generalize step w s = s' at hst
    -- it suffices that nothing is lost and the task is settled
    have key : ∀ s' : State, (∀ h ∈ s.helpers, h ∈ s'.helpers) →
        (∀ m ∈ s.methods, m ∈ s'.methods) → (∀ t ∈ q, t ∈ s'.queue) → Settled w s' t →
        ∀ t', t' ∈ s.queue ∨ Settled w s t' → t' ∈ s'.queue ∨ Settled w s' t' := by
      intro s' hh hm hq' ht t' ht'
      rcases ht' with h1 | h1
      · rw [hq] at h1
        rcases List.mem_cons.1 h1 with rfl | h1
        · exact .inr ht
        · exact .inl (hq' t' h1)
      · exact .inr (settled_mono hh hm h1)
    have same : Settled w { s with queue := q } t → Tracked w ts { s with queue := q } := by
      intro ht
      have k := key { s with queue := q } (fun _ h => h) (fun _ h => h) (fun _ h => h) ht
      exact ⟨fun t' h => k t' (ho.start t' h), fun h hh t' h' => k t' (ho.helpers h hh t' h'),
        fun m hm t' h' => k t' (ho.methods m hm t' h')⟩
    cases hst with
    | known h hh he => exact same (.inr (.inl ⟨h, hh, he⟩))
    | done m a hm h1 h2 h3 =>
      refine same (.inl ⟨.method m.cls a, ?_, m, hm, rfl, h3⟩)
      unfold Task.place
      rw [h1, h2]
    | failed p hp hc => exact same (.inr (.inr (.inl ⟨p, hp, hc⟩)))
    | foreign hp => exact same (.inr (.inr (.inr hp)))
    | helper f m nm ht hn _ =>
      have hsub : ∀ h ∈ s.helpers, h ∈ s.helpers ++ [(⟨f, .mod m, nm⟩ : Helper)] :=
        fun _ h => List.mem_append_left _ h
      have k := key ⟨q ++ helperDeps w ⟨f, .mod m, nm⟩, s.helpers ++ [⟨f, .mod m, nm⟩], s.methods⟩
        hsub (fun _ h => h) (fun _ h => List.mem_append_left _ h)
        (.inl ⟨.helper f, by rw [ht]; rfl,
          ⟨⟨f, .mod m, nm⟩, List.mem_append_right _ (List.mem_singleton.2 rfl), rfl⟩⟩)
      refine ⟨fun t' h => k t' (ho.start t' h), ?_,
        fun m hm t' h' => k t' (ho.methods m hm t' h')⟩
      intro h' hh' t' ht'
      rcases List.mem_append.1 hh' with h1 | h1
      · exact k t' (ho.helpers h' h1 t' ht')
      · rw [List.mem_singleton] at h1
        subst h1
        exact .inl (List.mem_append_right _ ht')
    | method c a r f ht ha hf hn _ =>
      have hsub : ∀ m ∈ s.methods, m ∈ s.methods ++ [(⟨c, a, f⟩ : Method)] :=
        fun _ h => List.mem_append_left _ h
      have k := key ⟨q ++ methodDeps w ⟨c, a, f⟩, s.helpers, s.methods ++ [⟨c, a, f⟩]⟩
        (fun _ h => h) hsub (fun _ h => List.mem_append_left _ h)
        (.inl ⟨.method c a, by rw [ht]; rfl,
          ⟨⟨c, a, f⟩, List.mem_append_right _ (List.mem_singleton.2 rfl), rfl, rfl⟩⟩)
      refine ⟨fun t' h => k t' (ho.start t' h),
        fun h hh t' h' => k t' (ho.helpers h hh t' h'), ?_⟩
      intro m' hm' t' ht'
      rcases List.mem_append.1 hm' with h1 | h1
      · exact k t' (ho.methods m' h1 t' ht')
      · rw [List.mem_singleton] at h1
        subst h1
        exact .inl (List.mem_append_right _ ht')

theorem tracked_rounds (known types : List Cls) (n : Nat) :
    Tracked w (start w known types).queue (rounds w n (start w known types)) :=
  (rounds_inv (P := fun s => Sourced w s ∧ Tracked w (start w known types).queue s)
    (fun s h => tracked_step _ s h) n _
    ⟨sourced_start known types, ⟨fun _ h => .inl h, (fun h hh => by cases hh), (fun h hh => by cases hh)⟩⟩).2

end Loop

section Complete

variable {w : World}

theorem runs_method {c : Cls} {n : String} {f : Fn} (h : Runs w (.method c n) f) :
    ∃ m, Inherits w c n m ∧ m.fn = f := by
  cases h with
  | method _ _ m hi => exact ⟨m, hi, rfl⟩

theorem runs_helper {g f : Fn} (h : Runs w (.helper g) f) : g = f := by
  cases h with
  | helper => rfl

theorem scopeVars_method (hp : Plain w) {c : Cls} {n : String} {m : Member}
    (h : Inherits w c n m) : scopeVars w (.cls c) m.fn = some (w.scope m.fn) := by
  obtain ⟨m', hi, hf⟩ := hp.ownMethod c n m h
  unfold scopeVars
  by_cases hk : m'.kind = .classMethod
  · rw [getattr_iff.2 (Attr.bound _ _ _ hi hk)]
    simp [hf]
  · rw [getattr_iff.2 (Attr.function _ _ _ hi hk)]
    simp [hf]

theorem scopeVars_helper (hp : Plain w) {f : Fn} {m : Nat} {al : Option String}
    (h : Origin w ⟨.fn f, .mod m, al⟩) : scopeVars w (.mod m) f = some (w.scope f) := by
  have hd : w.attr (.mod m) (w.defName f) = some (.fn f) := by
    cases h with
    | named _ _ _ f' x hs hm =>
      obtain ⟨m', h1, h2⟩ := hp.defined x f' f hs
      rw [hm] at h1
      cases h1
      exact h2
    | path _ _ a hn ha => exact hp.ownHelper m a f ha
  unfold scopeVars
  have : w.getattr (.mod m) (w.defName f) = some (.fn f) := hd
  rw [this]

theorem not_raised (hp : Plain w) {owner : Ref} {inst : Option String}
    {sc : String → Option Ref} {k : Callee} : functionTask w owner inst sc k ≠ .raised := by
  have h1 : ∀ r : Ref, r.lacksModule w = false := by
    intro r; cases r <;> simp [Ref.lacksModule, hp.hasModule]
  have h2 : ∀ r : Ref, r.cannotHash w = false := by
    intro r; cases r <;> simp [Ref.cannotHash, hp.hashable]
  unfold functionTask
  split
  · simp
  · cases k with
    | name x =>
      simp only
      cases sc x with
      | none => simp
      | some r =>
        simp only [h1, h2]
        cases w.pyModule r with
        | none => simp
        | some m =>
          simp only [Bool.false_eq_true, if_false]
          split
          · simp
          · exact inspected_not_raised
    | attr x ps a =>
      simp only
      cases resolveAttr w sc x ps a with
      | none => simp
      | some pr =>
        obtain ⟨parent, r⟩ := pr
        simp only [h2, Bool.false_eq_true, if_false]
        split
        · simp
        · exact inspected_not_raised
    | «opaque» => simp

theorem dependentFunctions_mem (hp : Plain w) {owner : Ref} {inst : Option String} {f : Fn}
    {sc : String → Option Ref} {k : Call} {t : Task} (hs : scopeVars w owner f = some sc)
    (hk : k ∈ w.calls f) (hm : k.marked = true)
    (ht : functionTask w owner inst sc k.callee = .task t) :
    t ∈ dependentFunctions w owner inst f := by
  unfold dependentFunctions
  rw [hs]
  refine collect_complete ?_ (List.mem_map.2 ⟨k, List.mem_filter.2 ⟨hk, hm⟩, ht⟩)
  intro hr
  obtain ⟨k', -, hk'⟩ := List.mem_map.1 hr
  exact not_raised hp hk'

theorem functionTask_attr {owner : Ref} {inst : Option String} {sc : String → Option Ref}
    {x : String} {ps : List String} {a : String} {r parent : Ref} {g : Fn}
    (hmc : isMethodCall w owner inst sc (.attr x ps a) = false)
    (hs : sc x = some r) (hl : Leads w r ps parent) (ha : Attr w parent a (.fn g))
    (hb : w.bypassed (.fn g) = false)
    (hf : w.sourceFile g = true) (ht : w.inTable (.fn g) = false) :
    functionTask w owner inst sc (.attr x ps a) = .task ⟨.fn g, parent, some a⟩ := by
  unfold functionTask
  have := resolveAttr_iff.2 ⟨r, hs, hl, ha⟩
  simp [hmc, this, Ref.cannotHash, hb, inspected, hf, ht]

/-- The tasks found in the code of a place. -/
def Finds (w : World) (p : Place) (t : Task) : Prop :=
  match p with
  | .method c n => ∀ f, Runs w (.method c n) f → t ∈ methodDeps w ⟨c, n, f⟩
  | .helper f => ∀ m al nm, Origin w ⟨.fn f, .mod m, al⟩ → t ∈ helperDeps w ⟨f, .mod m, nm⟩

/-- A task found by the function search in the code of `p` is found after `p` is
converted. -/
theorem finds_function (hp : Plain w) {p : Place} {f : Fn} {k : Call} {t : Task}
    (hr : Runs w p f) (hk : k ∈ w.calls f) (hm : k.marked = true)
    (htab : w.inTable t.function = false)
    (hcls : ∀ c n, p = .method c n →
      functionTask w (.cls c) (instanceVar w c n f) (w.scope f) k.callee = .task t)
    (hmod : ∀ m, functionTask w (.mod m) none (w.scope f) k.callee = .task t) :
    Finds w p t := by
  cases p with
  | method c n =>
    intro f' hr'
    obtain ⟨m, hi, rfl⟩ := runs_method hr
    obtain ⟨m', hi', rfl⟩ := runs_method hr'
    cases inherits_unique hi hi'
    refine List.mem_filter.2 ⟨List.mem_append_right _ ?_, by simp [htab]⟩
    exact dependentFunctions_mem hp (scopeVars_method hp hi) hk hm (hcls c n rfl)
  | helper g =>
    intro m al nm ho
    cases runs_helper hr
    exact dependentFunctions_mem hp (scopeVars_helper hp ho) hk hm (hmod m)

theorem finds_method {c : Cls} {n : String} {m : Member} {k : Call}
    {t : Task} (hi : Inherits w c n m) (hk : k ∈ w.calls m.fn) (hm : k.marked = true)
    (htab : w.inTable t.function = false) (ht : methodTask w c n m.fn k.callee = some t) :
    Finds w (.method c n) t := by
  intro f' hr'
  obtain ⟨m', hi', rfl⟩ := runs_method hr'
  cases inherits_unique hi hi'
  refine List.mem_filter.2 ⟨List.mem_append_left _ ?_, by simp [htab]⟩
  exact List.mem_filterMap.2 ⟨k, List.mem_filter.2 ⟨hk, hm⟩, ht⟩

theorem attr_of_inherits {c : Cls} {a : String} {m : Member} (h : Inherits w c a m) :
    ∃ r, Attr w (.cls c) a r ∧ (r = .fn m.fn ∨ r = .bound m.fn) ∧
      (m.kind ≠ .classMethod → r = .fn m.fn) := by
  by_cases hk : m.kind = .classMethod
  · exact ⟨_, .bound _ _ _ h hk, .inr rfl, fun hn => absurd hk hn⟩
  · exact ⟨_, .function _ _ _ h hk, .inl rfl, fun _ => rfl⟩

theorem methodKind_eq {c : Cls} {n : String} {m : Member} (h : Inherits w c n m) :
    methodKind w c n = some m.kind := by
  unfold methodKind
  rw [find_of_inherits h]
  rfl

theorem methodTask_own {c : Cls} {n : String} {f : Fn} {x a : String} {m : Member} {r : Ref}
    (hx : instanceVar w c n f = some x ∨ classRefs w c n f x = true)
    (hd : w.classDict c a = some m) (ha : Attr w (.cls c) a r) :
    methodTask w c n f (.attr x [] a) = some ⟨r, .cls c, some a⟩ := by
  simp only [methodTask]
  rw [if_pos hx, hd]
  simp [getattr_iff.2 ha]

theorem excluded_not {q : Place} (h : ¬ Excluded w q) {f : Fn} (hr : Runs w q f) {r : Ref}
    (hf : r = .fn f ∨ r = .bound f) :
    w.inTable r = false ∧ w.bypassed r = false ∧ w.sourceFile f = true := by
  refine ⟨?_, ?_, ?_⟩
  · cases hb : w.inTable r
    · rfl
    · exact absurd (.inr ⟨f, hr, .inr ⟨r, hf, .inl hb⟩⟩) h
  · cases hb : w.bypassed r
    · rfl
    · exact absurd (.inr ⟨f, hr, .inr ⟨r, hf, .inr hb⟩⟩) h
  · cases hb : w.sourceFile f
    · exact absurd (.inr ⟨f, hr, .inl hb⟩) h
    · rfl

/-- A followed call is found. -/
theorem call_found (hp : Plain w) {p q : Place} {k : Call} {v : Via} (hc : Calls w p k v q)
    (hf : Followed w p k v q) (hx : ¬ Excluded w q) :
    ∃ t, Finds w p t ∧ t.place = some q := by
  obtain ⟨hm, hv⟩ := hf
  cases hc with
  | itself c n m _ x m' hi hkind hk hce hpar hfw =>
    obtain ⟨r, ha, hr, -⟩ := attr_of_inherits hfw
    obtain ⟨htab, -, -⟩ := excluded_not hx (.method _ _ _ hfw) hr
    refine ⟨⟨r, .cls c, some "forward"⟩, finds_method hi hk hm htab ?_, rfl⟩
    rw [hce]
    simp only [methodTask]
    have h1 := methodKind_eq hi
    rw [hkind] at h1
    have h2 : instanceVar w c n m.fn = some x := by
      unfold instanceVar; rw [if_pos h1]; exact hpar
    rw [if_pos ⟨h1, h2⟩]
    simp [getattr_iff.2 ha]
  | «instance» c n m _ x a m' hi hkind hk hce hpar hia =>
    obtain ⟨mm, hd⟩ := hv
    cases inherits_unique hia (inherits_own hd)
    obtain ⟨r, ha, hr, -⟩ := attr_of_inherits hia
    obtain ⟨htab, -, -⟩ := excluded_not hx (.method _ _ _ hia) hr
    refine ⟨⟨r, .cls c, some a⟩, finds_method hi hk hm htab ?_, rfl⟩
    rw [hce]
    have h1 := methodKind_eq hi
    rw [hkind] at h1
    exact methodTask_own (.inl (by unfold instanceVar; rw [if_pos h1]; exact hpar)) hd ha
  | classParam c n m _ x a m' hi hkind hk hce hpar hia =>
    obtain ⟨mm, hd⟩ := hv
    cases inherits_unique hia (inherits_own hd)
    obtain ⟨r, ha, hr, -⟩ := attr_of_inherits hia
    obtain ⟨htab, -, -⟩ := excluded_not hx (.method _ _ _ hia) hr
    refine ⟨⟨r, .cls c, some a⟩, finds_method hi hk hm htab ?_, rfl⟩
    rw [hce]
    have h1 := methodKind_eq hi
    rw [hkind] at h1
    refine methodTask_own (.inr ?_) hd ha
    unfold classRefs classVar
    rw [if_pos h1, hpar]
    simp
  | className _ f _ x r ps c a m' hruns hk hce hs hl hia =>
    obtain ⟨r', ha, hr, hfn⟩ := attr_of_inherits hia
    obtain ⟨htab, hbyp, hsrc⟩ := excluded_not hx (.method _ _ _ hia) hr
    -- is it a method call of the class itself?
    by_cases hown : ∃ n, p = .method c n ∧ ps = [] ∧ ∃ m, w.classDict c a = some m
    · obtain ⟨n, rfl, rfl, mm, hd⟩ := hown
      obtain ⟨m, hi, rfl⟩ := runs_method hruns
      refine ⟨⟨r', .cls c, some a⟩, finds_method hi hk hm htab ?_, rfl⟩
      rw [hce]
      refine methodTask_own (.inr ?_) hd ha
      cases hl
      unfold classRefs
      rw [scopeVars_method hp hi]
      simp [hs]
    · have hfn' : r' = .fn m'.fn := by
        rcases hv with hv | ⟨⟨n, hpn⟩, ⟨y, hy⟩, hd⟩
        · exact hfn (hv _ hia)
        · rw [hce] at hy
          cases hy
          exact absurd ⟨n, hpn, rfl, hd⟩ hown
      subst hfn'
      refine ⟨⟨.fn m'.fn, .cls c, some a⟩, finds_function hp hruns hk hm htab ?_ ?_, rfl⟩
      · intro c' n hpn
        rw [hce]
        refine functionTask_attr ?_ hs hl ha hbyp hsrc htab
        cases ps with
        | cons _ _ => rfl
        | nil =>
          cases hl
          have hinst : instanceVar w c' n f ≠ some x := by
            intro hi
            unfold instanceVar at hi
            split at hi
            · have := w.params f x hi
              rw [hs] at this
              cases this
            · cases hi
          simp only [isMethodCall, hs]
          by_cases hcc : c = c'
          · subst hcc
            have : w.classDict c a = none := by
              cases hd : w.classDict c a with
              | none => rfl
              | some mm => exact absurd ⟨n, hpn, rfl, mm, hd⟩ hown
            simp [this]
          · simp [hinst, hcc]
      · intro m
        rw [hce]
        refine functionTask_attr ?_ hs hl ha hbyp hsrc htab
        cases ps <;> rfl
  | name _ f _ x g hruns hk hce hs =>
    obtain ⟨htab, hbyp, hsrc⟩ := excluded_not hx (.helper g) (r := .fn g) (.inl rfl)
    obtain ⟨m, hpm, -⟩ := hp.defined x f g hs
    have ht : ∀ owner inst, functionTask w owner inst (w.scope f) (.name x) =
        .task ⟨.fn g, .mod m, if w.getattr (.mod m) x = some (.fn g) then some x else none⟩ := by
      intro owner inst
      unfold functionTask
      simp [isMethodCall, hs, Ref.lacksModule, hpm, Ref.cannotHash, hbyp, inspected, hsrc, htab]
    refine ⟨⟨.fn g, .mod m, if w.getattr (.mod m) x = some (.fn g) then some x else none⟩,
      finds_function hp hruns hk hm htab ?_ ?_, rfl⟩
    · intro c n _; rw [hce]; exact ht _ _
    · intro m; rw [hce]; exact ht _ _
  | path _ f _ x r ps a parent g hruns hk hce hs hl hn ha =>
    obtain ⟨htab, hbyp, hsrc⟩ := excluded_not hx (.helper g) (r := .fn g) (.inl rfl)
    obtain ⟨m, rfl⟩ := hv
    have ha' : Attr w (.mod m) a (.fn g) := .object _ _ _ hn ha
    refine ⟨⟨.fn g, .mod m, some a⟩, finds_function hp hruns hk hm htab ?_ ?_, rfl⟩
    · intro c' n hpn
      rw [hce]
      refine functionTask_attr ?_ hs hl ha' hbyp hsrc htab
      cases ps with
      | cons _ _ => rfl
      | nil =>
        cases hl
        have hinst : instanceVar w c' n f ≠ some x := by
          intro hi
          unfold instanceVar at hi
          split at hi
          · have := w.params f x hi
            rw [hs] at this
            cases this
          · cases hi
        simp [isMethodCall, hs, hinst]
    · intro m'
      rw [hce]
      refine functionTask_attr ?_ hs hl ha' hbyp hsrc htab
      cases ps <;> rfl

theorem code_of_attr {c : Cls} {a : String} {r : Ref} {f : Fn} (h : Attr w (.cls c) a r)
    (hf : r.code = some f) : ∃ m, Inherits w c a m ∧ m.fn = f := by
  cases h with
  | object _ _ _ hn _ => exact absurd rfl (hn c)
  | function _ _ m hi _ => exact ⟨m, hi, Option.some.inj hf⟩
  | bound _ _ m hi _ => exact ⟨m, hi, Option.some.inj hf⟩

theorem inherits_of_attr {c : Cls} {a : String} {r : Ref} (h : Attr w (.cls c) a r) :
    ∃ m, Inherits w c a m := by
  cases h with
  | object _ _ _ hn _ => exact absurd rfl (hn c)
  | function _ _ m hi _ => exact ⟨m, hi⟩
  | bound _ _ m hi _ => exact ⟨m, hi⟩

theorem instanceVar_eq {c : Cls} {n : String} {m : Member} {x : String} (hi : Inherits w c n m)
    (h : instanceVar w c n m.fn = some x) : m.kind = .method ∧ w.firstParam m.fn = some x := by
  unfold instanceVar at h
  rw [methodKind_eq hi] at h
  split at h
  · rename_i hk; exact ⟨Option.some.inj hk, h⟩
  · cases h

/-- What the function search finds is called. -/
theorem function_called {p : Place} {owner : Ref} {inst : Option String} {f : Fn} {t : Task}
    {q : Place} (hr : Runs w p f) (hs : scopeVars w owner f = some (w.scope f))
    (ht : t ∈ dependentFunctions w owner inst f) (hq : t.place = some q) :
    ∃ k v, Calls w p k v q := by
  obtain ⟨sc, k, hs', hk, hm, hfound⟩ := dependentFunctions_found ht
  rw [hs] at hs'
  cases hs'
  rcases functionTask_sound hfound with ⟨x, g, m, al, hx, hsx, hpm, rfl⟩ |
    ⟨x, ps, a, parent, g, hx, ⟨r0, h0, hl⟩, ha, rfl⟩
  · cases hq
    exact ⟨k, .name, .name p f k x g hr hk hx hsx⟩
  · cases parent with
    | cls c =>
      cases hq
      obtain ⟨m', hi⟩ := inherits_of_attr ha
      exact ⟨k, .className, .className p f k x r0 ps c a m' hr hk hx h0 hl hi⟩
    | mod m =>
      cases hq
      cases ha with
      | object _ _ _ hn ha => exact ⟨k, .path (.mod m), .path p f k x r0 ps a _ g hr hk hx h0 hl hn ha⟩
    | fn _ => cases hq
    | bound _ => cases hq
    | other _ => cases hq

theorem method_called (hp : Plain w) {c : Cls} {n : String} {m : Member} {t : Task} {q : Place}
    (hi : Inherits w c n m) (ht : t ∈ methodDeps w ⟨c, n, m.fn⟩) (hq : t.place = some q) :
    ∃ k v, Calls w (.method c n) k v q := by
  rcases List.mem_append.1 (List.mem_filter.1 ht).1 with h | h
  · obtain ⟨k, hk, hmt⟩ := List.mem_filterMap.1 h
    have hk := (List.mem_filter.1 hk).1
    obtain ⟨a, r, rfl, ha, hor⟩ := methodTask_origin hmt
    cases hq
    obtain ⟨m', hia⟩ := inherits_of_attr ha
    rcases hor with ⟨x, hx, hv | hv⟩ | ⟨x, hx, rfl, hkd, hv⟩
    · obtain ⟨h1, h2⟩ := instanceVar_eq hi hv
      exact ⟨k, .instance, .instance c n m k x a m' hi h1 hk hx h2 hia⟩
    · unfold classRefs at hv
      rw [scopeVars_method hp hi] at hv
      simp only [Bool.or_eq_true, beq_iff_eq] at hv
      rcases hv with hv | hv
      · unfold classVar at hv
        rw [methodKind_eq hi] at hv
        split at hv
        · rename_i hkd
          exact ⟨k, .classParam, .classParam c n m k x a m' hi (Option.some.inj hkd) hk hx hv hia⟩
        · cases hv
      · exact ⟨k, .className, .className _ _ k x _ [] c a m' (.method c n m hi) hk hx hv (.here _) hia⟩
    · obtain ⟨h1, h2⟩ := instanceVar_eq hi hv
      exact ⟨k, .itself, .itself c n m k x m' hi h1 hk hx h2 hia⟩
  · exact function_called (.method c n m hi) (scopeVars_method hp hi) h hq

/-- The types that are chosen. -/
theorem mem_unquantized {known types : List Cls} {c : Cls} :
    c ∈ unquantized known types ↔ c ∈ types ∧ c ∉ known := by
  induction types generalizing known with
  | nil => simp [unquantized]
  | cons t ts ih =>
    unfold unquantized
    by_cases h : t ∈ known
    · rw [if_pos h, ih]
      constructor
      · rintro ⟨h1, h2⟩; exact ⟨List.mem_cons_of_mem _ h1, h2⟩
      · rintro ⟨h1, h2⟩
        rcases List.mem_cons.1 h1 with rfl | h1
        · exact absurd h h2
        · exact ⟨h1, h2⟩
    · rw [if_neg h, List.mem_cons, ih]
      constructor
      · rintro (rfl | ⟨h1, h2⟩)
        · exact ⟨List.mem_cons_self, h⟩
        · exact ⟨List.mem_cons_of_mem _ h1, fun hx => h2 (List.mem_cons_of_mem _ hx)⟩
      · rintro ⟨h1, h2⟩
        by_cases hc : c = t
        · exact .inl hc
        · refine .inr ⟨?_, ?_⟩
          · rcases List.mem_cons.1 h1 with h1 | h1
            · exact absurd h1 hc
            · exact h1
          · intro hx
            rcases List.mem_cons.1 hx with hx | hx
            · exact hc hx
            · exact h2 hx

theorem nodup_unquantized {known types : List Cls} : (unquantized known types).Nodup := by
  induction types generalizing known with
  | nil => simp [unquantized]
  | cons t ts ih =>
    unfold unquantized
    split
    · exact ih
    · refine List.nodup_cons.2 ⟨?_, ih⟩
      intro h
      exact (mem_unquantized.1 h).2 List.mem_cons_self

/-- Everything queued or converted is reached. -/
structure Justified (w : World) (known types : List Cls) (s : State) : Prop where
  queue : ∀ t ∈ s.queue, ∀ q, t.place = some q → Reached w known types q
  converted : ∀ q, Converted s q → Reached w known types q

theorem justified_step (hp : Plain w) {known types : List Cls} (s : State)
    (h : Sourced w s ∧ Justified w known types s) :
    Sourced w (step w s) ∧ Justified w known types (step w s) := by
  refine ⟨sourced_step s h.1, ?_⟩
  obtain ⟨hs, hj⟩ := h
  cases hq : s.queue with
  | nil => rw [step_nil hq]; exact hj
  | cons t q =>
    have ho := hs.queue t (by rw [hq]; exact List.mem_cons_self)
    have hst := step_stepped hq ho
    generalize step w s = s' at hst
    have hrest : ∀ t ∈ q, ∀ p, t.place = some p → Reached w known types p := fun t ht =>
      hj.queue t (by rw [hq]; exact List.mem_cons_of_mem _ ht)
    have hhere : ∀ p, t.place = some p → Reached w known types p :=
      hj.queue t (by rw [hq]; exact List.mem_cons_self)
    have hsame : Justified w known types { s with queue := q } := by
      refine ⟨hrest, ?_⟩
      intro p hc
      exact hj.converted p (by cases p <;> exact hc)
    cases hst with
    | known => exact hsame
    | done => exact hsame
    | failed => exact hsame
    | foreign => exact hsame
    | helper f m nm ht _ _ =>
      have hf : Reached w known types (.helper f) := hhere _ (by rw [ht]; rfl)
      refine ⟨?_, ?_⟩
      · intro t' ht' p' hp'
        rcases List.mem_append.1 ht' with h1 | h1
        · exact hrest t' h1 p' hp'
        · rw [ht] at ho
          obtain ⟨k, v, hc⟩ := function_called (.helper f) (scopeVars_helper hp ho) h1 hp'
          exact .call _ _ _ _ hf hc
      · intro p' hc
        cases p' with
        | method c n => exact hj.converted _ hc
        | helper g =>
          obtain ⟨h', hh', rfl⟩ := hc
          rcases List.mem_append.1 hh' with h1 | h1
          · exact hj.converted _ ⟨h', h1, rfl⟩
          · rw [List.mem_singleton] at h1
            subst h1
            exact hf
    | method c a r f ht ha hf _ _ =>
      have hm : Reached w known types (.method c a) := hhere _ (by rw [ht]; rfl)
      obtain ⟨mem, hi, rfl⟩ := code_of_attr ha hf
      refine ⟨?_, ?_⟩
      · intro t' ht' p' hp'
        rcases List.mem_append.1 ht' with h1 | h1
        · exact hrest t' h1 p' hp'
        · obtain ⟨k, v, hc⟩ := method_called hp hi h1 hp'
          exact .call _ _ _ _ hm hc
      · intro p' hc
        cases p' with
        | helper g => exact hj.converted _ hc
        | method c' n =>
          obtain ⟨m', hm', rfl, rfl⟩ := hc
          rcases List.mem_append.1 hm' with h1 | h1
          · exact hj.converted _ ⟨m', h1, rfl, rfl⟩
          · rw [List.mem_singleton] at h1
            subst h1
            exact hm

theorem justified_rounds (hp : Plain w) (known types : List Cls) (n : Nat) :
    Justified w known types (rounds w n (start w known types)) := by
  refine (rounds_inv (P := fun s => Sourced w s ∧ Justified w known types s)
    (fun s h => justified_step hp s h) n _ ⟨sourced_start known types, ?_, ?_⟩).2
  · intro t ht q hq
    obtain ⟨c, r, hc, rfl, ha⟩ := start_task ht
    cases hq
    obtain ⟨m, hi⟩ := inherits_of_attr ha
    obtain ⟨h1, h2⟩ := mem_unquantized.1 hc
    exact .forward c m h1 h2 hi
  · intro q hc
    cases q with
    | method c n => obtain ⟨m, hm, _⟩ := hc; cases hm
    | helper f => obtain ⟨m, hm, _⟩ := hc; cases hm

theorem settled_converted (hp : Plain w) {s : State} (hs : Sourced w s) {t : Task} {q : Place}
    (ho : Origin w t) (h : Settled w s t) (hq : t.place = some q) (hx : ¬ Excluded w q) :
    Converted s q := by
  rcases h with ⟨p, h1, h2⟩ | ⟨h, hh, hf⟩ | ⟨p, h1, h2⟩ | h
  · rw [hq] at h1
    cases h1
    exact h2
  · cases ho with
    | method r c a ha =>
      exfalso
      simp only at hf
      subst hf
      obtain ⟨m, hi, hm⟩ := code_of_attr ha rfl
      obtain ⟨before, o, after, -, hd, -⟩ := hi
      obtain ⟨hs1, hs2⟩ := hp.separate o a m hd
      obtain ⟨mm, al, -, horig⟩ := hs.helpers h hh
      rw [hm] at hs1 hs2
      cases horig with
      | named _ _ _ f x hsc _ => exact hs1 f x hsc
      | path _ _ b _ hat => exact hs2 _ b hat
    | named g m al f x _ _ =>
      cases hq
      simp only [Ref.fn.injEq] at hf
      exact ⟨h, hh, hf.symm⟩
    | path g parent a hn ha =>
      simp only [Ref.fn.injEq] at hf
      cases parent with
      | cls c => exact absurd rfl (hn c)
      | mod m => cases hq; exact ⟨h, hh, hf.symm⟩
      | fn _ => cases hq
      | bound _ => cases hq
      | other _ => cases hq
  · rw [hq] at h1
    cases h1
    exact absurd (.inl h2) hx
  · rw [hq] at h
    cases h

end Complete

section Termination

variable {w : World}

/-- The attribute names in the calls of a function. -/
def callNames (w : World) (f : Fn) : List String :=
  (w.calls f).filterMap (fun k => match k.callee with
    | .attr _ _ a => some a
    | _ => none)

/-- All places of a program with `N` functions and classes. -/
def places (w : World) (N : Nat) : List Place :=
  (List.range N).map .helper ++
  (List.range N).flatMap (fun c =>
    ("forward" :: (List.range N).flatMap (callNames w)).map (.method c))

theorem helper_mem_places {N : Nat} {f : Fn} : .helper f ∈ places w N ↔ f < N := by
  simp [places]

theorem method_mem_places {N : Nat} {c : Cls} {a : String} : .method c a ∈ places w N ↔
    c < N ∧ (a = "forward" ∨ ∃ f < N, a ∈ callNames w f) := by
  unfold places
  constructor
  · intro h
    rcases List.mem_append.1 h with h | h
    · obtain ⟨_, _, h⟩ := List.mem_map.1 h; cases h
    · obtain ⟨c', hc, h⟩ := List.mem_flatMap.1 h
      obtain ⟨a', ha, h⟩ := List.mem_map.1 h
      cases h
      refine ⟨List.mem_range.1 hc, ?_⟩
      rcases List.mem_cons.1 ha with rfl | ha
      · exact .inl rfl
      · obtain ⟨f, hf, ha⟩ := List.mem_flatMap.1 ha
        exact .inr ⟨f, List.mem_range.1 hf, ha⟩
  · rintro ⟨hc, h⟩
    refine List.mem_append_right _ (List.mem_flatMap.2 ⟨c, List.mem_range.2 hc, List.mem_map.2 ⟨a, ?_, rfl⟩⟩)
    rcases h with rfl | ⟨f, hf, ha⟩
    · exact List.mem_cons_self
    · exact List.mem_cons_of_mem _ (List.mem_flatMap.2 ⟨f, List.mem_range.2 hf, ha⟩)

theorem mem_callNames {f : Fn} {k : Call} {x : String} {ps : List String} {a : String}
    (hk : k ∈ w.calls f) (hc : k.callee = .attr x ps a) : a ∈ callNames w f :=
  List.mem_filterMap.2 ⟨k, hk, by rw [hc]⟩

variable {types : List Cls} {N : Nat}

theorem attr_below (hb : Bounded w types N) {r r' : Ref} {a : String} (h : Attr w r a r') :
    r'.Below N := by
  cases h with
  | object _ _ _ _ ha => exact hb.attr _ _ _ ha
  | function c _ m hi _ => obtain ⟨_, o, _, _, hd, _⟩ := hi; exact hb.classDict o _ m hd
  | bound c _ m hi _ => obtain ⟨_, o, _, _, hd, _⟩ := hi; exact hb.classDict o _ m hd

theorem leads_below (hb : Bounded w types N) {r r' : Ref} {ps : List String}
    (h : Leads w r ps r') (hr : r.Below N) : r'.Below N := by
  induction h with
  | here => exact hr
  | step _ _ _ _ _ ha _ ih => exact ih (attr_below hb ha)

theorem functions_within (hb : Bounded w types N) {owner : Ref} {inst : Option String} {f : Fn}
    {t : Task} {p : Place} (hf : f < N) (ht : t ∈ dependentFunctions w owner inst f)
    (hp : t.place = some p) : p ∈ places w N := by
  obtain ⟨sc, k, hs, hk, -, hfound⟩ := dependentFunctions_found ht
  rcases functionTask_sound hfound with ⟨x, g, m, al, hx, hsx, hpm, rfl⟩ |
    ⟨x, ps, a, parent, g, hx, ⟨r0, h0, hl⟩, ha, rfl⟩
  · cases hp
    obtain ⟨g', hg'⟩ := scopeVars_origin hs hsx
    exact helper_mem_places.2 (hb.scope _ _ _ hg')
  · cases parent with
    | cls c =>
      cases hp
      obtain ⟨g', hg'⟩ := scopeVars_origin hs h0
      have hc : Ref.Below N (.cls c) := leads_below hb hl (hb.scope _ _ _ hg')
      exact method_mem_places.2 ⟨hc, .inr ⟨f, hf, mem_callNames hk hx⟩⟩
    | mod m =>
      cases hp
      exact helper_mem_places.2 (attr_below hb ha)
    | fn _ => cases hp
    | bound _ => cases hp
    | other _ => cases hp

theorem methods_within (hb : Bounded w types N) {c : Cls} {n : String} {f : Fn}
    {t : Task} {p : Place} (hc : c < N) (hf : f < N) (ht : t ∈ methodDeps w ⟨c, n, f⟩)
    (hp : t.place = some p) : p ∈ places w N := by
  rcases List.mem_append.1 (List.mem_filter.1 ht).1 with h | h
  · obtain ⟨k, hk, hmt⟩ := List.mem_filterMap.1 h
    have hk := (List.mem_filter.1 hk).1
    obtain ⟨a, r, rfl, ha, hor⟩ := methodTask_origin hmt
    cases hp
    refine method_mem_places.2 ⟨hc, ?_⟩
    rcases hor with ⟨x, hx, _⟩ | ⟨x, hx, rfl, _⟩
    · exact .inr ⟨f, hf, mem_callNames hk hx⟩
    · exact .inl rfl
  · exact functions_within hb hf h hp

/-- Whether a place was converted. -/
def convertedB (s : State) : Place → Bool
  | .method c n => s.methods.any (fun m => m.cls == c && m.name == n)
  | .helper f => s.helpers.any (fun h => h.fn == f)

theorem convertedB_iff {s : State} {p : Place} : convertedB s p = true ↔ Converted s p := by
  cases p <;> simp [convertedB, Converted]

/-- The number of places not converted yet. -/
def todo (ps : List Place) (s : State) : Nat := ps.countP (fun p => !convertedB s p)

theorem countP_le {α : Type} {f g : α → Bool} (ps : List α)
    (h : ∀ p, g p = true → f p = true) : ps.countP g ≤ ps.countP f := by
  induction ps with
  | nil => simp
  | cons p ps ih =>
    rw [List.countP_cons, List.countP_cons]
    by_cases hg : g p = true
    · rw [if_pos hg, if_pos (h p hg)]; omega
    · rw [if_neg hg]; omega

theorem countP_lt {α : Type} {f g : α → Bool} (ps : List α)
    (h : ∀ p, g p = true → f p = true) (x : α) (hx : x ∈ ps) (hf : f x = true)
    (hg : g x = false) : ps.countP g < ps.countP f := by
  induction ps with
  | nil => cases hx
  | cons p ps ih =>
    rw [List.countP_cons, List.countP_cons]
    rcases List.mem_cons.1 hx with rfl | hx
    · rw [if_pos hf, hg]
      have := countP_le ps h
      simp
      omega
    · have := ih hx
      by_cases hgp : g p = true
      · rw [if_pos hgp, if_pos (h p hgp)]; omega
      · rw [if_neg hgp]; omega

theorem todo_lt {ps : List Place} {s s' : State} (hh : ∀ h ∈ s.helpers, h ∈ s'.helpers)
    (hm : ∀ m ∈ s.methods, m ∈ s'.methods) {p : Place} (hp : p ∈ ps) (h : ¬ Converted s p)
    (h' : Converted s' p) : todo ps s' < todo ps s := by
  refine countP_lt ps ?_ p hp ?_ ?_
  · intro p' hp'
    simp only [Bool.not_eq_true', ← Bool.not_eq_true, convertedB_iff] at hp' ⊢
    intro hc
    apply hp'
    cases p' with
    | method c n => obtain ⟨m, h1, h2⟩ := hc; exact ⟨m, hm m h1, h2⟩
    | helper f => obtain ⟨m, h1, h2⟩ := hc; exact ⟨m, hh m h1, h2⟩
  · simp only [Bool.not_eq_true', ← Bool.not_eq_true, convertedB_iff]; exact h
  · simp only [Bool.not_eq_false', convertedB_iff]; exact h'

theorem ends_aux (hb : Bounded w types N) : ∀ a b s, todo (places w N) s ≤ a → s.queue.length ≤ b →
    Sourced w s → (∀ t ∈ s.queue, ∀ p, t.place = some p → p ∈ places w N) →
    ∃ n, (rounds w n s).queue = [] := by
  intro a
  induction a with
  | zero =>
    intro b
    induction b with
    | zero =>
      intro s _ hl _ _
      exact ⟨0, List.length_eq_zero_iff.1 (Nat.le_zero.1 hl)⟩
    | succ b ih =>
      intro s ha hl hs hin
      cases hq : s.queue with
      | nil => exact ⟨0, hq⟩
      | cons t q =>
        have ho := hs.queue t (by rw [hq]; exact List.mem_cons_self)
        have hst := step_stepped hq ho
        have hs' := sourced_step s hs
        have hrest : ∀ t ∈ q, ∀ p, t.place = some p → p ∈ places w N := fun t ht =>
          hin t (by rw [hq]; exact List.mem_cons_of_mem _ ht)
        have hhere : ∀ p, t.place = some p → p ∈ places w N :=
          hin t (by rw [hq]; exact List.mem_cons_self)
        suffices h : ∃ n, (rounds w n (step w s)).queue = [] by
          obtain ⟨n, hn⟩ := h
          exact ⟨n + 1, hn⟩
        rw [hq] at hl
        simp only [List.length_cons] at hl
        generalize step w s = s' at hst hs'
        cases hst with
        | known => exact ih _ ha (by simp only; omega) hs' hrest
        | done => exact ih _ ha (by simp only; omega) hs' hrest
        | failed => exact ih _ ha (by simp only; omega) hs' hrest
        | foreign => exact ih _ ha (by simp only; omega) hs' hrest
        | helper f m nm ht hn _ =>
          exfalso
          have := todo_lt (s := s)
            (s' := ⟨q ++ helperDeps w ⟨f, .mod m, nm⟩, s.helpers ++ [⟨f, .mod m, nm⟩], s.methods⟩)
            (fun _ h => List.mem_append_left _ h) (fun _ h => h)
            (hhere (.helper f) (by rw [ht]; rfl))
            (by rintro ⟨h, h1, h2⟩; exact hn h h1 h2)
            ⟨⟨f, .mod m, nm⟩, List.mem_append_right _ (List.mem_singleton.2 rfl), rfl⟩
          omega
        | method c a' r f ht hat hf hn _ =>
          exfalso
          have := todo_lt (s := s)
            (s' := ⟨q ++ methodDeps w ⟨c, a', f⟩, s.helpers, s.methods ++ [⟨c, a', f⟩]⟩)
            (fun _ h => h) (fun _ h => List.mem_append_left _ h)
            (hhere (.method c a') (by rw [ht]; rfl))
            (by rintro ⟨h, h1, h2, h3⟩; exact hn h h1 h2 h3)
            ⟨⟨c, a', f⟩, List.mem_append_right _ (List.mem_singleton.2 rfl), rfl, rfl⟩
          omega
  | succ a iha =>
    intro b
    induction b with
    | zero =>
      intro s _ hl _ _
      exact ⟨0, List.length_eq_zero_iff.1 (Nat.le_zero.1 hl)⟩
    | succ b ih =>
      intro s ha hl hs hin
      cases hq : s.queue with
      | nil => exact ⟨0, hq⟩
      | cons t q =>
        have ho := hs.queue t (by rw [hq]; exact List.mem_cons_self)
        have hst := step_stepped hq ho
        have hs' := sourced_step s hs
        have hrest : ∀ t ∈ q, ∀ p, t.place = some p → p ∈ places w N := fun t ht =>
          hin t (by rw [hq]; exact List.mem_cons_of_mem _ ht)
        have hhere : ∀ p, t.place = some p → p ∈ places w N :=
          hin t (by rw [hq]; exact List.mem_cons_self)
        suffices h : ∃ n, (rounds w n (step w s)).queue = [] by
          obtain ⟨n, hn⟩ := h
          exact ⟨n + 1, hn⟩
        rw [hq] at hl
        simp only [List.length_cons] at hl
        generalize step w s = s' at hst hs'
        cases hst with
        | known => exact ih _ ha (by simp only; omega) hs' hrest
        | done => exact ih _ ha (by simp only; omega) hs' hrest
        | failed => exact ih _ ha (by simp only; omega) hs' hrest
        | foreign => exact ih _ ha (by simp only; omega) hs' hrest
        | helper f m nm ht hn _ =>
          have hfp := hhere (.helper f) (by rw [ht]; rfl)
          have := todo_lt (s := s)
            (s' := ⟨q ++ helperDeps w ⟨f, .mod m, nm⟩, s.helpers ++ [⟨f, .mod m, nm⟩], s.methods⟩)
            (fun _ h => List.mem_append_left _ h) (fun _ h => h) hfp
            (by rintro ⟨h, h1, h2⟩; exact hn h h1 h2)
            ⟨⟨f, .mod m, nm⟩, List.mem_append_right _ (List.mem_singleton.2 rfl), rfl⟩
          refine iha _ _ (by omega) (Nat.le_refl _) hs' ?_
          intro t' ht' p' hp'
          rcases List.mem_append.1 ht' with h1 | h1
          · exact hrest t' h1 p' hp'
          · exact functions_within hb (helper_mem_places.1 hfp) h1 hp'
        | method c a' r f ht hat hf hn _ =>
          have hfp := hhere (.method c a') (by rw [ht]; rfl)
          have := todo_lt (s := s)
            (s' := ⟨q ++ methodDeps w ⟨c, a', f⟩, s.helpers, s.methods ++ [⟨c, a', f⟩]⟩)
            (fun _ h => h) (fun _ h => List.mem_append_left _ h) hfp
            (by rintro ⟨h, h1, h2, h3⟩; exact hn h h1 h2 h3)
            ⟨⟨c, a', f⟩, List.mem_append_right _ (List.mem_singleton.2 rfl), rfl, rfl⟩
          refine iha _ _ (by omega) (Nat.le_refl _) hs' ?_
          obtain ⟨mem, hi, rfl⟩ := code_of_attr hat hf
          obtain ⟨_, o, _, _, hd, _⟩ := hi
          intro t' ht' p' hp'
          rcases List.mem_append.1 ht' with h1 | h1
          · exact hrest t' h1 p' hp'
          · exact methods_within hb (method_mem_places.1 hfp).1 (hb.classDict _ _ _ hd) h1 hp'

end Termination

/-! ## Properties -/

/-- **C102.** Autoquant's search ends: for a program with finitely many functions
and classes the queue is empty after finitely many rounds, however the
functions call each other, and nothing changes after that. -/
theorem search_ends {w : World} {known types : List Cls} {N : Nat} (hb : Bounded w types N) :
    ∃ n, (rounds w n (start w known types)).queue = [] ∧
      ∀ m, rounds w (n + m) (start w known types) = rounds w n (start w known types) := by
  have h : ∃ n, (rounds w n (start w known types)).queue = [] := by
    refine ends_aux hb _ _ _ (Nat.le_refl _) (Nat.le_refl _) (sourced_start known types) ?_
    intro t ht p hp
    obtain ⟨c, r, hc, rfl, ha⟩ := start_task ht
    cases hp
    exact method_mem_places.2 ⟨hb.types c (mem_unquantized.1 hc).1, .inl rfl⟩
  obtain ⟨n, hn⟩ := h
  refine ⟨n, hn, ?_⟩
  intro m
  have hadd : ∀ n m s, rounds w (n + m) s = rounds w m (rounds w n s) := by
    intro n
    induction n with
    | zero => intro m s; simp [rounds]
    | succ n ih => intro m s; rw [Nat.succ_add]; exact ih m (step w s)
  have hstay : ∀ m s, s.queue = [] → rounds w m s = s := by
    intro m
    induction m with
    | zero => intro s _; rfl
    | succ m ih => intro s hs; rw [rounds, step_nil hs]; exact ih s hs
  rw [hadd, hstay m _ hn]

/-- **C102.** The search starts from every module type of the model that is not
quantized already, and from each of them once. -/
theorem types_chosen_once (known types : List Cls) :
    (∀ c, c ∈ unquantized known types ↔ c ∈ types ∧ c ∉ known) ∧
      (unquantized known types).Nodup :=
  ⟨fun _ => mem_unquantized, nodup_unquantized⟩

/-- **C102.** At every moment of the search, no method of a class and no helper
function has been converted twice. -/
theorem converted_once (w : World) (known types : List Cls) (n : Nat) :
    ((rounds w n (start w known types)).helpers.map (·.fn)).Nodup ∧
    ((rounds w n (start w known types)).methods.map (fun m => (m.cls, m.name))).Nodup := by
  have h := (rounds_inv (P := fun s => Sourced w s ∧ Once s) (fun s h => once_step s h) n _
    ⟨sourced_start (w := w) known types, ⟨List.Pairwise.nil, List.Pairwise.nil⟩⟩).2
  exact ⟨h.helpers, h.methods⟩

/-- **C102.** The code generated for a method is that of the function which
Python finds under the method's name on the class, be it inherited, a class
method or a static method. -/
theorem source_of_method (w : World) (known types : List Cls) (n : Nat) :
    ∀ m ∈ (rounds w n (start w known types)).methods,
      ∃ mem, Inherits w m.cls m.name mem ∧ mem.fn = m.fn := by
  intro m hm
  obtain ⟨r, ha, hf⟩ := (sourced_rounds (w := w) known types n).methods m hm
  exact code_of_attr ha hf

/-- **C102 (partial).** In a plainly laid out program, only what is called,
directly or indirectly, by a `forward` method is converted.
Missing: programs where the name of a `def` statement leads to another function. -/
theorem only_called_converted_partial {w : World} (hp : Plain w) (known types : List Cls)
    (n : Nat) (q : Place) (h : Converted (rounds w n (start w known types)) q) :
    Reached w known types q :=
  (justified_rounds hp known types n).converted q h

/-- **C102 (partial).** Once the search has ended, what converted code calls is
converted, unless it is a registered operator, must be left alone, or cannot be
converted; in a plainly laid out program, for calls of the kinds that are
followed.
Missing: the calls that are not followed, see the deviations. -/
theorem callees_converted_partial {w : World} (hp : Plain w) (known types : List Cls) (n : Nat)
    (hend : (rounds w n (start w known types)).queue = []) (p : Place)
    (hc : Converted (rounds w n (start w known types)) p) (k : Call) (v : Via) (q : Place)
    (hcall : Calls w p k v q) (hf : Followed w p k v q) (hx : ¬ Excluded w q) :
    Converted (rounds w n (start w known types)) q := by
  obtain ⟨t, hfinds, hq⟩ := call_found hp hcall hf hx
  have hs := sourced_rounds (w := w) known types n
  have ht := tracked_rounds (w := w) known types n
  generalize rounds w n (start w known types) = s at hs ht hend hc ⊢
  have hset : Origin w t ∧ Settled w s t := by
    cases p with
    | method c a =>
      obtain ⟨m, hm, rfl, rfl⟩ := hc
      obtain ⟨r, ha, hr⟩ := hs.methods m hm
      obtain ⟨mem, hi, hmf⟩ := code_of_attr ha hr
      have hmem := hfinds m.fn (by rw [← hmf]; exact .method _ _ _ hi)
      refine ⟨methodDeps_origin hmem, ?_⟩
      rcases ht.methods m hm t hmem with h | h
      · rw [hend] at h; cases h
      · exact h
    | helper f =>
      obtain ⟨h, hh, rfl⟩ := hc
      obtain ⟨m, al, ho, horig⟩ := hs.helpers h hh
      have hmem := hfinds m al h.name horig
      have he : (⟨h.fn, .mod m, h.name⟩ : Helper) = h := by rw [← ho]
      rw [he] at hmem
      refine ⟨dependentFunctions_origin hmem, ?_⟩
      rcases ht.helpers h hh t hmem with h | h
      · rw [hend] at h; cases h
      · exact h
  exact settled_converted hp hs hset.1 hset.2 hq hx

/-- Reached from the `forward` methods through calls that are followed, passing
only through code that can be converted. -/
inductive ReachedByFollowed (w : World) (known types : List Cls) : Place → Prop where
  | forward (c m) : c ∈ types → c ∉ known → Inherits w c "forward" m →
      ¬ Excluded w (.method c "forward") → ReachedByFollowed w known types (.method c "forward")
  | call (p k v q) : ReachedByFollowed w known types p → Calls w p k v q →
      Followed w p k v q → ¬ Excluded w q → ReachedByFollowed w known types q

/-- **C102 (partial).** Once the search has ended, everything that is reached from
the `forward` methods by calls of the kinds that are followed is converted.
Missing: as for `callees_converted_partial`. -/
theorem reached_converted_partial {w : World} (hp : Plain w) (known types : List Cls) (n : Nat)
    (hend : (rounds w n (start w known types)).queue = []) (q : Place)
    (h : ReachedByFollowed w known types q) : Converted (rounds w n (start w known types)) q := by
  induction h with
  | forward c m hc hk hi hx =>
    obtain ⟨r, ha, -, -⟩ := attr_of_inherits hi
    have hmem : (⟨r, .cls c, some "forward"⟩ : Task) ∈ (start w known types).queue :=
      List.mem_filterMap.2 ⟨c, mem_unquantized.2 ⟨hc, hk⟩, by rw [getattr_iff.2 ha]; rfl⟩
    rcases (tracked_rounds (w := w) known types n).start _ hmem with h | h
    · rw [hend] at h; cases h
    · exact settled_converted hp (sourced_rounds known types n) (.method _ _ _ ha) h rfl hx
  | call p k v q _ hcall hf hx ih =>
    exact callees_converted_partial hp known types n hend p ih k v q hcall hf hx

/-! ## Deviations -/

/-- After the search has ended, the code of `p` was converted and calls `q`, which
nothing prevents from being converted, but `q` was not. -/
def Missed (w : World) (types : List Cls) (p q : Place) : Prop :=
  ∃ n, (rounds w n (start w [] types)).queue = [] ∧
    Converted (rounds w n (start w [] types)) p ∧ (∃ k v, Calls w p k v q) ∧ ¬ Excluded w q ∧
    ¬ Converted (rounds w n (start w [] types)) q

namespace Small

/-- A marked call of a name. -/
def call (x : String) : Call := ⟨true, .name x⟩
/-- A marked call of `x.a`. -/
def callAttr (x a : String) : Call := ⟨true, .attr x [] a⟩

/-- Function 0 is `forward(self, x)` of class 0 and makes the given calls; class 1
is a base of class 0 if `base` says so.  Functions 1 and 2 are other functions. -/
def world (base : Bool) (calls1 calls0 : List Call) (dict : Cls → String → Option Member)
    (scope : String → Option Ref) (attr : Ref → String → Option Ref) (names : Fn → String) :
    World where
  ancestors c := if c = 0 ∧ base = true then [1] else []
  classDict c n := if c = 0 ∧ n = "forward" then some ⟨.method, 0⟩ else dict c n
  attr := attr
  scope _ x := if x = "self" then none else scope x
  defName := names
  firstParam f := if f ≤ 1 then some "self" else none
  calls f := if f = 0 then calls0 else if f = 1 then calls1 else []
  pyModule r := match r with
    | .fn _ => some 0
    | _ => none
  noModule _ := true
  unhashable _ := false
  inTable _ := false
  bypassed _ := false
  sourceFile _ := true
  converts _ := true
  params f x h := by
    split at h
    · cases h; rfl
    · cases h

theorem not_excluded {base calls1 calls0 dict scope attr names} (q : Place) :
    ¬ Excluded (world base calls1 calls0 dict scope attr names) q := by
  rintro (h | ⟨f, -, h | ⟨r, -, h | h⟩⟩) <;> cases h

theorem not_converted {s : State} {q : Place} (h : convertedB s q = false) : ¬ Converted s q := by
  intro hc
  rw [convertedB_iff.2 hc] at h
  cases h

/-- The name of function 0 is `forward`, the others are `f1`, `f2`. -/
def plainNames (f : Fn) : String := if f = 0 then "forward" else if f = 1 then "f1" else "f2"

/-- Class 1 defines `act`, class 0 inherits it, and `forward` calls `self.act(x)`. -/
def inheriting : World :=
  world true [] [callAttr "self" "act"]
    (fun c n => if c = 1 ∧ n = "act" then some ⟨.method, 1⟩ else none) (fun _ => none)
    (fun _ _ => none) (fun f => if f = 0 then "forward" else "act")

/-- `forward` of class 0 is a function of the module named `run`, and calls the
function `f1` of the module. -/
def aliased : World :=
  world false [] [call "f1"] (fun _ _ => none)
    (fun x => if x = "f1" then some (.fn 1) else none)
    (fun r a => if r = .mod 0 ∧ a = "f1" then some (.fn 1)
      else if r = .mod 0 ∧ a = "run" then some (.fn 0) else none)
    (fun f => if f = 0 then "run" else plainNames f)

/-- `forward` calls `pkg.public`, which the package offers under this name only;
the function is `_impl` in another module and calls its neighbour `f2`. -/
def reexported : World :=
  world false [call "f2"] [callAttr "pkg" "public"] (fun _ _ => none)
    (fun x => if x = "pkg" then some (.mod 1) else if x = "f2" then some (.fn 2) else none)
    (fun r a => if r = .mod 1 ∧ a = "public" then some (.fn 1)
      else if r = .mod 0 ∧ a = "_impl" then some (.fn 1)
      else if r = .mod 0 ∧ a = "f2" then some (.fn 2) else none)
    (fun f => if f = 1 then "_impl" else plainNames f)

/-- `forward` calls `self.before` and the function `f2` of the module; `before`
calls `self.step`, where the class says `step = staticmethod(f2)`. -/
def shared : World :=
  world false [callAttr "self" "step"] [callAttr "self" "before", call "f2"]
    (fun c n => if c = 0 ∧ n = "before" then some ⟨.method, 1⟩
      else if c = 0 ∧ n = "step" then some ⟨.staticMethod, 2⟩ else none)
    (fun x => if x = "f2" then some (.fn 2) else none)
    (fun r a => if r = .mod 0 ∧ a = "f2" then some (.fn 2) else none)
    (fun f => if f = 1 then "before" else plainNames f)

/-- `forward` calls the class method `make` of another module type, class 1. -/
def otherClass : World :=
  world false [] [callAttr "Other" "make"]
    (fun c n => if c = 1 ∧ n = "make" then some ⟨.classMethod, 1⟩ else none)
    (fun x => if x = "Other" then some (.cls 1) else none)
    (fun _ _ => none) (fun f => if f = 0 then "forward" else "make")

/-- `forward` calls `Util.f1`, where `Util` is a plain class. -/
def plainClass : World :=
  world false [] [callAttr "Util" "f1"] (fun _ _ => none)
    (fun x => if x = "Util" then some (.other 0) else none)
    (fun r a => if r = .other 0 ∧ a = "f1" then some (.fn 1) else none) plainNames

/-- `forward` calls an object without `__module__` and then the function `f1`. -/
def unreadable : World :=
  world false [] [call "odd", call "f1"] (fun _ _ => none)
    (fun x => if x = "odd" then some (.other 0) else if x = "f1" then some (.fn 1) else none)
    (fun r a => if r = .mod 0 ∧ a = "f1" then some (.fn 1) else none) plainNames

/-- `forward` calls `x.odd`, an object that cannot be hashed, and then the function `f1`. -/
def unhashed : World :=
  { world false [] [callAttr "x" "odd", call "f1"] (fun _ _ => none)
      (fun x => if x = "x" then some (.mod 0) else if x = "f1" then some (.fn 1) else none)
      (fun r a => if r = .mod 0 ∧ a = "f1" then some (.fn 1)
        else if r = .mod 0 ∧ a = "odd" then some (.other 0) else none) plainNames with
    unhashable := fun _ => true }

/-- `forward` calls the function `f1`, in a call that was not marked. -/
def unmarked : World :=
  world false [] [⟨false, .name "f1"⟩] (fun _ _ => none)
    (fun x => if x = "f1" then some (.fn 1) else none)
    (fun r a => if r = .mod 0 ∧ a = "f1" then some (.fn 1) else none) plainNames

end Small

open Small in
/-- **C102, deviation.** A method that a class inherits and calls on `self` is not
converted: the search looks for methods in the class itself only. -/
theorem inherited_method_not_converted :
    Missed inheriting [0] (.method 0 "forward") (.method 0 "act") := by
  refine ⟨5, by decide +kernel, convertedB_iff.1 (by decide +kernel), ?_, not_excluded _,
    not_converted (by decide +kernel)⟩
  exact ⟨_, _, .instance 0 "forward" ⟨.method, 0⟩ (callAttr "self" "act") "self" "act" ⟨.method, 1⟩
    (inherits_own rfl) rfl (List.mem_singleton.2 rfl) rfl rfl
    ⟨[0], 1, [], rfl, rfl, by intro b hb; cases List.mem_singleton.1 hb; rfl⟩⟩

open Small in
/-- **C102, deviation.** If `forward` is a function of the module (`forward = run`),
the functions it calls are not converted: the search looks for its scope under
the name of the `def` statement in the class. -/
theorem aliased_forward_hides_helpers :
    Missed aliased [0] (.method 0 "forward") (.helper 1) := by
  refine ⟨5, by decide +kernel, convertedB_iff.1 (by decide +kernel), ?_, not_excluded _,
    not_converted (by decide +kernel)⟩
  exact ⟨_, _, .name _ 0 (call "f1") "f1" 1 (.method 0 "forward" ⟨.method, 0⟩ (inherits_own rfl))
    (List.mem_singleton.2 rfl) rfl rfl⟩

open Small in
/-- **C102, deviation.** The functions called by a helper are not converted if the
helper is reached through a module that offers it under another name than that
of its `def` statement. -/
theorem reexported_helper_hides_helpers :
    Missed reexported [0] (.helper 1) (.helper 2) := by
  refine ⟨5, by decide +kernel, convertedB_iff.1 (by decide +kernel), ?_, not_excluded _,
    not_converted (by decide +kernel)⟩
  exact ⟨_, _, .name _ 1 (call "f2") "f2" 2 (.helper 1) (List.mem_singleton.2 rfl) rfl rfl⟩

open Small in
/-- **C102, deviation.** A method is not converted if the same function was
converted as a helper before: the class keeps the function as it is. -/
theorem helper_not_converted_as_method :
    Missed shared [0] (.method 0 "before") (.method 0 "step") ∧
    ∃ n, (rounds shared n (start shared [] [0])).queue = [] ∧
      Converted (rounds shared n (start shared [] [0])) (.helper 2) := by
  refine ⟨⟨5, by decide +kernel, convertedB_iff.1 (by decide +kernel), ?_, not_excluded _,
    not_converted (by decide +kernel)⟩, 5, by decide +kernel, convertedB_iff.1 (by decide +kernel)⟩
  exact ⟨_, _, .instance 0 "before" ⟨.method, 1⟩ (callAttr "self" "step") "self" "step"
    ⟨.staticMethod, 2⟩ (inherits_own rfl) rfl (List.mem_singleton.2 rfl) rfl rfl (inherits_own rfl)⟩

open Small in
/-- **C102, deviation.** A class method of another module type that is called on
the class is not converted. -/
theorem class_method_of_other_class_not_converted :
    Missed otherClass [0, 1] (.method 0 "forward") (.method 1 "make") := by
  refine ⟨5, by decide +kernel, convertedB_iff.1 (by decide +kernel), ?_, not_excluded _,
    not_converted (by decide +kernel)⟩
  exact ⟨_, _, .className _ 0 (callAttr "Other" "make") "Other" (.cls 1) [] 1 "make" ⟨.classMethod, 1⟩
    (.method 0 "forward" ⟨.method, 0⟩ (inherits_own rfl)) (List.mem_singleton.2 rfl) rfl rfl
    (.here _) (inherits_own rfl)⟩

open Small in
/-- **C102, deviation.** A function that is called as an attribute of a plain class
is not converted. -/
theorem function_of_plain_class_not_converted :
    Missed plainClass [0] (.method 0 "forward") (.helper 1) := by
  refine ⟨5, by decide +kernel, convertedB_iff.1 (by decide +kernel), ?_, not_excluded _,
    not_converted (by decide +kernel)⟩
  exact ⟨_, _, .path _ 0 (callAttr "Util" "f1") "Util" (.other 0) [] "f1" (.other 0) 1
    (.method 0 "forward" ⟨.method, 0⟩ (inherits_own rfl)) (List.mem_singleton.2 rfl) rfl rfl
    (.here _) (by intro c h; cases h) rfl⟩

open Small in
/-- **C102, deviation.** If the code calls an object that has no `__module__`, the
search stops there, and the functions called after it are not converted. -/
theorem unreadable_object_stops_search :
    Missed unreadable [0] (.method 0 "forward") (.helper 1) := by
  refine ⟨5, by decide +kernel, convertedB_iff.1 (by decide +kernel), ?_, not_excluded _,
    not_converted (by decide +kernel)⟩
  exact ⟨_, _, .name _ 0 (call "f1") "f1" 1 (.method 0 "forward" ⟨.method, 0⟩ (inherits_own rfl))
    (List.mem_cons_of_mem _ (List.mem_singleton.2 rfl)) rfl rfl⟩

open Small in
/-- **C102, deviation.** The same if the code calls an object that cannot be hashed. -/
theorem unhashable_object_stops_search :
    Missed unhashed [0] (.method 0 "forward") (.helper 1) := by
  refine ⟨5, by decide +kernel, convertedB_iff.1 (by decide +kernel), ?_, ?_,
    not_converted (by decide +kernel)⟩
  · exact ⟨_, _, .name _ 0 (call "f1") "f1" 1 (.method 0 "forward" ⟨.method, 0⟩ (inherits_own rfl))
      (List.mem_cons_of_mem _ (List.mem_singleton.2 rfl)) rfl rfl⟩
  · rintro (h | ⟨f, -, h | ⟨r, -, h | h⟩⟩) <;> cases h

open Small in
/-- **C102, deviation.** A function is not converted if the types that are known
for the arguments of the call are no tensors, so that the call is not marked. -/
theorem unmarked_call_not_followed :
    Missed unmarked [0] (.method 0 "forward") (.helper 1) := by
  refine ⟨5, by decide +kernel, convertedB_iff.1 (by decide +kernel), ?_, not_excluded _,
    not_converted (by decide +kernel)⟩
  exact ⟨_, _, .name _ 0 ⟨false, .name "f1"⟩ "f1" 1 (.method 0 "forward" ⟨.method, 0⟩ (inherits_own rfl))
    (List.mem_singleton.2 rfl) rfl rfl⟩

/-! ## Concrete cases -/

namespace Small

/-- `forward` calls `self.before`, `mod.f2` and itself; `before` calls `f2`. -/
def regular : World :=
  { world false [call "f2"] [callAttr "self" "before", callAttr "mod" "f2", call "self"]
      (fun c n => if c = 0 ∧ n = "before" then some ⟨.method, 1⟩ else none)
      (fun x => if x = "f2" then some (.fn 2) else if x = "mod" then some (.mod 0) else none)
      (fun r a => if r = .mod 0 ∧ a = "f2" then some (.fn 2) else none)
      (fun f => if f = 1 then "before" else plainNames f) with
    noModule := fun _ => false }

end Small

open Small in
example : Bounded regular [0, 1, 0] 3 := by
  refine ⟨by decide, ?_, ?_, ?_⟩
  · intro c n m h
    simp only [regular, world] at h
    repeat' split at h
    all_goals first | cases h | skip
    all_goals decide
  · intro r a r' h
    simp only [regular, world] at h
    repeat' split at h
    all_goals first | cases h | skip
    all_goals first | exact (by decide : 2 < 3) | trivial
  · intro f x r h
    simp only [regular, world] at h
    repeat' split at h
    all_goals first | cases h | skip
    all_goals first | exact (by decide : 2 < 3) | trivial

open Small in
theorem Small.regular_plain : Plain regular := by
  have hdict : ∀ c n m, regular.classDict c n = some m →
      c = 0 ∧ ((n = "forward" ∧ m = ⟨.method, 0⟩) ∨ (n = "before" ∧ m = ⟨.method, 1⟩)) := by
    intro c n m h
    simp only [regular, world] at h
    split at h
    · rename_i hc; cases h; exact ⟨hc.1, .inl ⟨hc.2, rfl⟩⟩
    · split at h
      · rename_i hc; cases h; exact ⟨hc.1, .inr ⟨hc.2, rfl⟩⟩
      · cases h
  have hattr : ∀ r a f, regular.attr r a = some (.fn f) → r = .mod 0 ∧ a = "f2" ∧ f = 2 := by
    intro r a f h
    simp only [regular, world] at h
    split at h
    · rename_i hc; cases h; exact ⟨hc.1, hc.2, rfl⟩
    · cases h
  have hscope : ∀ f x g, regular.scope f x = some (.fn g) → g = 2 := by
    intro f x g h
    simp only [regular, world] at h
    repeat' split at h
    all_goals first | cases h | skip
    all_goals rfl
  refine ⟨?_, ?_, ?_, ?_, fun _ => rfl, fun _ => rfl⟩
  · intro c n m hi
    obtain ⟨b, o, a, hm, hd, hb⟩ := hi
    obtain ⟨rfl, h⟩ := hdict o n m hd
    have hown : regular.classDict 0 (regular.defName m.fn) = some m := by
      rcases h with ⟨_, rfl⟩ | ⟨_, rfl⟩ <;> rfl
    refine ⟨m, ⟨b, 0, a, hm, hown, ?_⟩, rfl⟩
    intro x hx
    cases b with
    | nil => cases hx
    | cons y ys =>
      exfalso
      have hmro : regular.mro c = [c] := by simp [World.mro, regular, world]
      rw [hmro] at hm
      simp at hm
  · intro m a f h
    obtain ⟨h1, rfl, rfl⟩ := hattr _ _ _ h
    cases h1
    rfl
  · intro x f g h
    obtain rfl := hscope f x g h
    exact ⟨0, rfl, rfl⟩
  · intro c n m hd
    obtain ⟨-, h⟩ := hdict c n m hd
    refine ⟨?_, ?_⟩
    · intro f x hs
      have := hscope f x _ hs
      rcases h with ⟨-, h⟩ | ⟨-, h⟩ <;> rw [h] at this <;> exact absurd this (by decide)
    · intro r a hs
      have := (hattr r a _ hs).2.2
      rcases h with ⟨-, h⟩ | ⟨-, h⟩ <;> rw [h] at this <;> exact absurd this (by decide)

open Small in
example : (rounds regular 9 (start regular [] [0, 1, 0])).queue = [] ∧
    (rounds regular 9 (start regular [] [0, 1, 0])).methods.map (fun m => (m.name, m.fn)) =
      [("forward", 0), ("before", 1)] ∧
    (rounds regular 9 (start regular [] [0, 1, 0])).helpers.map (·.fn) = [2] := by
  decide +kernel

open Small in
example : ReachedByFollowed regular [] [0, 1, 0] (.helper 2) := by
  have hx : ∀ q, ¬ Excluded regular q := by
    rintro q (h | ⟨f, -, h | ⟨r, -, h | h⟩⟩) <;> cases h
  refine .call (.method 0 "before") (call "f2") .name _
    (.call (.method 0 "forward") (callAttr "self" "before") .instance _
      (.forward 0 ⟨.method, 0⟩ (by decide) (by decide) (inherits_own rfl) (hx _)) ?_
      ⟨rfl, ⟨.method, 1⟩, rfl⟩ (hx _)) ?_ ⟨rfl, trivial⟩ (hx _)
  · exact .instance 0 "forward" ⟨.method, 0⟩ _ "self" "before" ⟨.method, 1⟩ (inherits_own rfl) rfl
      List.mem_cons_self rfl rfl (inherits_own rfl)
  · exact .name _ 1 _ "f2" 2 (.method 0 "before" ⟨.method, 1⟩ (inherits_own rfl))
      (List.mem_singleton.2 rfl) rfl rfl

end FF.Worklist
