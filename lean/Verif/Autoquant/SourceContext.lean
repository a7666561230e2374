/-
Finding the source of an object by name: `SourceContext`, _autoquant/pysource/source_context.py:41-135, 198-381, and
`QualifiedNameReference`, `fully_qualified_name`, _import.py.

Simplifications:
* a name is the list of its parts between dots; what Python does to import modules and look up attributes is given;
* of a module's source, definitions of functions and classes, assignments and branches matter; the passes that are run on
  it keep these (see C60, C61, C85);
* scopes and the type of the node asked for are left out.
-/
import Verif.Util.Dict

namespace FF.Source

/-! ## Model -/

/-- A name, split at dots. -/
abbrev Name := List String

/-- A block of statements: definitions of classes and functions, assignments to a name, and branches (`if`, `try`), with the
branch that Python takes when the module is executed. -/
inductive Block (Node : Type) where
  | done
  | cls (name : String) (node : Node) (body rest : Block Node)
  | fn (name : String) (node : Node) (rest : Block Node)
  | assign (name : String) (rest : Block Node)
  | branch (first second : Block Node) (takesFirst : Bool) (rest : Block Node)

/-- What Python knows: modules that can be imported, attributes of objects, the name an object has of itself (`none` if it
has no `__module__` or `__qualname__`), which objects are functions, and the values a function has captured. -/
structure Python (Obj : Type) where
  module : Name → Option Obj
  attr : Obj → String → Option Obj
  fqn : Obj → Option Name
  isFunction : Obj → Bool
  nonlocals : Obj → List Obj

/-- Exceptions. -/
inductive Err where
  | importError
  | attributeError
  | recursionError
  | sourceError
  | memberError
  deriving DecidableEq, Repr

section
variable {Obj Node : Type} [DecidableEq Obj]

/-- `QualifiedNameReference._import_module`: _import.py:71-88, with the number of parts of the prefix tried. -/
def importFrom (py : Python Obj) (name : Name) : Nat → Option (Obj × Name × Name)
  | 0 => none
  | k + 1 =>
    match py.module (name.take (k + 1)) with
    | some m => some (m, name.take (k + 1), name.drop (k + 1))
    | none => importFrom py name k

/-- `operator.attrgetter(obj_name)(module)`. -/
def follow (py : Python Obj) : Obj → Name → Option Obj
  | o, [] => some o
  | o, x :: p => match py.attr o x with
    | none => none
    | some o' => follow py o' p

/-- The loop over captured values: source_context.py:360-363. -/
def captured (py : Python Obj) (name : Name) : List Obj → Except Err Bool
  | [] => .ok false
  | v :: vs =>
    match py.fqn v with
    | none => .error .attributeError
    | some q => match captured py name vs with
      | .error e => .error e
      | .ok b => .ok (decide (q = name) || b)

/-- `_ResolvedQualifiedName`: source_context.py:335-340. -/
structure Resolved (Obj : Type) where
  name : Name
  module : Obj
  objName : Name

/-- `_resolve_name`: source_context.py:343-371; the number is Python's limit on recursion. -/
def resolve (py : Python Obj) : Nat → Name → Except Err (Resolved Obj)
  | 0, _ => .error .recursionError
  | fuel + 1, name =>
    match importFrom py name name.length with
    | none => .error .importError
    | some (m, _, rest) =>
      if rest = [] then .ok ⟨name, m, rest⟩
      else match follow py m rest with
        | none => .error .attributeError
        | some o => match py.fqn o with
          | none => .error .attributeError
          | some q =>
            if q = name then .ok ⟨name, m, rest⟩
            else if py.isFunction o then
              match captured py name (py.nonlocals o) with
              | .error e => .error e
              | .ok true => .ok ⟨name, m, rest⟩
              | .ok false => resolve py fuel q
            else resolve py fuel q

/-- `_SymbolVisitor`: source_context.py:292-322; the definitions with their names, in order.  Functions are not entered. -/
def visit (ctx : Name) : Block Node → List (Name × Node)
  | .done => []
  | .cls n node body rest => (ctx ++ [n], node) :: (visit (ctx ++ [n]) body ++ visit ctx rest)
  | .fn n node rest => (ctx ++ [n], node) :: visit ctx rest
  | .assign _ rest => visit ctx rest
  | .branch a b _ rest => visit ctx a ++ (visit ctx b ++ visit ctx rest)

/-- The members of a module: source_context.py:216-223, without the module itself. -/
def members (b : Block Node) : List (Name × Node) := Dict.ofList (visit [] b)

/-- A `SourceContext`: the modules loaded, source_context.py:67. -/
abbrev Context (Obj Node : Type) := List (Obj × List (Name × Node))

/-- `_get_module_source`: source_context.py:117-133.  `source` is what `inspect.getsource` gives at that time. -/
def moduleSource (source : Obj → Option (Block Node)) (c : Context Obj Node) (m : Obj) :
    Except Err (List (Name × Node)) × Context Obj Node :=
  match Dict.get c m with
  | some ms => (.ok ms, c)
  | none => match source m with
    | none => (.error .sourceError, c)
    | some b => (.ok (members b), Dict.set c m (members b))

/-- `get_cst` for a definition: source_context.py:82-101, 228-234.  The name of a module gives the module, here as `none`. -/
def getCst (py : Python Obj) (limit : Nat) (source : Obj → Option (Block Node)) (c : Context Obj Node) (name : Name) :
    Except Err (Option Node) × Context Obj Node :=
  match resolve py limit name with
  | .error e => (.error e, c)
  | .ok r =>
    match moduleSource source c r.module with
    | (.error e, c') => (.error e, c')
    | (.ok ms, c') =>
      if r.objName = [] then (.ok none, c')
      else match Dict.get ms r.objName with
        | some node => (.ok (some node), c')
        | none => (.error .memberError, c')

/-- A history of calls, each with the source files as they are then. -/
def history (py : Python Obj) (limit : Nat) (c : Context Obj Node) (calls : List ((Obj → Option (Block Node)) × Name)) :
    Context Obj Node :=
  calls.foldl (fun c call => (getCst py limit call.1 c call.2).2) c

/-! ## Specification -/

/-- What a name is bound to: a function or class by its definition, or something else. -/
inductive Binding (Node : Type) where
  | fn (node : Node)
  | cls (node : Node) (body : Block Node)
  | other

/-- What a name is bound to after Python has executed a block: by the last binding executed. -/
def bound : Block Node → String → Option (Binding Node)
  | .done, _ => none
  | .cls n node body rest, x => (bound rest x).or (if n = x then some (.cls node body) else none)
  | .fn n node rest, x => (bound rest x).or (if n = x then some (.fn node) else none)
  | .assign n rest, x => (bound rest x).or (if n = x then some .other else none)
  | .branch a b t rest, x => (bound rest x).or (if t then bound a x else bound b x)

/-- The definition a path leads to after Python has executed a block: through classes, to a class or function. -/
def Executed : Block Node → Name → Node → Prop
  | _, [], _ => False
  | b, [x], node => bound b x = some (.fn node) ∨ ∃ body, bound b x = some (.cls node body)
  | b, x :: y :: p, node => ∃ n body, bound b x = some (.cls n body) ∧ Executed body (y :: p) node

/-- The paths that a block defines, executed or not. -/
def paths (ctx : Name) : Block Node → List Name
  | .done => []
  | .cls n _ body rest => (ctx ++ [n]) :: (paths (ctx ++ [n]) body ++ paths ctx rest)
  | .fn n _ rest => (ctx ++ [n]) :: paths ctx rest
  | .assign _ rest => paths ctx rest
  | .branch a b _ rest => paths ctx a ++ (paths ctx b ++ paths ctx rest)

/-- The paths that are defined in parts of a block that Python does not execute. -/
def skipped (ctx : Name) : Block Node → List Name
  | .done => []
  | .cls n _ body rest => skipped (ctx ++ [n]) body ++ skipped ctx rest
  | .fn _ _ rest => skipped ctx rest
  | .assign _ rest => skipped ctx rest
  | .branch a b t rest =>
    (if t then skipped ctx a ++ paths ctx b else paths ctx a ++ skipped ctx b) ++ skipped ctx rest

/-- Attributes lead from an object to another. -/
inductive Attrs (py : Python Obj) : Obj → Name → Obj → Prop
  | nil (o : Obj) : Attrs py o [] o
  | cons {o o' o'' : Obj} {x : String} {p : Name} : py.attr o x = some o' → Attrs py o' p o'' → Attrs py o (x :: p) o''

/-- A name leads to an object: of the longest prefix that is a module, by attributes. -/
def Leads (py : Python Obj) (name : Name) (m : Obj) (path : Name) (o : Obj) : Prop :=
  ∃ pre, pre ≠ [] ∧ name = pre ++ path ∧ py.module pre = some m ∧ Attrs py m path o ∧
    ∀ a b, path = a ++ b → a ≠ [] → py.module (pre ++ a) = none

/-- Objects that have a name know it: the name such an object has of itself leads to it, if it leads anywhere. -/
def Honest (py : Python Obj) : Prop :=
  ∀ name m p o q m' p' o', Leads py name m p o → py.fqn o = some q → Leads py q m' p' o' → o' = o

/-- The source of modules is what Python has executed: `nodeOf` gives the definition of an object.  A function or class, or
what a decorator makes of it and keeps it, is where its name says. -/
def Defined (py : Python Obj) (source : Obj → Option (Block Node)) (nodeOf : Obj → Node) : Prop :=
  ∀ name m p o o', Leads py name m p o → p ≠ [] → (o' = o ∨ o' ∈ py.nonlocals o) → py.fqn o' = some name →
    ∃ b, source m = some b ∧ Executed b p (nodeOf o')

/-! ## Lemmas -/

omit [DecidableEq Obj] in
theorem get_ofList_append {α β : Type} [DecidableEq α] (l₁ l₂ : List (α × β)) (k : α) :
    Dict.get (Dict.ofList (l₁ ++ l₂)) k = (Dict.get (Dict.ofList l₂) k).or (Dict.get (Dict.ofList l₁) k) := by
  have key : ∀ (l : List (α × β)) (d : List (α × β)),
      Dict.get (l.foldl (fun d e => Dict.set d e.1 e.2) d) k
        = (Dict.get (l.foldl (fun d e => Dict.set d e.1 e.2) []) k).or (Dict.get d k) := by
    intro l
    induction l with
    | nil => intro d; simp [Dict.get]
    | cons e l ih =>
      intro d
      rw [List.foldl_cons, List.foldl_cons, ih (Dict.set d e.1 e.2), ih (Dict.set [] e.1 e.2), Dict.get_set, Dict.get_set]
      cases Dict.get (l.foldl (fun d e => Dict.set d e.1 e.2) []) k with
      | some v => rfl
      | none =>
        by_cases h : e.1 = k
        · simp [h]
        · simp [h, Dict.get]
  have := key l₂ (Dict.ofList l₁)
  unfold Dict.ofList at this ⊢
  rw [List.foldl_append]
  exact this

omit [DecidableEq Obj] in
theorem get_ofList_none {α β : Type} [DecidableEq α] {l : List (α × β)} {k : α} (h : k ∉ l.map Prod.fst) :
    Dict.get (Dict.ofList l) k = none := by
  rw [Dict.get_none_iff]
  intro hm
  exact h ((Dict.mem_keys_ofList l k).1 hm)

omit [DecidableEq Obj] in
theorem paths_eq (b : Block Node) : ∀ ctx, paths ctx b = (visit ctx b).map Prod.fst := by
  induction b with
  | done => intro ctx; rfl
  | cls n node body rest ihb ihr => intro ctx; simp [paths, visit, ihb, ihr]
  | fn n node rest ihr => intro ctx; simp [paths, visit, ihr]
  | assign n rest ihr => intro ctx; simp [paths, visit, ihr]
  | branch a b t rest iha ihb ihr => intro ctx; simp [paths, visit, iha, ihb, ihr]

omit [DecidableEq Obj] in
theorem visit_prefix (b : Block Node) : ∀ (ctx k : Name), k ∈ (visit ctx b).map Prod.fst → ∃ x p, k = ctx ++ x :: p := by
  induction b with
  | done => intro ctx k h; cases h
  | cls n node body rest ihb ihr =>
    intro ctx k h
    simp only [visit, List.map_cons, List.map_append, List.mem_cons, List.mem_append] at h
    rcases h with h | h | h
    · exact ⟨n, [], h⟩
    · obtain ⟨x, p, hk⟩ := ihb _ _ h
      exact ⟨n, x :: p, by rw [hk, List.append_assoc]; rfl⟩
    · exact ihr _ _ h
  | fn n node rest ihr =>
    intro ctx k h
    simp only [visit, List.map_cons, List.mem_cons] at h
    rcases h with h | h
    · exact ⟨n, [], h⟩
    · exact ihr _ _ h
  | assign n rest ihr => intro ctx k h; exact ihr _ _ h
  | branch a b t rest iha ihb ihr =>
    intro ctx k h
    simp only [visit, List.map_append, List.mem_append] at h
    rcases h with h | h | h
    · exact iha _ _ h
    · exact ihb _ _ h
    · exact ihr _ _ h

omit [DecidableEq Obj] in
theorem not_visited {x : String} (b : Block Node) : ∀ (ctx p : Name), bound b x = none →
    ctx ++ x :: p ∉ skipped ctx b → ctx ++ x :: p ∉ (visit ctx b).map Prod.fst := by
  induction b with
  | done => intro ctx p _ _ h; cases h
  | cls n node body rest ihb ihr =>
    intro ctx p hb hs h
    simp only [bound, Option.or_eq_none_iff, ite_eq_right_iff] at hb
    simp only [skipped, List.mem_append, not_or] at hs
    have hn : n ≠ x := fun e => by have := hb.2 e; cases this
    simp only [visit, List.map_cons, List.map_append, List.mem_cons, List.mem_append] at h
    rcases h with h | h | h
    · have := List.append_cancel_left h
      simp at this
      exact hn this.1.symm
    · obtain ⟨y, q, hk⟩ := visit_prefix _ _ _ h
      rw [List.append_assoc] at hk
      have := List.append_cancel_left hk
      simp at this
      exact hn this.1.symm
    · exact ihr _ _ hb.1 hs.2 h
  | fn n node rest ihr =>
    intro ctx p hb hs h
    simp only [bound, Option.or_eq_none_iff, ite_eq_right_iff] at hb
    simp only [skipped] at hs
    have hn : n ≠ x := fun e => by have := hb.2 e; cases this
    simp only [visit, List.map_cons, List.mem_cons] at h
    rcases h with h | h
    · have := List.append_cancel_left h
      simp at this
      exact hn this.1.symm
    · exact ihr _ _ hb.1 hs h
  | assign n rest ihr =>
    intro ctx p hb hs h
    simp only [bound, Option.or_eq_none_iff] at hb
    exact ihr _ _ hb.1 hs h
  | branch a b t rest iha ihb ihr =>
    intro ctx p hb hs h
    simp only [bound, Option.or_eq_none_iff] at hb
    simp only [visit, List.map_append, List.mem_append] at h
    cases t with
    | true =>
      simp only [skipped, if_true, List.mem_append, not_or] at hs hb
      rcases h with h | h | h
      · exact iha _ _ hb.2 hs.1.1 h
      · exact hs.1.2 (by rw [paths_eq]; exact h)
      · exact ihr _ _ hb.1 hs.2 h
    | false =>
      simp only [skipped, Bool.false_eq_true, if_false, List.mem_append, not_or] at hs hb
      rcases h with h | h | h
      · exact hs.1.1 (by rw [paths_eq]; exact h)
      · exact ihb _ _ hb.2 hs.1.2 h
      · exact ihr _ _ hb.1 hs.2 h

omit [DecidableEq Obj] in
theorem executed_congr {b b' : Block Node} {x : String} (h : bound b x = bound b' x) (p : Name) (node : Node) :
    Executed b (x :: p) node ↔ Executed b' (x :: p) node := by
  cases p with
  | nil => simp only [Executed, h]
  | cons y p => simp only [Executed, h]

omit [DecidableEq Obj] in
theorem executed_bound {b : Block Node} {x : String} {p : Name} {node : Node} (h : Executed b (x :: p) node) :
    bound b x ≠ none := by
  intro hn
  cases p with
  | nil =>
    simp only [Executed, hn] at h
    rcases h with h | ⟨_, h⟩ <;> cases h
  | cons y p =>
    simp only [Executed, hn] at h
    obtain ⟨_, _, h, _⟩ := h
    cases h

omit [DecidableEq Obj] in
theorem visit_executed (b : Block Node) : ∀ (ctx : Name) (x : String) (p : Name) (node : Node),
    Executed b (x :: p) node → ctx ++ x :: p ∉ skipped ctx b →
    Dict.get (Dict.ofList (visit ctx b)) (ctx ++ x :: p) = some node := by
  induction b with
  | done => intro ctx x p node h _; exact absurd rfl (executed_bound h)
  | cls n nd body rest ihb ihr =>
    intro ctx x p node h hs
    simp only [skipped, List.mem_append, not_or] at hs
    rw [show visit ctx (.cls n nd body rest) = [(ctx ++ [n], nd)] ++ (visit (ctx ++ [n]) body ++ visit ctx rest) from rfl,
      get_ofList_append, get_ofList_append]
    cases hr : bound rest x with
    | some v =>
      have : bound (.cls n nd body rest) x = bound rest x := by simp [bound, hr]
      rw [ihr ctx x p node ((executed_congr this _ _).1 h) hs.2]
      rfl
    | none =>
      have hb : bound (.cls n nd body rest) x = if n = x then some (.cls nd body) else none := by simp [bound, hr]
      rw [get_ofList_none (not_visited rest ctx p hr hs.2)]
      have hnx : n = x := by
        refine Classical.byContradiction fun hne => executed_bound h ?_
        rw [hb, if_neg hne]
      subst hnx
      rw [if_pos rfl] at hb
      cases p with
      | nil =>
        have hnone : Dict.get (Dict.ofList (visit (ctx ++ [n]) body)) (ctx ++ [n]) = none := by
          apply get_ofList_none
          intro hm
          obtain ⟨y, q, hk⟩ := visit_prefix _ _ _ hm
          have := congrArg List.length hk
          simp at this
        rw [hnone]
        simp only [Executed, hb] at h
        rcases h with h | ⟨_, h⟩
        · cases h
        · cases h
          simp [Dict.ofList, Dict.set, Dict.get]
      | cons y q =>
        simp only [Executed, hb] at h
        obtain ⟨_, _, h, he⟩ := h
        cases h
        have hk : ctx ++ n :: y :: q = (ctx ++ [n]) ++ y :: q := by simp
        rw [hk] at hs ⊢
        rw [ihb _ _ _ _ he hs.1]
        rfl
  | fn n nd rest ihr =>
    intro ctx x p node h hs
    simp only [skipped] at hs
    rw [show visit ctx (.fn n nd rest) = [(ctx ++ [n], nd)] ++ visit ctx rest from rfl, get_ofList_append]
    cases hr : bound rest x with
    | some v =>
      have : bound (.fn n nd rest) x = bound rest x := by simp [bound, hr]
      rw [ihr ctx x p node ((executed_congr this _ _).1 h) hs]
      rfl
    | none =>
      have hb : bound (.fn n nd rest) x = if n = x then some (.fn nd) else none := by simp [bound, hr]
      rw [get_ofList_none (not_visited rest ctx p hr hs)]
      have hnx : n = x := by
        refine Classical.byContradiction fun hne => executed_bound h ?_
        rw [hb, if_neg hne]
      subst hnx
      rw [if_pos rfl] at hb
      cases p with
      | nil =>
        simp only [Executed, hb] at h
        rcases h with h | ⟨_, h⟩
        · cases h
          simp [Dict.ofList, Dict.set, Dict.get]
        · cases h
      | cons y q =>
        simp only [Executed, hb] at h
        obtain ⟨_, _, h, he⟩ := h
        cases h
  | assign n rest ihr =>
    intro ctx x p node h hs
    cases hr : bound rest x with
    | some v =>
      have : bound (.assign n rest) x = bound rest x := by simp [bound, hr]
      exact ihr ctx x p node ((executed_congr this _ _).1 h) hs
    | none =>
      have hb : bound (.assign n rest) x = if n = x then some .other else none := by simp [bound, hr]
      exfalso
      by_cases hnx : n = x
      · rw [if_pos hnx] at hb
        cases p with
        | nil =>
          simp only [Executed, hb] at h
          rcases h with h | ⟨_, h⟩ <;> cases h
        | cons y q =>
          simp only [Executed, hb] at h
          obtain ⟨_, _, h, _⟩ := h
          cases h
      · rw [if_neg hnx] at hb
        exact executed_bound h hb
  | branch a b t rest iha ihb ihr =>
    intro ctx x p node h hs
    rw [show visit ctx (.branch a b t rest) = visit ctx a ++ (visit ctx b ++ visit ctx rest) from rfl,
      get_ofList_append, get_ofList_append]
    have hsr : ctx ++ x :: p ∉ skipped ctx rest := by
      simp only [skipped, List.mem_append, not_or] at hs
      exact hs.2
    cases hr : bound rest x with
    | some v =>
      have : bound (.branch a b t rest) x = bound rest x := by simp [bound, hr]
      rw [ihr ctx x p node ((executed_congr this _ _).1 h) hsr]
      rfl
    | none =>
      rw [get_ofList_none (not_visited rest ctx p hr hsr)]
      cases t with
      | true =>
        have hb : bound (.branch a b true rest) x = bound a x := by simp [bound, hr]
        simp only [skipped, if_true, List.mem_append, not_or] at hs
        rw [get_ofList_none (by rw [← paths_eq]; exact hs.1.2), iha ctx x p node ((executed_congr hb _ _).1 h) hs.1.1]
        rfl
      | false =>
        have hb : bound (.branch a b false rest) x = bound b x := by simp [bound, hr]
        simp only [skipped, Bool.false_eq_true, if_false, List.mem_append, not_or] at hs
        rw [ihb ctx x p node ((executed_congr hb _ _).1 h) hs.1.2]
        rfl

omit [DecidableEq Obj] in
theorem follow_iff (py : Python Obj) (p : Name) : ∀ (m o : Obj), follow py m p = some o ↔ Attrs py m p o := by
  induction p with
  | nil =>
    intro m o
    constructor
    · intro h
      cases h
      exact .nil _
    · intro h
      cases h
      rfl
  | cons x p ih =>
    intro m o
    constructor
    · intro h
      unfold follow at h
      cases ha : py.attr m x with
      | none => rw [ha] at h; cases h
      | some o' =>
        rw [ha] at h
        exact .cons ha ((ih _ _).1 h)
    · intro h
      cases h with
      | cons ha h' =>
        unfold follow
        rw [ha]
        exact (ih _ _).2 h'

omit [DecidableEq Obj] in
theorem importFrom_spec (py : Python Obj) (name : Name) : ∀ (k : Nat) (m : Obj) (pre rest : Name),
    k ≤ name.length → importFrom py name k = some (m, pre, rest) →
    pre ≠ [] ∧ name = pre ++ rest ∧ py.module pre = some m ∧
      ∀ j, pre.length < j → j ≤ k → py.module (name.take j) = none := by
  intro k
  induction k with
  | zero => intro m pre rest _ h; cases h
  | succ k ih =>
    intro m pre rest hk h
    unfold importFrom at h
    cases hm : py.module (name.take (k + 1)) with
    | some m' =>
      rw [hm] at h
      cases h
      refine ⟨?_, (List.take_append_drop _ _).symm, hm, ?_⟩
      · intro he
        have := congrArg List.length he
        rw [List.length_take, List.length_nil] at this
        omega
      · intro j h1 h2
        rw [List.length_take] at h1
        omega
    | none =>
      rw [hm] at h
      obtain ⟨h1, h2, h3, h4⟩ := ih m pre rest (by omega) h
      refine ⟨h1, h2, h3, ?_⟩
      intro j hj1 hj2
      by_cases he : j = k + 1
      · rw [he]; exact hm
      · exact h4 j hj1 (by omega)

omit [DecidableEq Obj] in
/-- The first step of finding a name. -/
theorem import_leads {py : Python Obj} {name rest pre : Name} {m o : Obj}
    (h : importFrom py name name.length = some (m, pre, rest)) (hf : follow py m rest = some o) :
    Leads py name m rest o := by
  obtain ⟨h1, h2, h3, h4⟩ := importFrom_spec py name _ m pre rest (Nat.le_refl _) h
  refine ⟨pre, h1, h2, h3, (follow_iff py rest m o).1 hf, ?_⟩
  intro a b hab ha
  have hlen : 0 < a.length := List.length_pos_iff.2 ha
  have := h4 (pre.length + a.length) (by omega) (by rw [h2, hab]; simp)
  rw [h2, hab] at this
  have ht : (pre ++ (a ++ b)).take (pre.length + a.length) = pre ++ a := by
    rw [← List.append_assoc, ← List.length_append, List.take_left']
    rfl
  rwa [ht] at this

omit [DecidableEq Obj] in
theorem captured_true {py : Python Obj} {name : Name} : ∀ {vs : List Obj}, captured py name vs = .ok true →
    ∃ v ∈ vs, py.fqn v = some name := by
  intro vs
  induction vs with
  | nil => intro h; cases h
  | cons v vs ih =>
    intro h
    unfold captured at h
    cases hq : py.fqn v with
    | none => rw [hq] at h; cases h
    | some q =>
      rw [hq] at h
      simp only at h
      cases hc : captured py name vs with
      | error e => rw [hc] at h; cases h
      | ok b =>
        rw [hc] at h
        simp only [Except.ok.injEq, Bool.or_eq_true, decide_eq_true_eq] at h
        rcases h with h | h
        · exact ⟨v, List.mem_cons_self, by rw [hq, h]⟩
        · obtain ⟨v', hv', hq'⟩ := ih (by rw [hc, h])
          exact ⟨v', List.mem_cons_of_mem _ hv', hq'⟩

omit [DecidableEq Obj] in
theorem importFrom_of (py : Python Obj) (pre path : Name) (m : Obj) (hne : pre ≠ []) (hm : py.module pre = some m)
    (hl : ∀ a b, path = a ++ b → a ≠ [] → py.module (pre ++ a) = none) :
    ∀ k, k ≤ path.length → importFrom py (pre ++ path) (pre.length + k) = some (m, pre, path) := by
  intro k
  induction k with
  | zero =>
    intro _
    obtain ⟨n, hn⟩ : ∃ n, pre.length = n + 1 := ⟨pre.length - 1, by have := List.length_pos_iff.2 hne; omega⟩
    rw [Nat.add_zero, hn]
    unfold importFrom
    rw [← hn, List.take_left, List.drop_left, hm]
  | succ k ih =>
    intro hk
    rw [← Nat.add_assoc]
    unfold importFrom
    have : (pre ++ path).take (pre.length + k + 1) = pre ++ path.take (k + 1) := by
      rw [Nat.add_assoc, List.take_length_add_append]
    rw [this, hl (path.take (k + 1)) (path.drop (k + 1)) (List.take_append_drop _ _).symm (by
      intro he
      have := congrArg List.length he
      rw [List.length_take, List.length_nil] at this
      omega)]
    exact ih (by omega)

omit [DecidableEq Obj] in
theorem import_of_leads {py : Python Obj} {name path : Name} {m o : Obj} (h : Leads py name m path o) :
    ∃ pre, importFrom py name name.length = some (m, pre, path) ∧ follow py m path = some o := by
  obtain ⟨pre, h1, h2, h3, h4, h5⟩ := h
  refine ⟨pre, ?_, (follow_iff py path m o).2 h4⟩
  rw [h2, List.length_append]
  exact importFrom_of py pre path m h1 h3 h5 path.length (Nat.le_refl _)

omit [DecidableEq Obj] in
/-- What resolving a name gives, if objects know their names. -/
theorem resolve_spec {py : Python Obj} (hh : Honest py) : ∀ (fuel : Nat) (name : Name) (r : Resolved Obj),
    resolve py fuel name = .ok r → ∃ m₀ p₀ o, Leads py name m₀ p₀ o ∧ Leads py r.name r.module r.objName o ∧
      (r.objName = [] ∨ ∃ o', (o' = o ∨ o' ∈ py.nonlocals o) ∧ py.fqn o' = some r.name) := by
  intro fuel
  induction fuel with
  | zero => intro name r h; cases h
  | succ fuel ih =>
    intro name r h
    unfold resolve at h
    cases hi : importFrom py name name.length with
    | none => rw [hi] at h; cases h
    | some res =>
      obtain ⟨m, pre, rest⟩ := res
      rw [hi] at h
      simp only at h
      by_cases hrest : rest = []
      · rw [if_pos hrest] at h
        cases h
        subst hrest
        exact ⟨m, [], m, import_leads hi rfl, import_leads hi rfl, .inl rfl⟩
      · rw [if_neg hrest] at h
        cases hf : follow py m rest with
        | none => rw [hf] at h; cases h
        | some o =>
          rw [hf] at h
          simp only at h
          have hl := import_leads hi hf
          cases hq : py.fqn o with
          | none => rw [hq] at h; cases h
          | some q =>
            rw [hq] at h
            simp only at h
            have hrec : resolve py fuel q = .ok r → ∃ m₀ p₀ o, Leads py name m₀ p₀ o ∧
                Leads py r.name r.module r.objName o ∧
                (r.objName = [] ∨ ∃ o', (o' = o ∨ o' ∈ py.nonlocals o) ∧ py.fqn o' = some r.name) := by
              intro hr
              obtain ⟨m₁, p₁, o₁, h1, h2, h3⟩ := ih q r hr
              have : o₁ = o := hh name m rest o q m₁ p₁ o₁ hl hq h1
              subst this
              exact ⟨m, rest, o₁, hl, h2, h3⟩
            by_cases hqn : q = name
            · rw [if_pos hqn] at h
              cases h
              exact ⟨m, rest, o, hl, hl, .inr ⟨o, .inl rfl, by rw [hq, hqn]⟩⟩
            · rw [if_neg hqn] at h
              by_cases hfun : py.isFunction o = true
              · rw [if_pos hfun] at h
                cases hc : captured py name (py.nonlocals o) with
                | error e => rw [hc] at h; cases h
                | ok b =>
                  rw [hc] at h
                  cases b with
                  | true =>
                    cases h
                    obtain ⟨v, hv, hv'⟩ := captured_true hc
                    exact ⟨m, rest, o, hl, hl, .inr ⟨v, .inr hv, hv'⟩⟩
                  | false => exact hrec h
              · rw [if_neg hfun] at h
                exact hrec h

omit [DecidableEq Obj] in
/-- A name leads to one object. -/
theorem leads_unique {py : Python Obj} {name p p' : Name} {m m' o o' : Obj} (h : Leads py name m p o)
    (h' : Leads py name m' p' o') : m = m' ∧ p = p' ∧ o = o' := by
  obtain ⟨pre, h1, h2⟩ := import_of_leads h
  obtain ⟨pre', h1', h2'⟩ := import_of_leads h'
  rw [h1] at h1'
  cases h1'
  rw [h2] at h2'
  cases h2'
  exact ⟨rfl, rfl, rfl⟩

/-- The contexts that loading modules gives hold the members of their source. -/
def Loaded (source : Obj → Option (Block Node)) (c : Context Obj Node) : Prop :=
  ∀ m ms, Dict.get c m = some ms → ∃ b, source m = some b ∧ ms = members b

theorem moduleSource_loaded {source : Obj → Option (Block Node)} {c c' : Context Obj Node} {m : Obj}
    {res : Except Err (List (Name × Node))} (hc : Loaded source c) (h : moduleSource source c m = (res, c')) :
    Loaded source c' ∧ (∀ ms, res = .ok ms → ∃ b, source m = some b ∧ ms = members b) := by
  unfold moduleSource at h
  cases hg : Dict.get c m with
  | some ms =>
    rw [hg] at h
    cases h
    exact ⟨hc, fun ms' h' => by cases h'; exact hc m ms hg⟩
  | none =>
    rw [hg] at h
    cases hs : source m with
    | none =>
      rw [hs] at h
      cases h
      exact ⟨hc, fun ms' h' => by cases h'⟩
    | some b =>
      rw [hs] at h
      cases h
      refine ⟨?_, fun ms' h' => by cases h'; exact ⟨b, rfl, rfl⟩⟩
      intro m' ms' h'
      rw [Dict.get_set] at h'
      by_cases hm : m = m'
      · rw [if_pos hm] at h'
        cases h'
        exact ⟨b, by rw [← hm, hs], rfl⟩
      · rw [if_neg hm] at h'
        exact hc m' ms' h'

theorem moduleSource_cached {source : Obj → Option (Block Node)} {c c' : Context Obj Node} {m : Obj}
    {res : Except Err (List (Name × Node))} (h : moduleSource source c m = (res, c')) :
    (∀ m' ms, Dict.get c m' = some ms → Dict.get c' m' = some ms) ∧ (∀ ms, res = .ok ms → Dict.get c' m = some ms) := by
  unfold moduleSource at h
  cases hg : Dict.get c m with
  | some ms =>
    rw [hg] at h
    cases h
    exact ⟨fun _ _ h => h, fun ms' h' => by cases h'; exact hg⟩
  | none =>
    rw [hg] at h
    cases hs : source m with
    | none =>
      rw [hs] at h
      cases h
      exact ⟨fun _ _ h => h, fun ms' h' => by cases h'⟩
    | some b =>
      rw [hs] at h
      cases h
      refine ⟨fun m' ms' h' => ?_, fun ms' h' => by cases h'; exact Dict.get_set_self _ _ _⟩
      rw [Dict.get_set]
      by_cases hm : m = m'
      · subst hm
        rw [hg] at h'
        cases h'
      · rw [if_neg hm]
        exact h'

theorem getCst_context {py : Python Obj} {limit : Nat} {source : Obj → Option (Block Node)} {c : Context Obj Node}
    {name : Name} : (getCst py limit source c name).2 = c ∨
      ∃ m, (getCst py limit source c name).2 = (moduleSource source c m).2 := by
  unfold getCst
  cases resolve py limit name with
  | error e => exact .inl rfl
  | ok r =>
    refine .inr ⟨r.module, ?_⟩
    simp only
    cases hm : moduleSource source c r.module with
    | mk res c' =>
      cases res with
      | error e => rfl
      | ok ms =>
        simp only
        by_cases ho : r.objName = []
        · rw [if_pos ho]
        · rw [if_neg ho]
          cases Dict.get ms r.objName <;> rfl

theorem getCst_loaded {py : Python Obj} {limit : Nat} {source : Obj → Option (Block Node)} {c : Context Obj Node}
    {name : Name} (hc : Loaded source c) : Loaded source (getCst py limit source c name).2 := by
  rcases getCst_context (py := py) (limit := limit) (source := source) (c := c) (name := name) with h | ⟨m, h⟩
  · rw [h]; exact hc
  · rw [h]; exact (moduleSource_loaded hc (Prod.eta _).symm).1

theorem history_loaded {py : Python Obj} {limit : Nat} {source : Obj → Option (Block Node)} :
    ∀ (names : List Name) (c : Context Obj Node), Loaded source c →
      Loaded source (history py limit c (names.map fun n => (source, n))) := by
  intro names
  induction names with
  | nil => intro c h; exact h
  | cons n names ih => intro c h; exact ih _ (getCst_loaded h)

theorem history_keeps {py : Python Obj} {limit : Nat} : ∀ (calls : List ((Obj → Option (Block Node)) × Name))
    (c : Context Obj Node) (m : Obj) (ms : List (Name × Node)), Dict.get c m = some ms →
      Dict.get (history py limit c calls) m = some ms := by
  intro calls
  induction calls with
  | nil => intro c m ms h; exact h
  | cons call calls ih =>
    intro c m ms h
    refine ih _ m ms ?_
    show Dict.get (getCst py limit call.1 c call.2).2 m = some ms
    rcases getCst_context (py := py) (limit := limit) (source := call.1) (c := c) (name := call.2) with h' | ⟨m', h'⟩
    · rw [h']; exact h
    · rw [h']; exact (moduleSource_cached (Prod.eta _).symm).1 m ms h

/-! ## Properties -/

/-- **C111 (partial).**  After any calls before, the definition found for a name is the definition of the object that the
name leads to, or of one that this object, made by a decorator, has captured and that has this name.

Missing: objects that do not know their names, and definitions in parts of a module that were not executed; see the
deviations. -/
theorem source_of_object_partial {py : Python Obj} {limit : Nat} {source : Obj → Option (Block Node)} {nodeOf : Obj → Node}
    (hh : Honest py) (hd : Defined py source nodeOf) (before : List Name) (name : Name) (node : Node) {m : Obj} {p : Name}
    {o : Obj} (hl : Leads py name m p o) (hs : ∀ q m p b, Leads py q m p o → source m = some b → p ∉ skipped [] b)
    (h : (getCst py limit source (history py limit [] (before.map fun n => (source, n))) name).1 = .ok (some node)) :
    node = nodeOf o ∨
      ∃ o' ∈ py.nonlocals o, (∃ q m' p', py.fqn o' = some q ∧ Leads py q m' p' o) ∧ node = nodeOf o' := by
  have hc : Loaded source (history py limit ([] : Context Obj Node) (before.map fun n => (source, n))) :=
    history_loaded before [] (fun m ms h => by cases h)
  unfold getCst at h
  cases hr : resolve py limit name with
  | error e => rw [hr] at h; cases h
  | ok r =>
    rw [hr] at h
    simp only at h
    obtain ⟨m₀, p₀, o₁, h1, h2, h3⟩ := resolve_spec hh limit name r hr
    obtain ⟨_, _, h12⟩ := leads_unique h1 hl
    subst h12
    cases hm : moduleSource source (history py limit [] (before.map fun n => (source, n))) r.module with
    | mk res c' =>
      rw [hm] at h
      obtain ⟨_, hms⟩ := moduleSource_loaded hc hm
      cases res with
      | error e => cases h
      | ok ms =>
        simp only at h
        obtain ⟨b, hb, hmb⟩ := hms ms rfl
        by_cases ho : r.objName = []
        · rw [if_pos ho] at h; cases h
        · rw [if_neg ho] at h
          rcases h3 with h3 | ⟨o', ho', hfq⟩
          · exact absurd h3 ho
          · obtain ⟨b', hb', hex⟩ := hd r.name r.module r.objName o₁ o' h2 ho ho' hfq
            rw [hb] at hb'
            cases hb'
            have hget : Dict.get ms r.objName = some (nodeOf o') := by
              rw [hmb]
              cases hp : r.objName with
              | nil => exact absurd hp ho
              | cons x p =>
                rw [hp] at hex h2
                exact visit_executed b [] x p (nodeOf o') hex (hs _ _ _ _ h2 hb)
            rw [hget] at h
            cases h
            rcases ho' with ho' | ho'
            · subst ho'; exact .inl rfl
            · exact .inr ⟨o', ho', ⟨r.name, r.module, r.objName, hfq, h2⟩, rfl⟩

/-- **C111.**  An object is found by its own name. -/
theorem found_by_own_name {py : Python Obj} {limit : Nat} {source : Obj → Option (Block Node)} {nodeOf : Obj → Node}
    (hd : Defined py source nodeOf) (before : List Name) (name : Name) {m o : Obj} {p : Name}
    (hl : Leads py name m p o) (hp : p ≠ []) (hq : py.fqn o = some name)
    (hs : ∀ b, source m = some b → p ∉ skipped [] b) :
    (getCst py (limit + 1) source (history py (limit + 1) [] (before.map fun n => (source, n))) name).1
      = .ok (some (nodeOf o)) := by
  have hc : Loaded source (history py (limit + 1) ([] : Context Obj Node) (before.map fun n => (source, n))) :=
    history_loaded before [] (fun m ms h => by cases h)
  obtain ⟨pre, hi, hf⟩ := import_of_leads hl
  have hr : resolve py (limit + 1) name = .ok ⟨name, m, p⟩ := by
    unfold resolve
    rw [hi]
    simp only [if_neg hp, hf, hq, if_true]
  obtain ⟨b, hb, hex⟩ := hd name m p o o hl hp (.inl rfl) hq
  unfold getCst
  rw [hr]
  simp only
  cases hm : moduleSource source (history py (limit + 1) [] (before.map fun n => (source, n))) m with
  | mk res c' =>
    obtain ⟨_, hms⟩ := moduleSource_loaded hc hm
    cases res with
    | error e =>
      exfalso
      unfold moduleSource at hm
      rw [hb] at hm
      cases hg : Dict.get (history py (limit + 1) ([] : Context Obj Node) (before.map fun n => (source, n))) m with
      | some ms => rw [hg] at hm; cases hm
      | none => rw [hg] at hm; cases hm
    | ok ms =>
      obtain ⟨b', hb', hmb⟩ := hms ms rfl
      rw [hb] at hb'
      cases hb'
      simp only [if_neg hp]
      have hget : Dict.get ms p = some (nodeOf o) := by
        rw [hmb]
        cases hp' : p with
        | nil => exact absurd hp' hp
        | cons x p' =>
          rw [hp'] at hex hs
          exact visit_executed b [] x p' (nodeOf o) hex (hs b hb)
      rw [hget]

/-- **C111.**  Another name of a class is as good as its own name: the answer is the same. -/
theorem found_by_alias {py : Python Obj} {limit : Nat} {source : Obj → Option (Block Node)} (c : Context Obj Node)
    {name q : Name} {m o : Obj} {p : Name} (hl : Leads py name m p o) (hp : p ≠ []) (hq : py.fqn o = some q)
    (hne : q ≠ name) (hf : py.isFunction o = false ∨ py.nonlocals o = []) :
    getCst py (limit + 1) source c name = getCst py limit source c q := by
  obtain ⟨pre, hi, hfo⟩ := import_of_leads hl
  have hr : resolve py (limit + 1) name = resolve py limit q := by
    rw [resolve]
    rw [hi]
    simp only [if_neg hp, hfo, hq, if_neg hne]
    rcases hf with hf | hf
    · rw [hf]; rfl
    · by_cases h : py.isFunction o = true
      · rw [if_pos h, hf]; rfl
      · rw [if_neg h]
  unfold getCst
  rw [hr]

/-- **C111.**  An answer stays the same: after any other calls, and whatever has become of the source files. -/
theorem answers_stay {py : Python Obj} {limit : Nat} {source : Obj → Option (Block Node)} {c c' : Context Obj Node}
    {name : Name} {answer : Option Node} (h : getCst py limit source c name = (.ok answer, c'))
    (calls : List ((Obj → Option (Block Node)) × Name)) (source' : Obj → Option (Block Node)) :
    (getCst py limit source' (history py limit c' calls) name).1 = .ok answer := by
  unfold getCst at h ⊢
  cases hr : resolve py limit name with
  | error e => rw [hr] at h; cases h
  | ok r =>
    rw [hr] at h
    simp only at h ⊢
    cases hm : moduleSource source c r.module with
    | mk res c₁ =>
      rw [hm] at h
      cases res with
      | error e => cases h
      | ok ms =>
        simp only at h
        have hget := (moduleSource_cached hm).2 ms rfl
        have hcc : c₁ = c' := by
          by_cases ho : r.objName = []
          · rw [if_pos ho] at h; cases h; rfl
          · rw [if_neg ho] at h
            cases hg : Dict.get ms r.objName <;> rw [hg] at h <;> cases h
            rfl
        rw [hcc] at hget
        have hk := history_keeps (py := py) (limit := limit) calls c' r.module ms hget
        have hm' : moduleSource source' (history py limit c' calls) r.module = (.ok ms, history py limit c' calls) := by
          unfold moduleSource
          rw [hk]
        rw [hm']
        simp only
        by_cases ho : r.objName = []
        · rw [if_pos ho] at h ⊢; cases h; rfl
        · rw [if_neg ho] at h ⊢
          cases hg : Dict.get ms r.objName <;> rw [hg] at h <;> cases h
          rfl

/-! ## Deviations -/

omit [DecidableEq Obj] in
/-- **C111, deviation.**  Of two definitions of a name in the branches of an `if` or `try`, the second is found, although
the module has executed the first. -/
theorem last_branch_found (f : String) (first second : Node) :
    Executed (.branch (.fn f first .done) (.fn f second .done) true .done) [f] first ∧
      Dict.get (members (.branch (.fn f first .done) (.fn f second .done) true .done)) [f] = some second := by
  refine ⟨.inl (by simp [bound]), ?_⟩
  simp [members, visit, Dict.ofList, Dict.set, Dict.get]

/-- **C111, deviation.**  The source of a decorated function is not found if the decorator has captured a value without a
name, such as a number, whatever else it has captured. -/
theorem unnamed_capture_fails {py : Python Obj} {limit : Nat} {source : Obj → Option (Block Node)} (c : Context Obj Node)
    {name q : Name} {m o v : Obj} {p : Name} (hl : Leads py name m p o) (hp : p ≠ []) (hq : py.fqn o = some q)
    (hne : q ≠ name) (hf : py.isFunction o = true) (hv : v ∈ py.nonlocals o) (hvn : py.fqn v = none) :
    (getCst py (limit + 1) source c name).1 = .error .attributeError := by
  obtain ⟨pre, hi, hfo⟩ := import_of_leads hl
  have hc : ∀ vs : List Obj, v ∈ vs → captured py name vs = .error .attributeError := by
    intro vs
    induction vs with
    | nil => intro h; cases h
    | cons w vs ih =>
      intro h
      unfold captured
      cases hw : py.fqn w with
      | none => rfl
      | some qw =>
        simp only
        rcases List.mem_cons.1 h with h | h
        · subst h; rw [hvn] at hw; cases hw
        · rw [ih h]
  have hr : resolve py (limit + 1) name = .error .attributeError := by
    unfold resolve
    rw [hi]
    simp only [if_neg hp, hfo, hq, if_neg hne, if_pos hf, hc _ hv]
  unfold getCst
  rw [hr]

/-- **C111, deviation.**  The definition found for an object that bears the name of another one is that of the other. -/
theorem copied_name_followed {py : Python Obj} {limit : Nat} {source : Obj → Option (Block Node)} {nodeOf : Obj → Node}
    (hd : Defined py source nodeOf) {name q : Name} {m o m' o' : Obj} {p p' : Name} (hl : Leads py name m p o)
    (hp : p ≠ []) (hq : py.fqn o = some q) (hne : q ≠ name) (hf : py.isFunction o = false ∨ py.nonlocals o = [])
    (hl' : Leads py q m' p' o') (hp' : p' ≠ []) (hq' : py.fqn o' = some q)
    (hs : ∀ b, source m' = some b → p' ∉ skipped [] b) :
    (getCst py (limit + 2) source [] name).1 = .ok (some (nodeOf o')) := by
  rw [found_by_alias [] hl hp hq hne hf]
  exact found_by_own_name hd [] q hl' hp' hq' hs

/-- **C111, deviation.**  Two objects that bear each other's names are not found, however deep Python may recurse. -/
theorem swapped_names_not_found {py : Python Obj} {source : Obj → Option (Block Node)} (c : Context Obj Node)
    {n₁ n₂ : Name} {m₁ o₁ m₂ o₂ : Obj} {p₁ p₂ : Name} (hl₁ : Leads py n₁ m₁ p₁ o₁) (hl₂ : Leads py n₂ m₂ p₂ o₂)
    (hp₁ : p₁ ≠ []) (hp₂ : p₂ ≠ []) (hq₁ : py.fqn o₁ = some n₂) (hq₂ : py.fqn o₂ = some n₁) (hne : n₁ ≠ n₂)
    (hf₁ : py.isFunction o₁ = false ∨ py.nonlocals o₁ = []) (hf₂ : py.isFunction o₂ = false ∨ py.nonlocals o₂ = []) :
    ∀ limit, (getCst py limit source c n₁).1 = .error .recursionError ∧
      (getCst py limit source c n₂).1 = .error .recursionError := by
  intro limit
  induction limit with
  | zero => exact ⟨rfl, rfl⟩
  | succ limit ih =>
    rw [found_by_alias c hl₁ hp₁ hq₁ (Ne.symm hne) hf₁, found_by_alias c hl₂ hp₂ hq₂ hne hf₂]
    exact ⟨ih.2, ih.1⟩

/-- **C111, deviation.**  A function or class of a package that has the name of one of its modules is not found by that
name: the answer is the module, or an error. -/
theorem module_hides_member {py : Python Obj} {limit : Nat} {source : Obj → Option (Block Node)} (c : Context Obj Node)
    {pre : Name} {x : String} {m m' o : Obj} (_ : py.module pre = some m) (_ : py.attr m x = some o)
    (hm' : py.module (pre ++ [x]) = some m') (node : Node) :
    (getCst py limit source c (pre ++ [x])).1 ≠ .ok (some node) := by
  have hl : Leads py (pre ++ [x]) m' [] m' := by
    refine ⟨pre ++ [x], by simp, by simp, hm', .nil _, ?_⟩
    intro a b hab ha
    cases a with
    | nil => exact absurd rfl ha
    | cons y a => cases hab
  obtain ⟨_, hi, _⟩ := import_of_leads hl
  intro h
  unfold getCst at h
  cases limit with
  | zero => cases h
  | succ limit =>
    have hr : resolve py (limit + 1) (pre ++ [x]) = .ok ⟨pre ++ [x], m', []⟩ := by
      unfold resolve
      rw [hi]
      rfl
    rw [hr] at h
    simp only at h
    cases hms : moduleSource source c m' with
    | mk res c' =>
      rw [hms] at h
      cases res with
      | error e => cases h
      | ok ms => cases h

end

/-! ## Concrete cases -/

/-- A package `pkg` that re-exports class `A` (2) of its module `pkg.mod` (1), with method `f` (3), and a function `g`
whose decorator has made 5 of it and kept it (4). -/
def demo : Python Nat where
  module n := if n = ["pkg"] then some 0 else if n = ["pkg", "mod"] then some 1 else none
  attr o x := match o with
    | 0 => if x = "A" then some 2 else if x = "mod" then some 1 else none
    | 1 => if x = "A" then some 2 else if x = "g" then some 5 else none
    | 2 => if x = "f" then some 3 else none
    | _ => none
  fqn o := match o with
    | 0 => some ["pkg"]
    | 1 => some ["pkg", "mod"]
    | 2 => some ["pkg", "mod", "A"]
    | 3 => some ["pkg", "mod", "A", "f"]
    | 4 => some ["pkg", "mod", "g"]
    | 5 => some ["pkg", "deco", "<locals>", "wrapper"]
    | _ => none
  isFunction o := o == 3 || o == 4 || o == 5
  nonlocals o := if o = 5 then [4] else []

/-- The source of `pkg.mod`: the nodes are the objects they make. -/
def demoSource (m : Nat) : Option (Block Nat) :=
  if m = 1 then some (.cls "A" 2 (.fn "f" 3 .done) (.fn "g" 4 .done)) else none

/-- Where the names of the objects lead. -/
theorem demo_leads {o m o' : Nat} {q p : Name} (hq : demo.fqn o = some q) (hl : Leads demo q m p o') :
    (o = 0 ∧ m = 0 ∧ p = [] ∧ o' = 0) ∨ (o = 1 ∧ m = 1 ∧ p = [] ∧ o' = 1) ∨ (o = 2 ∧ m = 1 ∧ p = ["A"] ∧ o' = 2) ∨
      (o = 3 ∧ m = 1 ∧ p = ["A", "f"] ∧ o' = 3) ∨ (o = 4 ∧ m = 1 ∧ p = ["g"] ∧ o' = 5) := by
  obtain ⟨pre, hi, hf⟩ := import_of_leads hl
  match o, hq with
  | 0, hq | 1, hq | 2, hq | 3, hq | 4, hq | 5, hq =>
    cases hq
    simp [importFrom, demo] at hi
    obtain ⟨h1, h2, h3⟩ := hi
    subst h1
    subst h3
    simp [follow, demo] at hf
    try (subst hf; simp)

/-- The values of attributes. -/
theorem demo_attrs {o o' : Nat} {p : Name} (h : Attrs demo o p o') (ho : o ≠ 4) : o' ≠ 4 := by
  induction h with
  | nil => exact ho
  | @cons a b c x p h _ ih =>
    refine ih ?_
    match a, h with
    | 0, h | 1, h | 2, h =>
      rintro rfl
      simp only [demo] at h
      split at h <;> simp at h

example : Honest demo := by
  intro name m p o q m' p' o' hl hq hl'
  rcases demo_leads hq hl' with h | h | h | h | h
  · rw [h.1, h.2.2.2]
  · rw [h.1, h.2.2.2]
  · rw [h.1, h.2.2.2]
  · rw [h.1, h.2.2.2]
  · exfalso
    obtain ⟨pre, _, _, hm, ha, _⟩ := hl
    refine demo_attrs ha ?_ h.1
    rintro rfl
    simp only [demo] at hm
    split at hm
    · cases hm
    · split at hm <;> cases hm

example : Defined demo demoSource id := by
  intro name m p o o' hl hp _ hq
  rcases demo_leads hq hl with h | h | h | h | h
  · exact absurd h.2.2.1 hp
  · exact absurd h.2.2.1 hp
  · obtain ⟨rfl, rfl, rfl, rfl⟩ := h
    exact ⟨_, rfl, .inr ⟨_, rfl⟩⟩
  · obtain ⟨rfl, rfl, rfl, rfl⟩ := h
    exact ⟨_, rfl, _, _, rfl, .inl rfl⟩
  · obtain ⟨rfl, rfl, rfl, rfl⟩ := h
    exact ⟨_, rfl, .inl rfl⟩

example : (getCst demo 10 demoSource [] ["pkg", "A", "f"]).1 = .ok (some 3) := rfl
example : (getCst demo 10 demoSource [] ["pkg", "mod", "g"]).1 = .ok (some 4) := rfl
example : (getCst demo 10 demoSource [] ["pkg", "mod", "h"]).1 = .error .attributeError := rfl
example : (getCst demo 10 demoSource [] ["other", "h"]).1 = .error .importError := rfl
example : (getCst demo 10 demoSource [] ["pkg", "mod"]).1 = .ok none := rfl

end FF.Source
