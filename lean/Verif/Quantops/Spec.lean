import Verif.Quantops.Symtypes
import Verif.Quantops.OpTable

/-!
# Operator specifications

Models reading of operator specifications: `type_from_cst_expression` and `str_to_type` of `_quantops/symtypes.py`, `Operator.from_spec` of
`_quantops/operator.py`, and `OperatorTable.add` and `from_yaml` of `_quantops/optable.py`. Types and the table are those of `Verif/Quantops/Symtypes.lean`
and `Verif/Quantops/OpTable.lean`, with strings as names.

Simplifications: Python's parser is not modelled, a specification is a syntax tree or is no `def` at all; parentheses are left out, as in the syntax tree;
YAML is parsed already. Unions list their members in an order that the hash function and the set decide: `mk` is any function that forms unions.
-/

namespace FF.OpSpec

open FF.Symtypes

/-! ## Model -/

/-- Annotations, as far as they are told apart: symtypes.py:268-297. -/
inductive TExpr where
  /-- `x` -/
  | name (s : String)
  /-- `x | y` -/
  | bitOr (l r : TExpr)
  /-- `g[x, y, …]` -/
  | subscript (g : String) (es : List TExpr)
  /-- `x : y` as an element of a subscript -/
  | slice
  /-- anything else, as code: `torch.Tensor`, `...`, `typing.Optional[int]` -/
  | other (code : String)

/-- Errors in reading a specification. All are `ValueError`s. -/
inductive Err where
  | unknownName
  | unknownGeneric
  | arity
  | badSubscript
  | noAnnotation
  | syntaxError
  deriving DecidableEq, Repr

section
variable (mk : List (Ty String) → Ty String)

/-- symtypes.py:224-260 `str_to_type`, with the types of symtypes.py:202-220. -/
def strToType (s : String) : Except Err (Ty String) :=
  if s = "object" then .ok (.atom "Object")
  else if s = "None" then .ok (.atom "NoneType")
  else if s = "Tensor" ∨ s = "torch.Tensor" then .ok (.atom "Tensor")
  else if s = "QuantizedTensor" ∨ s = "Quantized" then .ok (.atom "QuantizedTensor")
  else if s = "MaybeQuantized" then .ok (mk [.atom "Tensor", .atom "QuantizedTensor"])
  else if s = "int" ∨ s = "Int" then .ok (.atom "Int")
  else if s = "float" ∨ s = "Float" then .ok (.atom "Float")
  else if s = "bool" ∨ s = "Bool" then .ok (.atom "Bool")
  else if s = "str" ∨ s = "String" ∨ s = "string" then .ok (.atom "String")
  else if s = "number" ∨ s = "Number" then .ok (mk [.atom "Int", .atom "Float"])
  else if s = "size" ∨ s = "Size" then .ok (mk [.atom "torch.Size", .gen "Tuple" [.atom "Int", .atom "EllipsisType"]])
  else if s = "..." ∨ s = "Ellipsis" then .ok (.atom "EllipsisType")
  else if s = "dtype" ∨ s = "DType" ∨ s = "torch.dtype" then .ok (.atom "DType")
  else if s = "device" ∨ s = "Device" ∨ s = "torch.device" then .ok (.atom "Device")
  else if s = "layout" ∨ s = "Layout" ∨ s = "torch.layout" then .ok (.atom "Layout")
  else if s = "memory_format" ∨ s = "MemoryFormat" ∨ s = "torch.memory_format" then .ok (.atom "MemoryFormat")
  else if s = "Quantizer" then .ok (.atom "Quantizer")
  else .error .unknownName

/-- The generic types: symtypes.py:279-293, with `Union`, `Optional`, `Tuple`, `List`: symtypes.py:167-200. -/
def generic (g : String) (ts : List (Ty String)) : Except Err (Ty String) :=
  if g = "Optional" ∨ g = "optional" then
    match ts with
    | [t] => .ok (mk [t, .atom "NoneType"])
    | _ => .error .arity
  else if g = "Union" ∨ g = "union" then .ok (mk ts)
  else if g = "Tuple" ∨ g = "tuple" then .ok (.gen "Tuple" ts)
  else if g = "List" ∨ g = "list" ∨ g = "Sequence" then
    match ts with
    | [t] => .ok (.gen "List" [t])
    | _ => .error .arity
  else .error .unknownGeneric

mutual
/-- symtypes.py:268-297 `type_from_cst_expression`. -/
def typeOf : TExpr → Except Err (Ty String)
  | .name s => strToType mk s
  | .bitOr l r =>
    match typeOf l with
    | .error e => .error e
    | .ok a =>
      match typeOf r with
      | .error e => .error e
      | .ok b => .ok (mk [a, b])
  | .subscript g es =>
    match typesOf es with
    | .error e => .error e
    | .ok ts => generic mk g ts
  | .slice => .error .badSubscript
  | .other code => strToType mk code
/-- symtypes.py:300-308 `_extract_types_from_subscript`. -/
def typesOf : List TExpr → Except Err (List (Ty String))
  | [] => .ok []
  | e :: es =>
    match typeOf e with
    | .error e => .error e
    | .ok t =>
      match typesOf es with
      | .error e => .error e
      | .ok ts => .ok (t :: ts)
end

/-- A parameter of a specification. The default is the text that is kept (C98). -/
structure PSpec where
  name : String
  ann : Option TExpr
  default : Option String

/-- A specification `name(posonly, /, params, *star, kwonly, **starstar) -> ret`. -/
structure Spec where
  name : String
  posonly : List PSpec
  params : List PSpec
  star : Option PSpec
  kwonly : List PSpec
  starstar : Option PSpec
  ret : Option TExpr

/-- `Parameter`: operator.py:23-31. -/
structure Param where
  type : Ty String
  name : String
  default : Option String

/-- `Parameter.quantized`: operator.py:29-31. -/
def Param.quantized (p : Param) : Bool := contains p.type (.atom "QuantizedTensor")

/-- `Operator`: operator.py:43-68, with the fallback of its metadata. -/
structure Op where
  identifier : String
  parameters : List Param
  returnType : Option (Ty String)
  fallback : String

/-- `returns_quantized`: operator.py:131-134. -/
def Op.returnsQuantized (o : Op) : Bool :=
  match o.returnType with
  | none => false
  | some t => contains t (.atom "QuantizedTensor")

/-- One parameter: operator.py:98-106. -/
def paramOf (p : PSpec) : Except Err Param :=
  match p.ann with
  | none => .error .noAnnotation
  | some e =>
    match typeOf mk e with
    | .error e => .error e
    | .ok t => .ok ⟨t, p.name, p.default⟩

/-- The loop over parameters: operator.py:95-106. -/
def paramsOf : List PSpec → Except Err (List Param)
  | [] => .ok []
  | p :: ps =>
    match paramOf mk p with
    | .error e => .error e
    | .ok q =>
      match paramsOf ps with
      | .error e => .error e
      | .ok qs => .ok (q :: qs)

/-- The return type: operator.py:82-86. -/
def retOf : Option TExpr → Except Err (Option (Ty String))
  | none => .ok none
  | some e =>
    match typeOf mk e with
    | .error e => .error e
    | .ok t => .ok (some t)

/-- operator.py:66-114 `Operator.from_spec`; `none` is a string that is no function signature. The warning for positional-only and keyword-only
parameters is left out. -/
def fromSpec (spec : Option Spec) (fallback : String) : Except Err Op :=
  match spec with
  | none => .error .syntaxError
  | some s =>
    match retOf mk s.ret with
    | .error e => .error e
    | .ok r =>
      match paramsOf mk (s.params ++ s.kwonly ++ s.posonly) with
      | .error e => .error e
      | .ok ps => .ok ⟨s.name, ps, r, fallback⟩

/-! ### Files of specifications -/

/-- The value of `aliases` in a file. -/
inductive AliasValue where
  /-- absent, or `aliases:` without a value -/
  | null
  | list (ns : List String)
  | str (s : String)

/-- An entry of a file: a mapping, with the line where it begins. Other keys than these, and `cast_output`, have no effect. -/
structure Entry where
  line : Nat
  op : Option (Option Spec)
  fallback : Option String
  aliases : AliasValue

/-- `tuple(op_info.get("aliases", []) or ())`: optable.py:291. A string is a sequence of its characters. -/
def aliasNames : AliasValue → List String
  | .null => []
  | .list ns => ns
  | .str s => s.toList.map String.singleton

/-- Exceptions in reading a file. -/
inductive Exc where
  | valueError
  | keyError
  | importError
  /-- all errors of the file, by line -/
  | runtimeError (lines : List Nat)
  deriving DecidableEq, Repr

variable {P : Type} [DecidableEq P]

/-- What importing gives; `dispatch` are the names for which `fastforward.nn.functional` has a function. -/
structure World (P : Type) where
  imp : String → Option P
  extensions : List (Op → Option String)
  dispatch : String → Bool

/-- The environment of the table's model. -/
def World.env (w : World P) : OpTable.Env P String Op := ⟨w.imp, Op.fallback, w.extensions⟩

/-- optable.py:203-246 `OperatorTable.add` as `from_yaml` uses it, with optable.py:136-146: the fallback is imported first, then the dispatch function is
looked up. -/
def add (w : World P) (t : OpTable.Table P String Op) (spec : Option Spec) (fallback : String) (names : List String) :
    OpTable.Table P String Op × Option Exc :=
  match fromSpec mk spec fallback with
  | .error _ => (t, some .valueError)
  | .ok op =>
    match w.imp fallback with
    | none => (t, some .importError)
    | some _ =>
      if w.dispatch op.identifier then
        match OpTable.append w.env t op names with
        | (t', none) => (t', none)
        | (t', some .valueError) => (t', some .valueError)
        | (t', some .importError) => (t', some .importError)
        | (t', some .keyError) => (t', some .keyError)
      else (t, some .valueError)

/-- One entry: optable.py:283-291. -/
def addEntry (w : World P) (t : OpTable.Table P String Op) (e : Entry) : OpTable.Table P String Op × Option Exc :=
  match e.op with
  | none => (t, some .keyError)
  | some spec =>
    match e.fallback with
    | none => (t, some .keyError)
    | some f => add mk w t spec f (aliasNames e.aliases)

/-- The loop over entries: optable.py:281-297. -/
def loadLoop (w : World P) : List Entry → OpTable.Table P String Op → List Nat → Except Exc (OpTable.Table P String Op × List Nat)
  | [], t, errs => .ok (t, errs)
  | e :: es, t, errs =>
    match addEntry mk w t e with
    | (t', none) => loadLoop w es t' errs
    | (t', some .valueError) => loadLoop w es t' (errs ++ [e.line])
    | (_, some x) => .error x

/-- optable.py:257-304 `from_yaml`. -/
def fromYaml (w : World P) (es : List Entry) : Except Exc (OpTable.Table P String Op) :=
  match loadLoop mk w es OpTable.Table.empty [] with
  | .error x => .error x
  | .ok (t, errs) => if errs = [] then .ok t else .error (.runtimeError errs)

end

/-! ## Specification -/

/-- One alternative of a type, without any choice left: a simple type, or a generic one over alternatives. -/
inductive Shape where
  | one (s : String)
  | gen (g : String) (ss : List Shape)

/-- What the names in annotations stand for. -/
def meaning : List (String × List Shape) :=
  [("object", [.one "Object"]), ("None", [.one "NoneType"]), ("Tensor", [.one "Tensor"]), ("torch.Tensor", [.one "Tensor"]),
   ("QuantizedTensor", [.one "QuantizedTensor"]), ("Quantized", [.one "QuantizedTensor"]),
   ("MaybeQuantized", [.one "Tensor", .one "QuantizedTensor"]), ("int", [.one "Int"]), ("Int", [.one "Int"]), ("float", [.one "Float"]),
   ("Float", [.one "Float"]), ("bool", [.one "Bool"]), ("Bool", [.one "Bool"]), ("str", [.one "String"]), ("String", [.one "String"]),
   ("string", [.one "String"]), ("number", [.one "Int", .one "Float"]), ("Number", [.one "Int", .one "Float"]),
   ("size", [.one "torch.Size", .gen "Tuple" [.one "Int", .one "EllipsisType"]]),
   ("Size", [.one "torch.Size", .gen "Tuple" [.one "Int", .one "EllipsisType"]]),
   ("...", [.one "EllipsisType"]), ("Ellipsis", [.one "EllipsisType"]),
   ("dtype", [.one "DType"]), ("DType", [.one "DType"]), ("torch.dtype", [.one "DType"]),
   ("device", [.one "Device"]), ("Device", [.one "Device"]), ("torch.device", [.one "Device"]),
   ("layout", [.one "Layout"]), ("Layout", [.one "Layout"]), ("torch.layout", [.one "Layout"]),
   ("memory_format", [.one "MemoryFormat"]), ("MemoryFormat", [.one "MemoryFormat"]), ("torch.memory_format", [.one "MemoryFormat"]),
   ("Quantizer", [.one "Quantizer"])]

mutual
/-- `s` is one of the alternatives that an annotation allows. -/
inductive Allows : TExpr → Shape → Prop
  | name {x ss s} : (x, ss) ∈ meaning → s ∈ ss → Allows (.name x) s
  | other {x ss s} : (x, ss) ∈ meaning → s ∈ ss → Allows (.other x) s
  | left {l r s} : Allows l s → Allows (.bitOr l r) s
  | right {l r s} : Allows r s → Allows (.bitOr l r) s
  | optional {g e s} : g ∈ ["Optional", "optional"] → Allows e s → Allows (.subscript g [e]) s
  | none {g e} : g ∈ ["Optional", "optional"] → Allows (.subscript g [e]) (.one "NoneType")
  | union {g es e s} : g ∈ ["Union", "union"] → e ∈ es → Allows e s → Allows (.subscript g es) s
  | tuple {g es ss} : g ∈ ["Tuple", "tuple"] → AllowsEach es ss → Allows (.subscript g es) (.gen "Tuple" ss)
  | list {g e s} : g ∈ ["List", "list", "Sequence"] → Allows e s → Allows (.subscript g [e]) (.gen "List" [s])
/-- Element by element. -/
inductive AllowsEach : List TExpr → List Shape → Prop
  | nil : AllowsEach [] []
  | cons {e es s ss} : Allows e s → AllowsEach es ss → AllowsEach (e :: es) (s :: ss)
end

/-- Annotations that mean something: known names, known generic types with as many arguments as they take, no slices. -/
inductive Meaningful : TExpr → Prop
  | name {x ss} : (x, ss) ∈ meaning → Meaningful (.name x)
  | other {x ss} : (x, ss) ∈ meaning → Meaningful (.other x)
  | bitOr {l r} : Meaningful l → Meaningful r → Meaningful (.bitOr l r)
  | single {g e} : g ∈ ["Optional", "optional", "List", "list", "Sequence"] → Meaningful e → Meaningful (.subscript g [e])
  | many {g es} : g ∈ ["Union", "union", "Tuple", "tuple"] → (∀ e ∈ es, Meaningful e) → Meaningful (.subscript g es)

mutual
/-- `s` is one of the alternatives of a type. -/
inductive Has : Ty String → Shape → Prop
  | atom (a) : Has (.atom a) (.one a)
  | gen {g ts ss} : HasEach ts ss → Has (.gen g ts) (.gen g ss)
  | union {ts t s} : t ∈ ts → Has t s → Has (.union ts) s
/-- Element by element. -/
inductive HasEach : List (Ty String) → List Shape → Prop
  | nil : HasEach [] []
  | cons {t ts s ss} : Has t s → HasEach ts ss → HasEach (t :: ts) (s :: ss)
end

/-- All parameters of a specification that have a name of their own. -/
def Spec.named (s : Spec) : List PSpec := s.posonly ++ s.params ++ s.kwonly

/-- A specification whose annotations all mean something. -/
def Readable (s : Spec) : Prop :=
  (∀ p ∈ s.named, ∃ e, p.ann = some e ∧ Meaningful e) ∧ ∀ e, s.ret = some e → Meaningful e

/-- `mk` forms unions, in whatever order. -/
def Forms (h : Ty String → Int) (mk : List (Ty String) → Ty String) : Prop := ∀ ts, IsUnion h ts (mk ts)

/-- The operators of a file, one for each entry, each as its entry specifies. -/
inductive Operators (mk : List (Ty String) → Ty String) : List Entry → List Op → Prop
  | nil : Operators mk [] []
  | cons {e es op ops s f} : e.op = some (some s) → e.fallback = some f → fromSpec mk (some s) f = .ok op → Operators mk es ops →
      Operators mk (e :: es) (op :: ops)

/-- The names that `aliases` lists: all members of a list, and all characters of a string. -/
def listed : AliasValue → List String
  | .null => []
  | .list ns => ns
  | .str s => s.toList.map String.singleton

/-- The uses of a table that adding the operators of a file one after the other are. -/
def uses {P : Type} : List Entry → List Op → List (OpTable.Event P String Op)
  | e :: es, op :: ops => .append op (listed e.aliases) :: uses es ops
  | _, _ => []

/-- An entry that can be added to any table: readable, with a fallback that exists, a function to dispatch to and no aliases. -/
def Plain {P : Type} (w : World P) (e : Entry) : Prop :=
  ∃ s f, e.op = some (some s) ∧ e.fallback = some f ∧ Readable s ∧ (w.imp f).isSome ∧ w.dispatch s.name = true ∧ e.aliases = .null

/-- An entry that is wrong whatever the table: no signature, or not readable, or no function to dispatch to. -/
def Wrong {P : Type} (w : World P) (e : Entry) : Prop :=
  ∃ o f, e.op = some o ∧ e.fallback = some f ∧ (w.imp f).isSome ∧ ∀ s, o = some s → ¬Readable s ∨ w.dispatch s.name = false

/-! ## Lemmas -/

theorem listed_eq (a : AliasValue) : listed a = aliasNames a := by cases a <;> rfl

theorem strToType_unknown (mk : List (Ty String) → Ty String) (x : String) (hx : ∀ ss, (x, ss) ∉ meaning) : strToType mk x = .error .unknownName := by
  have hx' : ∀ y ∈ meaning.map Prod.fst, x ≠ y := by
    rintro y hy rfl
    obtain ⟨⟨a, ss⟩, h1, h2⟩ := List.mem_map.1 hy
    cases h2
    exact hx ss h1
  simp only [meaning, List.map_cons, List.map_nil, List.forall_mem_cons] at hx'
  unfold strToType
  simp [hx']

theorem has_atom (a : String) (s : Shape) : Has (.atom a) s ↔ s = .one a := by
  constructor
  · rintro ⟨⟩
    rfl
  · rintro rfl
    exact .atom a

theorem has_gen (g : String) (ts : List (Ty String)) (s : Shape) : Has (.gen g ts) s ↔ ∃ ss, s = .gen g ss ∧ HasEach ts ss := by
  constructor
  · rintro (_ | h)
    exact ⟨_, rfl, h⟩
  · rintro ⟨ss, rfl, h⟩
    exact .gen h

theorem has_union (ts : List (Ty String)) (s : Shape) : Has (.union ts) s ↔ ∃ t ∈ ts, Has t s := by
  constructor
  · rintro (_ | _ | ⟨h1, h2⟩)
    exact ⟨_, h1, h2⟩
  · rintro ⟨t, h1, h2⟩
    exact .union h1 h2

theorem hasEach_nil (ss : List Shape) : HasEach [] ss ↔ ss = [] := by
  constructor
  · rintro ⟨⟩
    rfl
  · rintro rfl
    exact .nil

theorem hasEach_cons (t : Ty String) (ts : List (Ty String)) (ss : List Shape) :
    HasEach (t :: ts) ss ↔ ∃ s rs, ss = s :: rs ∧ Has t s ∧ HasEach ts rs := by
  constructor
  · rintro (_ | ⟨h1, h2⟩)
    exact ⟨_, _, rfl, h1, h2⟩
  · rintro ⟨s, rs, rfl, h1, h2⟩
    exact .cons h1 h2

theorem allowsEach_nil (ss : List Shape) : AllowsEach [] ss ↔ ss = [] := by
  constructor
  · rintro ⟨⟩
    rfl
  · rintro rfl
    exact .nil

theorem allowsEach_cons (e : TExpr) (es : List TExpr) (ss : List Shape) :
    AllowsEach (e :: es) ss ↔ ∃ s rs, ss = s :: rs ∧ Allows e s ∧ AllowsEach es rs := by
  constructor
  · rintro (_ | ⟨h1, h2⟩)
    exact ⟨_, _, rfl, h1, h2⟩
  · rintro ⟨s, rs, rfl, h1, h2⟩
    exact .cons h1 h2

theorem has_variants (t : Ty String) (s : Shape) : Has t s ↔ ∃ v ∈ variants t, Has v s := by
  cases t with
  | union ps => rw [has_union, variants]
  | atom a => simp [variants]
  | gen g ps => simp [variants]

mutual
/-- What equals a type has at least its alternatives. -/
theorem has_of_eqv : ∀ (a b : Ty String) (s : Shape), eqv a b = true → Has b s → Has a s
  | .atom a, b, s, h, hb => by
    cases b with
    | atom b =>
      rw [eqv_atom, decide_eq_true_iff] at h
      subst h
      exact hb
    | gen g qs => simp [eqv] at h
    | union qs => simp [eqv] at h
  | .gen g ps, b, s, h, hb => by
    cases b with
    | atom b => simp [eqv] at h
    | gen g' qs =>
      rw [eqv_gen, Bool.and_eq_true, decide_eq_true_iff] at h
      obtain ⟨rfl, h⟩ := h
      obtain ⟨ss, rfl, hs⟩ := (has_gen _ _ _).1 hb
      exact .gen (hasEach_of_eqvs ps qs ss h hs)
    | union qs => simp [eqv] at h
  | .union ps, b, s, h, hb => by
    cases b with
    | atom b => simp [eqv] at h
    | gen g qs => simp [eqv] at h
    | union qs =>
      rw [eqv_unions, List.all_eq_true] at h
      obtain ⟨q, hq, hqs⟩ := (has_union _ _).1 hb
      exact has_of_anyEq ps q s (h q hq) hqs
theorem hasEach_of_eqvs : ∀ (as bs : List (Ty String)) (ss : List Shape), eqvs as bs = true → HasEach bs ss → HasEach as ss
  | [], [], ss, _, hb => hb
  | [], _ :: _, ss, h, _ => by simp [eqvs] at h
  | _ :: _, [], ss, h, _ => by simp [eqvs] at h
  | a :: as, b :: bs, ss, h, hb => by
    rw [eqvs_cons, Bool.and_eq_true] at h
    obtain ⟨s, rs, rfl, h1, h2⟩ := (hasEach_cons _ _ _).1 hb
    exact .cons (has_of_eqv a b s h.1 h1) (hasEach_of_eqvs as bs rs h.2 h2)
theorem has_of_anyEq : ∀ (ps : List (Ty String)) (q : Ty String) (s : Shape), anyEq ps q = true → Has q s → Has (.union ps) s
  | [], q, s, h, _ => by simp [anyEq_nil] at h
  | p :: ps, q, s, h, hq => by
    rw [anyEq_cons, Bool.or_eq_true] at h
    rcases h with h | h
    · exact .union (List.mem_cons_self ..) (has_of_eqv p q s h hq)
    · obtain ⟨t, h1, h2⟩ := (has_union _ _).1 (has_of_anyEq ps q s h hq)
      exact .union (List.mem_cons_of_mem _ h1) h2
end

theorem has_mk {h : Ty String → Int} {mk : List (Ty String) → Ty String} (hm : Forms h mk) (ts : List (Ty String)) (s : Shape) :
    Has (mk ts) s ↔ ∃ t ∈ ts, Has t s := by
  obtain ⟨ps, hp, he⟩ := hm ts
  rw [he, has_union]
  obtain ⟨h1, h2⟩ := toSet_spec h (ts.flatMap variants)
  constructor
  · rintro ⟨p, hpm, hps⟩
    obtain ⟨t, ht, hv⟩ := List.mem_flatMap.1 (h1 p (hp.mem_iff.1 hpm))
    exact ⟨t, ht, (has_variants t s).2 ⟨p, hv, hps⟩⟩
  · rintro ⟨t, ht, hts⟩
    obtain ⟨v, hv, hvs⟩ := (has_variants t s).1 hts
    obtain ⟨y, hy, hyv⟩ := h2 v (List.mem_flatMap.2 ⟨t, ht, hv⟩)
    exact ⟨y, hp.mem_iff.2 hy, has_of_eqv y v s hyv hvs⟩

theorem strToType_known {h : Ty String → Int} {mk : List (Ty String) → Ty String} (hm : Forms h mk) {x : String} {ss : List Shape}
    (hx : (x, ss) ∈ meaning) : ∃ t, strToType mk x = .ok t ∧ ∀ s, Has t s ↔ s ∈ ss := by
  simp only [meaning, List.mem_cons, Prod.mk.injEq, List.not_mem_nil, or_false] at hx
  rcases hx with h | h | h | h | h | h | h | h | h | h | h | h | h | h | h | h | h | h | h | h | h | h | h | h | h | h | h | h | h | h | h | h | h | h | h <;>
    (obtain ⟨rfl, rfl⟩ := h; exact ⟨_, rfl, fun s => by simp [has_mk hm, has_atom, has_gen, hasEach_cons, hasEach_nil]⟩)

theorem meaning_unique {x : String} {ss ss' : List Shape} (h : (x, ss) ∈ meaning) (h' : (x, ss') ∈ meaning) : ss = ss' := by
  have key : (meaning.map Prod.fst).Nodup := by decide +kernel
  have gen : ∀ (l : List (String × List Shape)), (l.map Prod.fst).Nodup → (x, ss) ∈ l → (x, ss') ∈ l → ss = ss' := by
    intro l
    induction l with
    | nil => intro _ h _; cases h
    | cons a l ih =>
      intro hn h1 h2
      rw [List.map_cons, List.nodup_cons] at hn
      rcases List.mem_cons.1 h1 with h1 | h1
      · rcases List.mem_cons.1 h2 with h2 | h2
        · rw [← h2] at h1
          exact (Prod.mk.inj h1).2
        · exact absurd (List.mem_map.2 ⟨_, h2, by rw [← h1]⟩) hn.1
      · rcases List.mem_cons.1 h2 with h2 | h2
        · exact absurd (List.mem_map.2 ⟨_, h1, by rw [← h2]⟩) hn.1
        · exact ih hn.2 h1 h2
  exact gen meaning key h h'

theorem strToType_ok_iff {h : Ty String → Int} {mk : List (Ty String) → Ty String} (hm : Forms h mk) {x : String} {t : Ty String}
    (ht : strToType mk x = .ok t) : ∃ ss, (x, ss) ∈ meaning ∧ ∀ s, Has t s ↔ s ∈ ss := by
  by_cases hx : ∃ ss, (x, ss) ∈ meaning
  · obtain ⟨ss, hx⟩ := hx
    obtain ⟨t', h1, h2⟩ := strToType_known hm hx
    rw [ht] at h1
    cases h1
    exact ⟨ss, hx, h2⟩
  · rw [strToType_unknown mk x (fun ss hs => hx ⟨ss, hs⟩)] at ht
    cases ht

/-- The names of the generic types are different. -/
theorem generic_cases {mk : List (Ty String) → Ty String} {g : String} {ts : List (Ty String)} {t : Ty String} (h : generic mk g ts = .ok t) :
    (g ∈ ["Optional", "optional"] ∧ ∃ a, ts = [a] ∧ t = mk [a, .atom "NoneType"]) ∨ (g ∈ ["Union", "union"] ∧ t = mk ts) ∨
      (g ∈ ["Tuple", "tuple"] ∧ t = .gen "Tuple" ts) ∨ (g ∈ ["List", "list", "Sequence"] ∧ ∃ a, ts = [a] ∧ t = .gen "List" [a]) := by
  unfold generic at h
  split at h
  · rename_i hg
    refine .inl ⟨by simpa using hg, ?_⟩
    split at h
    · cases h
      exact ⟨_, rfl, rfl⟩
    · cases h
  · split at h
    · rename_i hg
      cases h
      exact .inr (.inl ⟨by simpa using hg, rfl⟩)
    · split at h
      · rename_i hg
        cases h
        exact .inr (.inr (.inl ⟨by simpa using hg, rfl⟩))
      · split at h
        · rename_i hg
          refine .inr (.inr (.inr ⟨by simpa using hg, ?_⟩))
          split at h
          · cases h
            exact ⟨_, rfl, rfl⟩
          · cases h
        · cases h

theorem allows_subscript (g : String) (es : List TExpr) (s : Shape) : Allows (.subscript g es) s ↔
    (g ∈ ["Optional", "optional"] ∧ ∃ e, es = [e] ∧ (Allows e s ∨ s = .one "NoneType")) ∨ (g ∈ ["Union", "union"] ∧ ∃ e ∈ es, Allows e s) ∨
      (g ∈ ["Tuple", "tuple"] ∧ ∃ ss, s = .gen "Tuple" ss ∧ AllowsEach es ss) ∨
      (g ∈ ["List", "list", "Sequence"] ∧ ∃ e s', es = [e] ∧ s = .gen "List" [s'] ∧ Allows e s') := by
  constructor
  · intro h
    cases h with
    | optional hg h => exact .inl ⟨hg, _, rfl, .inl h⟩
    | none hg => exact .inl ⟨hg, _, rfl, .inr rfl⟩
    | union hg he h => exact .inr (.inl ⟨hg, _, he, h⟩)
    | tuple hg h => exact .inr (.inr (.inl ⟨hg, _, rfl, h⟩))
    | list hg h => exact .inr (.inr (.inr ⟨hg, _, _, rfl, rfl, h⟩))
  · rintro (⟨hg, e, rfl, h | rfl⟩ | ⟨hg, e, he, h⟩ | ⟨hg, ss, rfl, h⟩ | ⟨hg, e, s', rfl, rfl, h⟩)
    · exact .optional hg h
    · exact .none hg
    · exact .union hg he h
    · exact .tuple hg h
    · exact .list hg h

mutual
theorem typeOf_spec {h : Ty String → Int} {mk : List (Ty String) → Ty String} (hm : Forms h mk) : ∀ (e : TExpr) (t : Ty String),
    typeOf mk e = .ok t → ∀ s, Has t s ↔ Allows e s
  | .name x, t, ht, s => by
    rw [typeOf] at ht
    obtain ⟨ss, h1, h2⟩ := strToType_ok_iff hm ht
    rw [h2]
    constructor
    · exact .name h1
    · rintro ⟨h3, h4⟩
      rw [meaning_unique h1 h3]
      exact h4
  | .other x, t, ht, s => by
    rw [typeOf] at ht
    obtain ⟨ss, h1, h2⟩ := strToType_ok_iff hm ht
    rw [h2]
    constructor
    · exact .other h1
    · intro ha
      cases ha with
      | other h3 h4 =>
        rw [meaning_unique h1 h3]
        exact h4
  | .bitOr l r, t, ht, s => by
    rw [typeOf] at ht
    cases hl : typeOf mk l with
    | error e => rw [hl] at ht; cases ht
    | ok a =>
      rw [hl] at ht
      dsimp only at ht
      cases hr : typeOf mk r with
      | error e => rw [hr] at ht; cases ht
      | ok b =>
        rw [hr] at ht
        cases ht
        rw [has_mk hm]
        have h1 := typeOf_spec hm l a hl s
        have h2 := typeOf_spec hm r b hr s
        simp only [List.mem_cons, List.not_mem_nil, or_false, exists_eq_or_imp, exists_eq_left, h1, h2]
        constructor
        · rintro (h | h)
          · exact .left h
          · exact .right h
        · intro h
          cases h with
          | left h => exact .inl h
          | right h => exact .inr h
  | .slice, t, ht, s => by
    rw [typeOf] at ht
    cases ht
  | .subscript g es, t, ht, s => by
    rw [typeOf] at ht
    cases hes : typesOf mk es with
    | error e => rw [hes] at ht; cases ht
    | ok ts =>
      rw [hes] at ht
      dsimp only at ht
      obtain ⟨h1, h2, h3⟩ := typesOf_spec hm es ts hes
      have hone : ∀ a, ts = [a] → ∃ e, es = [e] ∧ ∀ s, Has a s ↔ Allows e s := by
        rintro a rfl
        match es, h3 with
        | [e], _ =>
          refine ⟨e, rfl, fun s => ?_⟩
          have := h2 s
          simpa using this
      rw [allows_subscript]
      rcases generic_cases ht with ⟨hg, a, hts, rfl⟩ | ⟨hg, rfl⟩ | ⟨hg, rfl⟩ | ⟨hg, a, hts, rfl⟩
      · obtain ⟨e, rfl, he⟩ := hone a hts
        have hg' : g = "Optional" ∨ g = "optional" := by simpa using hg
        rw [has_mk hm]
        rcases hg' with rfl | rfl <;> simp [he, has_atom]
      · have hg' : g = "Union" ∨ g = "union" := by simpa using hg
        rw [has_mk hm, h2]
        rcases hg' with rfl | rfl <;> simp
      · have hg' : g = "Tuple" ∨ g = "tuple" := by simpa using hg
        rw [has_gen]
        simp only [h1]
        rcases hg' with rfl | rfl <;> simp
      · obtain ⟨e, rfl, he⟩ := hone a hts
        have hg' : g = "List" ∨ g = "list" ∨ g = "Sequence" := by simpa using hg
        rw [has_gen]
        rcases hg' with rfl | rfl | rfl <;> simp [hasEach_cons, hasEach_nil, he]
theorem typesOf_spec {h : Ty String → Int} {mk : List (Ty String) → Ty String} (hm : Forms h mk) : ∀ (es : List TExpr) (ts : List (Ty String)),
    typesOf mk es = .ok ts → (∀ ss, HasEach ts ss ↔ AllowsEach es ss) ∧ (∀ s, (∃ t ∈ ts, Has t s) ↔ ∃ e ∈ es, Allows e s) ∧ es.length = ts.length
  | [], ts, hts => by
    rw [typesOf] at hts
    cases hts
    exact ⟨fun ss => by rw [hasEach_nil, allowsEach_nil], fun s => by simp, rfl⟩
  | e :: es, ts, hts => by
    rw [typesOf] at hts
    cases he : typeOf mk e with
    | error e => rw [he] at hts; cases hts
    | ok t =>
      rw [he] at hts
      dsimp only at hts
      cases hes : typesOf mk es with
      | error e => rw [hes] at hts; cases hts
      | ok ts' =>
        rw [hes] at hts
        cases hts
        obtain ⟨h1, h2, h3⟩ := typesOf_spec hm es ts' hes
        have h4 := typeOf_spec hm e t he
        refine ⟨fun ss => ?_, fun s => ?_, by simp [h3]⟩
        · rw [hasEach_cons, allowsEach_cons]
          simp only [h1, h4]
        · simp only [List.mem_cons, exists_eq_or_imp, h2, h4]
end

theorem strToType_built {h : Ty String → Int} {mk : List (Ty String) → Ty String} (hm : Forms h mk) {x : String} {t : Ty String}
    (ht : strToType mk x = .ok t) : Built h t := by
  have hu : ∀ a b : Ty String, Built h a → Built h b → Built h (mk [a, b]) := by
    intro a b ha hb
    refine .union [a, b] _ ?_ (hm _)
    simp only [List.mem_cons, List.not_mem_nil, or_false, forall_eq_or_imp, forall_eq]
    exact ⟨ha, hb⟩
  have hsize : Built h (.gen "Tuple" [.atom "Int", .atom "EllipsisType"]) := by
    refine .gen _ _ ?_
    simp only [List.mem_cons, List.not_mem_nil, or_false, forall_eq_or_imp, forall_eq]
    exact ⟨.atom _, .atom _⟩
  obtain ⟨ss, hx, _⟩ := strToType_ok_iff hm ht
  simp only [meaning, List.mem_cons, Prod.mk.injEq, List.not_mem_nil, or_false] at hx
  rcases hx with h | h | h | h | h | h | h | h | h | h | h | h | h | h | h | h | h | h | h | h | h | h | h | h | h | h | h | h | h | h | h | h | h | h | h <;>
    (obtain ⟨rfl, rfl⟩ := h; cases ht; first | exact .atom _ | exact hu _ _ (.atom _) (.atom _) | exact hu _ _ (.atom _) hsize)

mutual
theorem typeOf_built {h : Ty String → Int} {mk : List (Ty String) → Ty String} (hm : Forms h mk) : ∀ (e : TExpr) (t : Ty String),
    typeOf mk e = .ok t → Built h t
  | .name x, t, ht => by
    rw [typeOf] at ht
    exact strToType_built hm ht
  | .other x, t, ht => by
    rw [typeOf] at ht
    exact strToType_built hm ht
  | .bitOr l r, t, ht => by
    rw [typeOf] at ht
    cases hl : typeOf mk l with
    | error e => rw [hl] at ht; cases ht
    | ok a =>
      rw [hl] at ht
      dsimp only at ht
      cases hr : typeOf mk r with
      | error e => rw [hr] at ht; cases ht
      | ok b =>
        rw [hr] at ht
        cases ht
        refine .union [a, b] _ ?_ (hm _)
        simp only [List.mem_cons, List.not_mem_nil, or_false, forall_eq_or_imp, forall_eq]
        exact ⟨typeOf_built hm l a hl, typeOf_built hm r b hr⟩
  | .slice, t, ht => by
    rw [typeOf] at ht
    cases ht
  | .subscript g es, t, ht => by
    rw [typeOf] at ht
    cases hes : typesOf mk es with
    | error e => rw [hes] at ht; cases ht
    | ok ts =>
      rw [hes] at ht
      dsimp only at ht
      have hb := typesOf_built hm es ts hes
      rcases generic_cases ht with ⟨_, a, rfl, rfl⟩ | ⟨_, rfl⟩ | ⟨_, rfl⟩ | ⟨_, a, rfl, rfl⟩
      · refine .union [a, .atom "NoneType"] _ ?_ (hm _)
        simp only [List.mem_cons, List.not_mem_nil, or_false, forall_eq_or_imp, forall_eq]
        exact ⟨hb a (by simp), .atom _⟩
      · exact .union ts _ hb (hm _)
      · exact .gen _ _ hb
      · exact .gen _ _ hb
theorem typesOf_built {h : Ty String → Int} {mk : List (Ty String) → Ty String} (hm : Forms h mk) : ∀ (es : List TExpr) (ts : List (Ty String)),
    typesOf mk es = .ok ts → ∀ t ∈ ts, Built h t
  | [], ts, hts => by
    rw [typesOf] at hts
    cases hts
    simp
  | e :: es, ts, hts => by
    rw [typesOf] at hts
    cases he : typeOf mk e with
    | error e => rw [he] at hts; cases hts
    | ok t =>
      rw [he] at hts
      dsimp only at hts
      cases hes : typesOf mk es with
      | error e => rw [hes] at hts; cases hts
      | ok ts' =>
        rw [hes] at hts
        cases hts
        simp only [List.mem_cons, forall_eq_or_imp]
        exact ⟨typeOf_built hm e t he, typesOf_built hm es ts' hes⟩
end

theorem contains_iff_has {t : Ty String} (hf : Flat t) (q : String) : contains t (.atom q) = true ↔ Has t (.one q) := by
  cases hf with
  | atom a => simp [contains, eqv_atom, has_atom]
  | gen g ps _ => simp [contains, eqv, has_gen]
  | union ps h1 h2 =>
    rw [contains_union, has_union]
    simp only [variants, List.mem_singleton, forall_eq]
    constructor
    · rintro ⟨p, hp, he⟩
      exact ⟨p, hp, has_of_eqv p _ _ he (.atom q)⟩
    · rintro ⟨p, hp, he⟩
      refine ⟨p, hp, ?_⟩
      have := h2 p hp
      cases p with
      | atom a =>
        rw [has_atom] at he
        cases he
        exact eqv_refl _
      | gen g qs =>
        obtain ⟨ss, h, _⟩ := (has_gen _ _ _).1 he
        cases h
      | union qs => exact absurd this id

mutual
theorem typeOf_ok_iff {h : Ty String → Int} {mk : List (Ty String) → Ty String} (hm : Forms h mk) : ∀ (e : TExpr),
    (∃ t, typeOf mk e = .ok t) ↔ Meaningful e
  | .name x => by
    rw [typeOf]
    constructor
    · rintro ⟨t, ht⟩
      obtain ⟨ss, h1, _⟩ := strToType_ok_iff hm ht
      exact .name h1
    · rintro ⟨h1⟩
      obtain ⟨t, h2, _⟩ := strToType_known hm h1
      exact ⟨t, h2⟩
  | .other x => by
    rw [typeOf]
    constructor
    · rintro ⟨t, ht⟩
      obtain ⟨ss, h1, _⟩ := strToType_ok_iff hm ht
      exact .other h1
    · intro h
      cases h with
      | other h1 =>
        obtain ⟨t, h2, _⟩ := strToType_known hm h1
        exact ⟨t, h2⟩
  | .slice => by
    rw [typeOf]
    constructor
    · rintro ⟨t, ht⟩
      cases ht
    · intro h
      cases h
  | .bitOr l r => by
    have h1 := typeOf_ok_iff hm l
    have h2 := typeOf_ok_iff hm r
    rw [typeOf]
    constructor
    · rintro ⟨t, ht⟩
      cases hl : typeOf mk l with
      | error e => rw [hl] at ht; cases ht
      | ok a =>
        rw [hl] at ht
        dsimp only at ht
        cases hr : typeOf mk r with
        | error e => rw [hr] at ht; cases ht
        | ok b => exact .bitOr (h1.1 ⟨a, hl⟩) (h2.1 ⟨b, hr⟩)
    · intro h
      cases h with
      | bitOr ha hb =>
        obtain ⟨a, ha⟩ := h1.2 ha
        obtain ⟨b, hb⟩ := h2.2 hb
        exact ⟨mk [a, b], by rw [ha]; dsimp only; rw [hb]⟩
  | .subscript g es => by
    have h1 := typesOf_ok_iff hm es
    rw [typeOf]
    constructor
    · rintro ⟨t, ht⟩
      cases hes : typesOf mk es with
      | error e => rw [hes] at ht; cases ht
      | ok ts =>
        rw [hes] at ht
        dsimp only at ht
        have hall := h1.1 ⟨ts, hes⟩
        have hlen := (typesOf_spec hm es ts hes).2.2
        have hone : ∀ a, ts = [a] → ∃ e, es = [e] := by
          rintro a rfl
          match es, hlen with
          | [e], _ => exact ⟨e, rfl⟩
        rcases generic_cases ht with ⟨hg, a, hts, rfl⟩ | ⟨hg, rfl⟩ | ⟨hg, rfl⟩ | ⟨hg, a, hts, rfl⟩
        · obtain ⟨e, rfl⟩ := hone a hts
          refine .single ?_ (hall e (by simp))
          simp only [List.mem_cons, List.not_mem_nil, or_false] at hg ⊢
          rcases hg with rfl | rfl <;> simp
        · refine .many ?_ hall
          simp only [List.mem_cons, List.not_mem_nil, or_false] at hg ⊢
          rcases hg with rfl | rfl <;> simp
        · refine .many ?_ hall
          simp only [List.mem_cons, List.not_mem_nil, or_false] at hg ⊢
          rcases hg with rfl | rfl <;> simp
        · obtain ⟨e, rfl⟩ := hone a hts
          refine .single ?_ (hall e (by simp))
          simp only [List.mem_cons, List.not_mem_nil, or_false] at hg ⊢
          rcases hg with rfl | rfl | rfl <;> simp
    · intro h
      cases h with
      | single hg he =>
        obtain ⟨ts, hts⟩ := h1.2 (by simpa using he)
        have hlen := (typesOf_spec hm _ ts hts).2.2
        match ts, hlen with
        | [a], _ =>
          rw [hts]
          simp only [List.mem_cons, List.not_mem_nil, or_false] at hg
          rcases hg with rfl | rfl | rfl | rfl | rfl <;> exact ⟨_, rfl⟩
      | many hg he =>
        obtain ⟨ts, hts⟩ := h1.2 he
        rw [hts]
        simp only [List.mem_cons, List.not_mem_nil, or_false] at hg
        rcases hg with rfl | rfl | rfl | rfl <;> exact ⟨_, rfl⟩
theorem typesOf_ok_iff {h : Ty String → Int} {mk : List (Ty String) → Ty String} (hm : Forms h mk) : ∀ (es : List TExpr),
    (∃ ts, typesOf mk es = .ok ts) ↔ ∀ e ∈ es, Meaningful e
  | [] => by
    rw [typesOf]
    simp
  | e :: es => by
    have h1 := typeOf_ok_iff hm e
    have h2 := typesOf_ok_iff hm es
    rw [typesOf]
    simp only [List.mem_cons, forall_eq_or_imp]
    rw [← h1, ← h2]
    constructor
    · rintro ⟨ts, hts⟩
      cases he : typeOf mk e with
      | error e => rw [he] at hts; cases hts
      | ok t =>
        rw [he] at hts
        dsimp only at hts
        cases hes : typesOf mk es with
        | error e => rw [hes] at hts; cases hts
        | ok ts' => exact ⟨⟨t, rfl⟩, ⟨ts', rfl⟩⟩
    · rintro ⟨⟨t, ht⟩, ⟨ts, hts⟩⟩
      exact ⟨t :: ts, by rw [ht]; dsimp only; rw [hts]⟩
end

theorem paramsOf_ok_iff {h : Ty String → Int} {mk : List (Ty String) → Ty String} (hm : Forms h mk) (ps : List PSpec) :
    (∃ qs, paramsOf mk ps = .ok qs) ↔ ∀ p ∈ ps, ∃ e, p.ann = some e ∧ Meaningful e := by
  induction ps with
  | nil => simp [paramsOf]
  | cons p ps ih =>
    simp only [List.mem_cons, forall_eq_or_imp, ← ih]
    rw [paramsOf, paramOf]
    constructor
    · rintro ⟨qs, hq⟩
      cases hann : p.ann with
      | none => rw [hann] at hq; cases hq
      | some e =>
        rw [hann] at hq
        dsimp only at hq
        cases ht : typeOf mk e with
        | error e => rw [ht] at hq; cases hq
        | ok t =>
          rw [ht] at hq
          dsimp only at hq
          cases hps : paramsOf mk ps with
          | error e => rw [hps] at hq; cases hq
          | ok rs => exact ⟨⟨e, rfl, (typeOf_ok_iff hm e).1 ⟨t, ht⟩⟩, ⟨rs, rfl⟩⟩
    · rintro ⟨⟨e, hann, he⟩, ⟨rs, hrs⟩⟩
      obtain ⟨t, ht⟩ := (typeOf_ok_iff hm e).2 he
      exact ⟨⟨t, p.name, p.default⟩ :: rs, by rw [hann]; dsimp only; rw [ht]; dsimp only; rw [hrs]⟩

/-- A parameter is read from its part of the specification. -/
inductive ReadFrom (mk : List (Ty String) → Ty String) : List PSpec → List Param → Prop
  | nil : ReadFrom mk [] []
  | cons {p ps q qs e} : p.ann = some e → typeOf mk e = .ok q.type → q.name = p.name → q.default = p.default → ReadFrom mk ps qs → ReadFrom mk (p :: ps) (q :: qs)

theorem paramsOf_readFrom {mk : List (Ty String) → Ty String} (ps : List PSpec) (qs : List Param) (hq : paramsOf mk ps = .ok qs) : ReadFrom mk ps qs := by
  induction ps generalizing qs with
  | nil =>
    rw [paramsOf] at hq
    cases hq
    exact .nil
  | cons p ps ih =>
    rw [paramsOf, paramOf] at hq
    cases hann : p.ann with
    | none => rw [hann] at hq; cases hq
    | some e =>
      rw [hann] at hq
      dsimp only at hq
      cases ht : typeOf mk e with
      | error e => rw [ht] at hq; cases hq
      | ok t =>
        rw [ht] at hq
        dsimp only at hq
        cases hps : paramsOf mk ps with
        | error e => rw [hps] at hq; cases hq
        | ok rs =>
          rw [hps] at hq
          cases hq
          exact .cons hann ht rfl rfl (ih rs hps)

theorem readFrom_names {mk : List (Ty String) → Ty String} {ps : List PSpec} {qs : List Param} (h : ReadFrom mk ps qs) :
    qs.map (fun q => (q.name, q.default)) = ps.map (fun p => (p.name, p.default)) := by
  induction h with
  | nil => rfl
  | cons _ _ h1 h2 _ ih => simp [h1, h2, ih]

theorem readFrom_get {mk : List (Ty String) → Ty String} {ps : List PSpec} {qs : List Param} (h : ReadFrom mk ps qs) (i : Nat) (q : Param)
    (hq : qs[i]? = some q) : ∃ p e, ps[i]? = some p ∧ p.ann = some e ∧ typeOf mk e = .ok q.type := by
  induction h generalizing i with
  | nil => simp at hq
  | cons h1 h2 _ _ _ ih =>
    cases i with
    | zero =>
      simp only [List.getElem?_cons_zero, Option.some.injEq] at hq
      subst hq
      exact ⟨_, _, rfl, h1, h2⟩
    | succ i => exact ih i (by simpa using hq)

theorem fromSpec_ok {mk : List (Ty String) → Ty String} {spec : Option Spec} {f : String} {op : Op} (h : fromSpec mk spec f = .ok op) :
    ∃ s, spec = some s ∧ op.identifier = s.name ∧ op.fallback = f ∧ retOf mk s.ret = .ok op.returnType ∧
      paramsOf mk (s.params ++ s.kwonly ++ s.posonly) = .ok op.parameters := by
  unfold fromSpec at h
  cases spec with
  | none => cases h
  | some s =>
    dsimp only at h
    cases hr : retOf mk s.ret with
    | error e => rw [hr] at h; cases h
    | ok r =>
      rw [hr] at h
      dsimp only at h
      cases hp : paramsOf mk (s.params ++ s.kwonly ++ s.posonly) with
      | error e => rw [hp] at h; cases h
      | ok ps =>
        rw [hp] at h
        cases h
        exact ⟨s, rfl, rfl, rfl, hr, hp⟩

/-! ## Properties -/

/-- **C127.** The type of a parameter has exactly the alternatives that its annotation allows: `|`, `Union` and `Optional` add alternatives, tuples and
sequences combine those of their elements, and the order in which sets keep their members and the hash function do not matter. -/
theorem annotation_means {h : Ty String → Int} {mk : List (Ty String) → Ty String} (hm : Forms h mk) {e : TExpr} {t : Ty String}
    (ht : typeOf mk e = .ok t) (s : Shape) : Has t s ↔ Allows e s := typeOf_spec hm e t ht s

/-- **C127.** An annotation is accepted exactly if it means something. -/
theorem annotation_accepted_iff {h : Ty String → Int} {mk : List (Ty String) → Ty String} (hm : Forms h mk) (e : TExpr) :
    (∃ t, typeOf mk e = .ok t) ↔ Meaningful e := typeOf_ok_iff hm e

/-- **C127.** A specification is accepted exactly if it is a signature, every named parameter has an annotation, and all annotations mean something. -/
theorem spec_accepted_iff {h : Ty String → Int} {mk : List (Ty String) → Ty String} (hm : Forms h mk) (spec : Option Spec) (f : String) :
    (∃ op, fromSpec mk spec f = .ok op) ↔ ∃ s, spec = some s ∧ Readable s := by
  have hret : ∀ r : Option TExpr, (∃ t, retOf mk r = .ok t) ↔ ∀ e, r = some e → Meaningful e := by
    intro r
    cases r with
    | none => simp [retOf]
    | some e =>
      simp only [Option.some.injEq, forall_eq', ← typeOf_ok_iff hm, retOf]
      cases typeOf mk e <;> simp
  have hmem : ∀ (s : Spec) (P : PSpec → Prop), (∀ p ∈ s.params ++ s.kwonly ++ s.posonly, P p) ↔ ∀ p ∈ s.named, P p := by
    intro s P
    unfold Spec.named
    simp only [List.mem_append, or_assoc]
    constructor <;> intro h p hp <;> exact h p (by rcases hp with hp | hp | hp <;> simp [hp])
  constructor
  · rintro ⟨op, hop⟩
    obtain ⟨s, rfl, _, _, hr, hp⟩ := fromSpec_ok hop
    exact ⟨s, rfl, (hmem s _).1 ((paramsOf_ok_iff hm _).1 ⟨_, hp⟩), (hret _).1 ⟨_, hr⟩⟩
  · rintro ⟨s, rfl, h1, h2⟩
    obtain ⟨ps, hp⟩ := (paramsOf_ok_iff hm _).2 ((hmem s _).2 h1)
    obtain ⟨r, hr⟩ := (hret _).2 h2
    unfold fromSpec
    exact ⟨⟨s.name, ps, r, f⟩, by simp only [hr, hp]⟩

/-- **C127 (partial).** An operator without positional-only parameters has the name of its specification, its named parameters in order, with their defaults, and each
parameter has the alternatives that its annotation allows; it is quantized exactly if quantized tensors are among them, and the operator returns a
quantized tensor exactly if they are among those of its return type. Missing: positional-only parameters are last (C47), `star_dropped`. -/
theorem operator_as_specified_partial {h : Ty String → Int} {mk : List (Ty String) → Ty String} (hm : Forms h mk) {s : Spec} {f : String} {op : Op}
    (hs : s.posonly = []) (hop : fromSpec mk (some s) f = .ok op) :
    op.identifier = s.name ∧ op.fallback = f ∧ op.parameters.map (fun q => (q.name, q.default)) = s.named.map (fun p => (p.name, p.default)) ∧
      (∀ (i : Nat) (q : Param), op.parameters[i]? = some q → ∃ p e, s.named[i]? = some p ∧ p.ann = some e ∧ (∀ a, Has q.type a ↔ Allows e a) ∧
        (q.quantized = true ↔ Allows e (.one "QuantizedTensor"))) ∧
      (op.returnsQuantized = true ↔ ∃ e, s.ret = some e ∧ Allows e (.one "QuantizedTensor")) := by
  obtain ⟨s', hs', h1, h2, hr, hp⟩ := fromSpec_ok hop
  cases hs'
  have hn : s.params ++ s.kwonly ++ s.posonly = s.named := by simp [Spec.named, hs]
  rw [hn] at hp
  have hread := paramsOf_readFrom _ _ hp
  refine ⟨h1, h2, readFrom_names hread, ?_, ?_⟩
  · intro i q hq
    obtain ⟨p, e, hp1, hp2, ht⟩ := readFrom_get hread i q hq
    refine ⟨p, e, hp1, hp2, typeOf_spec hm e _ ht, ?_⟩
    unfold Param.quantized
    rw [contains_iff_has (built_flat (typeOf_built hm e _ ht)), typeOf_spec hm e _ ht]
  · unfold Op.returnsQuantized
    cases hret : s.ret with
    | none =>
      rw [hret, retOf] at hr
      have hr := (Except.ok.inj hr).symm
      rw [hr]
      simp
    | some e =>
      rw [hret, retOf] at hr
      cases ht : typeOf mk e with
      | error e => rw [ht] at hr; cases hr
      | ok t =>
        rw [ht] at hr
        have hr := (Except.ok.inj hr).symm
        rw [hr]
        simp only [Option.some.injEq, exists_eq_left']
        rw [contains_iff_has (built_flat (typeOf_built hm e _ ht)), typeOf_spec hm e _ ht]

variable {P : Type} [DecidableEq P]

theorem addEntry_ok {mk : List (Ty String) → Ty String} {w : World P} {t t' : OpTable.Table P String Op} {e : Entry}
    (h : addEntry mk w t e = (t', none)) : ∃ s f op, e.op = some (some s) ∧ e.fallback = some f ∧ fromSpec mk (some s) f = .ok op ∧
      (w.imp f).isSome ∧ w.dispatch s.name = true ∧ OpTable.append w.env t op (aliasNames e.aliases) = (t', none) := by
  unfold addEntry at h
  cases ho : e.op with
  | none => rw [ho] at h; cases h
  | some spec =>
    rw [ho] at h
    dsimp only at h
    cases hf : e.fallback with
    | none => rw [hf] at h; cases h
    | some f =>
      rw [hf] at h
      dsimp only at h
      unfold add at h
      cases hop : fromSpec mk spec f with
      | error x => rw [hop] at h; cases h
      | ok op =>
        rw [hop] at h
        dsimp only at h
        obtain ⟨s, rfl, hid, _, _, _⟩ := fromSpec_ok hop
        cases hi : w.imp f with
        | none => rw [hi] at h; cases h
        | some g =>
          rw [hi] at h
          dsimp only at h
          by_cases hd : w.dispatch op.identifier = true
          · rw [if_pos hd] at h
            refine ⟨s, f, op, rfl, rfl, hop, by rw [hi]; rfl, hid ▸ hd, ?_⟩
            cases ha : OpTable.append w.env t op (aliasNames e.aliases) with
            | mk t1 x =>
              rw [ha] at h
              cases x with
              | none => simpa using h
              | some x => cases x <;> cases h
          · rw [if_neg hd] at h
            cases h

theorem addEntry_wrong {h : Ty String → Int} {mk : List (Ty String) → Ty String} (hm : Forms h mk) {w : World P} {e : Entry} (he : Wrong w e)
    (t : OpTable.Table P String Op) : addEntry mk w t e = (t, some .valueError) := by
  obtain ⟨o, f, h1, h2, h3, h4⟩ := he
  unfold addEntry add
  rw [h1]
  dsimp only
  rw [h2]
  dsimp only
  cases hop : fromSpec mk o f with
  | error x => rfl
  | ok op =>
    dsimp only
    obtain ⟨g, hg⟩ := Option.isSome_iff_exists.1 h3
    obtain ⟨s, rfl, hs⟩ := (spec_accepted_iff hm o f).1 ⟨op, hop⟩
    obtain ⟨s', hs', hid, _⟩ := fromSpec_ok hop
    cases Option.some.inj hs'
    rcases h4 s rfl with h5 | h5
    · exact absurd hs h5
    · rw [hg]
      dsimp only
      rw [if_neg (by rw [hid, h5]; simp)]

theorem addEntry_plain {h : Ty String → Int} {mk : List (Ty String) → Ty String} (hm : Forms h mk) {w : World P} {e : Entry} (he : Plain w e)
    (t : OpTable.Table P String Op) : ∃ t', addEntry mk w t e = (t', none) := by
  obtain ⟨s, f, h1, h2, h3, h4, h5, h6⟩ := he
  obtain ⟨op, hop⟩ := (spec_accepted_iff hm (some s) f).2 ⟨s, rfl, h3⟩
  obtain ⟨g, hg⟩ := Option.isSome_iff_exists.1 h4
  obtain ⟨s', hs', hid, hfb, _⟩ := fromSpec_ok hop
  cases hs'
  unfold addEntry add
  rw [h1]
  dsimp only
  rw [h2]
  dsimp only
  rw [hop]
  dsimp only
  rw [hg]
  dsimp only
  rw [if_pos (by rw [hid, h5]), h6]
  have : ∃ t', OpTable.append w.env t op (aliasNames .null) = (t', none) := by
    unfold OpTable.append
    have hi : w.env.imp (w.env.fallback op) = some g := by
      show w.imp op.fallback = some g
      rw [hfb, hg]
    rw [hi]
    dsimp only
    cases t.index g with
    | none => exact ⟨_, rfl⟩
    | some i => exact ⟨_, rfl⟩
  obtain ⟨t', ht'⟩ := this
  exact ⟨t', by rw [ht']⟩

theorem loadLoop_spec {h : Ty String → Int} {mk : List (Ty String) → Ty String} (hm : Forms h mk) {w : World P} (es : List Entry) :
    ∀ (t t' : OpTable.Table P String Op) (errs errs' : List Nat), loadLoop mk w es t errs = .ok (t', errs') →
      ∃ new, errs' = errs ++ new ∧ new.Sublist (es.map Entry.line) ∧ (∀ e ∈ es, Wrong w e → e.line ∈ new) ∧
        (new = [] → ∃ ops, Operators mk es ops ∧ t' = OpTable.run w.env t (uses es ops)) := by
  induction es with
  | nil =>
    intro t t' errs errs' h
    rw [loadLoop] at h
    cases h
    exact ⟨[], by simp, by simp, by simp, fun _ => ⟨[], .nil, rfl⟩⟩
  | cons e es ih =>
    intro t t' errs errs' h
    rw [loadLoop] at h
    cases hr : addEntry mk w t e with
    | mk t1 x =>
      rw [hr] at h
      cases x with
      | none =>
        obtain ⟨new, h1, h2, h3, h4⟩ := ih t1 t' errs errs' h
        obtain ⟨s, f, op, a1, a2, a3, _, _, a4⟩ := addEntry_ok hr
        refine ⟨new, h1, h2.cons _, ?_, ?_⟩
        · intro e' he' hw
          rcases List.mem_cons.1 he' with rfl | he'
          · rw [addEntry_wrong hm hw t] at hr
            cases hr
          · exact h3 e' he' hw
        · intro hn
          obtain ⟨ops, b1, b2⟩ := h4 hn
          refine ⟨op :: ops, .cons a1 a2 a3 b1, ?_⟩
          rw [b2, uses, listed_eq, OpTable.run, OpTable.run, List.foldl_cons, OpTable.step, a4]
      | some x =>
        cases x with
        | valueError =>
          obtain ⟨new, h1, h2, h3, _⟩ := ih t1 t' (errs ++ [e.line]) errs' h
          refine ⟨e.line :: new, by simp [h1], by simpa using h2, ?_, by simp⟩
          intro e' he' hw
          rcases List.mem_cons.1 he' with rfl | he'
          · simp
          · exact List.mem_cons_of_mem _ (h3 e' he' hw)
        | keyError => cases h
        | importError => cases h
        | runtimeError l => cases h

theorem loadLoop_exact {h : Ty String → Int} {mk : List (Ty String) → Ty String} (hm : Forms h mk) {w : World P} (bad : Entry → Bool) (es : List Entry) :
    ∀ (t : OpTable.Table P String Op) (errs : List Nat), (∀ e ∈ es, if bad e then Wrong w e else Plain w e) →
      ∃ t', loadLoop mk w es t errs = .ok (t', errs ++ (es.filter bad).map Entry.line) := by
  induction es with
  | nil => intro t errs _; exact ⟨t, by simp [loadLoop]⟩
  | cons e es ih =>
    intro t errs hall
    have he := hall e (List.mem_cons_self ..)
    have ih' := fun t errs => ih t errs (fun e' he' => hall e' (List.mem_cons_of_mem _ he'))
    rw [loadLoop]
    by_cases hb : bad e = true
    · rw [if_pos hb] at he
      rw [addEntry_wrong hm he t]
      obtain ⟨t', ht'⟩ := ih' t (errs ++ [e.line])
      exact ⟨t', by dsimp only; rw [ht', List.filter_cons_of_pos hb]; simp⟩
    · rw [if_neg hb] at he
      obtain ⟨t1, h1⟩ := addEntry_plain hm he t
      rw [h1]
      obtain ⟨t', ht'⟩ := ih' t1 errs
      exact ⟨t', by dsimp only; rw [ht', List.filter_cons_of_neg hb]⟩

theorem loadLoop_append {mk : List (Ty String) → Ty String} {w : World P} (es fs : List Entry) :
    ∀ (t t' : OpTable.Table P String Op) (errs errs' : List Nat), loadLoop mk w es t errs = .ok (t', errs') →
      loadLoop mk w (es ++ fs) t errs = loadLoop mk w fs t' errs' := by
  induction es with
  | nil =>
    intro t t' errs errs' h
    rw [loadLoop] at h
    cases h
    rfl
  | cons e es ih =>
    intro t t' errs errs' h
    rw [loadLoop] at h
    rw [List.cons_append, loadLoop]
    cases hr : addEntry mk w t e with
    | mk t1 x =>
      rw [hr] at h
      cases x with
      | none => exact ih _ _ _ _ h
      | some x =>
        cases x with
        | valueError => exact ih _ _ _ _ h
        | keyError => cases h
        | importError => cases h
        | runtimeError l => cases h

/-- **C127.** A table that is read from a file holds an operator for each entry, as specified, and is the table that results from adding them in order
(so that C48 says what lookups give). -/
theorem table_as_specified {h : Ty String → Int} {mk : List (Ty String) → Ty String} (hm : Forms h mk) {w : World P} {es : List Entry}
    {t : OpTable.Table P String Op} (ht : fromYaml mk w es = .ok t) :
    ∃ ops, Operators mk es ops ∧ t = OpTable.run w.env OpTable.Table.empty (uses es ops) := by
  unfold fromYaml at ht
  cases hl : loadLoop mk w es OpTable.Table.empty [] with
  | error x => rw [hl] at ht; cases ht
  | ok r =>
    obtain ⟨t', errs⟩ := r
    rw [hl] at ht
    dsimp only at ht
    split at ht
    · rename_i he
      cases ht
      obtain ⟨new, h1, _, _, h4⟩ := loadLoop_spec hm es _ _ _ _ hl
      rw [he] at h1
      exact h4 (by simpa using h1.symm)
    · cases ht

/-- **C127.** A file with a wrong entry is refused: no table is returned, and if the error is one about the file, it names the line of every wrong entry, and only
lines of entries. -/
theorem wrong_entries_refused {h : Ty String → Int} {mk : List (Ty String) → Ty String} (hm : Forms h mk) {w : World P} {es : List Entry} {e : Entry}
    (he : e ∈ es) (hw : Wrong w e) :
    (∀ t, fromYaml mk w es ≠ .ok t) ∧ ∀ ls, fromYaml mk w es = .error (.runtimeError ls) → e.line ∈ ls ∧ ls.Sublist (es.map Entry.line) := by
  unfold fromYaml
  cases hl : loadLoop mk w es OpTable.Table.empty [] with
  | error x =>
    refine ⟨fun t ht => (nomatch ht), fun ls hls => ?_⟩
    exfalso
    have hx : x = .runtimeError ls := Except.error.inj hls
    have : ∀ (es : List Entry) (t : OpTable.Table P String Op) (errs : List Nat), loadLoop mk w es t errs ≠ .error (.runtimeError ls) := by
      intro es
      induction es with
      | nil => intro t errs h; cases h
      | cons e es ih =>
        intro t errs h
        rw [loadLoop] at h
        cases hr : addEntry mk w t e with
        | mk t1 x =>
          rw [hr] at h
          cases x with
          | none => exact ih _ _ h
          | some x =>
            cases x with
            | valueError => exact ih _ _ h
            | keyError => cases h
            | importError => cases h
            | runtimeError l =>
              unfold addEntry add at hr
              repeat' split at hr
              all_goals cases hr
    exact this es _ _ (hx ▸ hl)
  | ok r =>
    obtain ⟨t', errs⟩ := r
    dsimp only
    obtain ⟨new, h1, h2, h3, _⟩ := loadLoop_spec hm es _ _ _ _ hl
    rw [List.nil_append] at h1
    subst h1
    have hmem := h3 e he hw
    have hne : errs ≠ [] := List.ne_nil_of_mem hmem
    rw [if_neg hne]
    refine ⟨fun t ht => (nomatch ht), fun ls hls => ?_⟩
    cases hls
    exact ⟨hmem, h2⟩

/-- **C127 (partial).** A file of entries that are plain or wrong is read exactly if none is wrong; otherwise the error names the lines of exactly the wrong
entries, in order. Missing: aliases, which can clash with other entries, and `missing_key_aborts`, `missing_fallback_aborts`. -/
theorem file_read_iff_partial {h : Ty String → Int} {mk : List (Ty String) → Ty String} (hm : Forms h mk) {w : World P} {es : List Entry}
    (bad : Entry → Bool) (hall : ∀ e ∈ es, if bad e then Wrong w e else Plain w e) :
    ((∃ t, fromYaml mk w es = .ok t) ↔ ∀ e ∈ es, bad e = false) ∧
      ((∃ e ∈ es, bad e = true) → fromYaml mk w es = .error (.runtimeError ((es.filter bad).map Entry.line))) := by
  obtain ⟨t', ht'⟩ := loadLoop_exact hm bad es OpTable.Table.empty [] hall
  unfold fromYaml
  rw [ht']
  dsimp only
  rw [List.nil_append]
  by_cases hn : (es.filter bad).map Entry.line = []
  · rw [if_pos hn]
    have hn' : ∀ e ∈ es, bad e = false := by
      intro e he
      simpa using (List.filter_eq_nil_iff.1 (List.map_eq_nil_iff.1 hn)) e he
    refine ⟨⟨fun _ => hn', fun _ => ⟨t', rfl⟩⟩, ?_⟩
    rintro ⟨e, he, hb⟩
    rw [hn' e he] at hb
    cases hb
  · rw [if_neg hn]
    refine ⟨⟨?_, ?_⟩, fun _ => rfl⟩
    · rintro ⟨t, ht⟩
      cases ht
    · intro hb
      exact absurd (by rw [List.map_eq_nil_iff, List.filter_eq_nil_iff]; intro e he; simp [hb e he]) hn

/-! ## Deviations -/

/-- **C127, deviation.** `*args` and `**kwargs` of a specification are dropped without a message: the operator is that of the specification without them. -/
theorem star_dropped (mk : List (Ty String) → Ty String) (s : Spec) (f : String) (a b : Option PSpec) :
    fromSpec mk (some { s with star := a, starstar := b }) f = fromSpec mk (some s) f := rfl

/-- **C127, deviation.** A parameter declared as a sequence of quantized tensors, as that of `cat`, does not count as quantized. -/
theorem sequence_not_quantized (mk : List (Ty String) → Ty String) (x : String) (d : Option String) :
    ∃ q, paramOf mk ⟨x, some (.subscript "Sequence" [.name "Quantized"]), d⟩ = .ok q ∧ q.quantized = false :=
  ⟨⟨.gen "List" [.atom "QuantizedTensor"], x, d⟩, rfl, by simp [Param.quantized, contains, eqv]⟩

/-- **C127, deviation.** The documentation's example `conv2d(Tensor, Quantized, Tensor, Quantized) -> Quantized` is refused: types without names are
parameters without annotations. -/
theorem documented_example_refused (mk : List (Ty String) → Ty String) (f : String) :
    fromSpec mk (some ⟨"conv2d", [], [⟨"Tensor", none, none⟩, ⟨"Quantized", none, none⟩, ⟨"Tensor", none, none⟩, ⟨"Quantized", none, none⟩], none, [], none,
      some (.name "Quantized")⟩) f = .error .noAnnotation := rfl

/-- **C127, deviation.** An entry without `op` or without `fallback` ends the reading with a `KeyError`, which does not say where, and the errors found before
are not reported. -/
theorem missing_key_aborts {h : Ty String → Int} {mk : List (Ty String) → Ty String} (hm : Forms h mk) {w : World P} {es fs : List Entry} {e : Entry}
    (bad : Entry → Bool) (hall : ∀ e ∈ es, if bad e then Wrong w e else Plain w e) (he : e.op = none ∨ e.fallback = none) :
    fromYaml mk w (es ++ e :: fs) = .error .keyError := by
  obtain ⟨t', ht'⟩ := loadLoop_exact hm bad es OpTable.Table.empty [] hall
  unfold fromYaml
  rw [loadLoop_append es (e :: fs) _ _ _ _ ht', loadLoop]
  have : addEntry mk w t' e = (t', some .keyError) := by
    unfold addEntry
    rcases he with he | he
    · rw [he]
    · cases ho : e.op with
      | none => rfl
      | some o => dsimp only; rw [he]
  rw [this]

/-- **C127, deviation.** An entry whose fallback cannot be imported ends the reading with an `ImportError`, which does not say where, and the errors found
before are not reported; an alias that cannot be imported is passed over. -/
theorem missing_fallback_aborts {h : Ty String → Int} {mk : List (Ty String) → Ty String} (hm : Forms h mk) {w : World P} {es fs : List Entry} {e : Entry}
    (bad : Entry → Bool) (hall : ∀ e ∈ es, if bad e then Wrong w e else Plain w e) {s : Spec} {f : String} (h1 : e.op = some (some s)) (h2 : e.fallback = some f)
    (h3 : Readable s) (h4 : w.imp f = none) : fromYaml mk w (es ++ e :: fs) = .error .importError := by
  obtain ⟨t', ht'⟩ := loadLoop_exact hm bad es OpTable.Table.empty [] hall
  obtain ⟨op, hop⟩ := (spec_accepted_iff hm (some s) f).2 ⟨s, rfl, h3⟩
  unfold fromYaml
  rw [loadLoop_append es (e :: fs) _ _ _ _ ht', loadLoop]
  have : addEntry mk w t' e = (t', some .importError) := by
    unfold addEntry add
    rw [h1]
    dsimp only
    rw [h2]
    dsimp only
    rw [hop]
    dsimp only
    rw [h4]
  rw [this]

/-- **C127, deviation.** `aliases` with a single name instead of a list has no effect, without a message: each character is taken for a name, and names that
cannot be imported are passed over. -/
theorem single_alias_ignored (mk : List (Ty String) → Ty String) (w : World P) (hw : ∀ c : Char, w.imp (String.singleton c) = none) (t : OpTable.Table P String Op)
    (e : Entry) (name : String) : addEntry mk w t { e with aliases := .str name } = addEntry mk w t { e with aliases := .null } := by
  have hreg : ∀ (cs : List Char) (i : Nat) (t : OpTable.Table P String Op), OpTable.registerAliases w.env i (cs.map String.singleton) t = (t, none) := by
    intro cs i
    induction cs with
    | nil => intro t; rfl
    | cons c cs ih =>
      intro t
      rw [List.map_cons, OpTable.registerAliases, OpTable.registerAlias]
      have : w.env.imp (String.singleton c) = none := hw c
      rw [this]
      exact ih t
  have happ : ∀ op, OpTable.append w.env t op (aliasNames (.str name)) = OpTable.append w.env t op (aliasNames .null) := by
    intro op
    unfold OpTable.append
    cases w.env.imp (w.env.fallback op) with
    | none => rfl
    | some g =>
      dsimp only
      cases t.index g with
      | none => dsimp only [aliasNames]; rw [hreg]; rfl
      | some i => dsimp only [aliasNames]; rw [hreg]; rfl
  unfold addEntry add
  simp only [happ]

/-! ## Concrete cases -/

/-- Unions in order of insertion. -/
def mkPlain (ts : List (Ty String)) : Ty String := .union (toSet (fun _ => 0) (ts.flatMap variants))

theorem mkPlain_forms : Forms (fun _ => 0) mkPlain := fun _ => ⟨_, .refl _, rfl⟩

/-- `linear(input: Quantized, weight: Quantized, bias: Optional[MaybeQuantized] = None, *, groups: int | Size = 1) -> Quantized`. -/
def linear : Spec :=
  ⟨"linear", [], [⟨"input", some (.name "Quantized"), none⟩, ⟨"weight", some (.name "Quantized"), none⟩,
    ⟨"bias", some (.subscript "Optional" [.name "MaybeQuantized"]), some "None"⟩], none, [⟨"groups", some (.bitOr (.name "int") (.name "Size")), some "1"⟩], none,
    some (.name "Quantized")⟩

/-- Without positional-only parameters and readable; `bias` is quantized, `groups` is not. -/
example : linear.posonly = [] ∧ Readable linear ∧
    (match fromSpec mkPlain (some linear) "torch.nn.functional.linear" with
      | .ok op => op.parameters.map (fun q => (q.name, q.default, q.quantized)) = [("input", none, true), ("weight", none, true), ("bias", some "None", true),
          ("groups", some "1", false)] ∧ op.returnsQuantized = true
      | .error _ => False) := by
  refine ⟨rfl, ?_, ?_⟩
  · obtain ⟨s, hs, h⟩ := (spec_accepted_iff mkPlain_forms (some linear) "f").1 ⟨_, rfl⟩
    cases hs
    exact h
  · exact ⟨by decide +kernel, by decide +kernel⟩

/-- Alternatives of a tuple of unions; names that are not known; too many arguments. -/
example : Allows (.subscript "tuple" [.name "Number", .other "..."]) (.gen "Tuple" [.one "Float", .one "EllipsisType"]) ∧
    ¬Meaningful (.name "Tensr") ∧ ¬Meaningful (.subscript "Optional" [.name "int", .name "str"]) := by
  refine ⟨.tuple (by simp) (.cons (.name (ss := [.one "Int", .one "Float"]) (by simp [meaning]) (by simp))
    (.cons (.other (ss := [.one "EllipsisType"]) (by simp [meaning]) (by simp)) .nil)), ?_, ?_⟩
  · rw [← annotation_accepted_iff mkPlain_forms]
    rintro ⟨t, ht⟩
    cases ht
  · rw [← annotation_accepted_iff mkPlain_forms]
    rintro ⟨t, ht⟩
    cases ht

/-- Names of more than one character can be imported; everything but `nothing` can be dispatched to. -/
def world : World Nat := ⟨fun x => if 1 < x.length then some x.length else none, [], fun x => x != "nothing"⟩

/-- A good entry, one with an unknown type, and one without a function to dispatch to. -/
def file : List Entry :=
  [⟨1, some (some linear), some "torch.linear", .null⟩, ⟨4, some (some { linear with ret := some (.name "Tensr") }), some "torch.f", .null⟩,
   ⟨7, some (some { linear with name := "nothing" }), some "torch.g", .null⟩]

/-- The lines 4 and 7 are reported, also with aliases; without these entries the operator is found. -/
example : (match fromYaml mkPlain world file with
      | .error x => some x
      | .ok _ => none) = some (.runtimeError [4, 7]) ∧
    (match fromYaml mkPlain world (file.take 1) with
      | .error _ => none
      | .ok t => (OpTable.get t 12).map (·.map Op.identifier)) = some ["linear"] := by
  constructor <;> decide +kernel

/-- The entries are plain or wrong. -/
example : ∀ e ∈ file, if (e.line != 1) then Wrong world e else Plain world e := by
  have hread : Readable linear := by
    obtain ⟨s, hs, h⟩ := (spec_accepted_iff mkPlain_forms (some linear) "f").1 ⟨_, rfl⟩
    cases hs
    exact h
  simp only [file, List.mem_cons, List.not_mem_nil, or_false, forall_eq_or_imp, forall_eq]
  refine ⟨⟨linear, _, rfl, rfl, hread, by decide +kernel, by decide +kernel, rfl⟩, ⟨_, _, rfl, rfl, by decide +kernel, ?_⟩,
    ⟨_, _, rfl, rfl, by decide +kernel, ?_⟩⟩
  · rintro s ⟨⟩
    refine .inl fun hr => ?_
    obtain ⟨op, hop⟩ := (spec_accepted_iff mkPlain_forms (some _) "f").2 ⟨_, rfl, hr⟩
    cases hop
  · rintro s ⟨⟩
    exact .inr (by decide +kernel)

end FF.OpSpec
