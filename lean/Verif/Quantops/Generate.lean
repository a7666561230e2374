import Verif.Quantops.Symtypes

/-!
# Generated operators

Models `src/fastforward/_quantops/generate.py`, which writes `src/fastforward/_gen/fallback.py` and `operators.py`: for each operator in the table the
functions that users call. The generator is modelled as a function to programs in a small language, and Python's execution of such programs as an
interpreter. Types of parameters are those of `Verif/Quantops/Symtypes.lean`, with strings as names.

Simplifications: the arguments of a call are bound to parameters already (defaults included); iterating over something that is not a list is an
error; parameters are not called like the globals and locals that the code uses (`torch`, `elems__`, …); `cast` at run time does nothing.
-/

namespace FF.Gen

open FF.Symtypes

/-! ## Model -/

/-- `QuantizedTensor`, `Tensor` and `NoneType`: symtypes.py:203-205. -/
abbrev quantT : Ty String := .atom "QuantizedTensor"
/-- See `quantT`. -/
abbrev tensorT : Ty String := .atom "Tensor"
/-- See `quantT`. -/
abbrev noneT : Ty String := .atom "NoneType"

/-- `Parameter`: operator.py:23-31. -/
structure Param where
  name : String
  type : Ty String

/-- The parts of `Operator` that are used: operator.py:43-68. -/
structure Op where
  params : List Param
  returnsQuantized : Bool

/-- Conditions in generated code. -/
inductive Cond
  | strict
  | noQuantizer
  | hasQuantizer
  | notNone (x : String)
  | isQuant (x : String)
  | notQuant (x : String)
  | plainTensor (x : String)

/-- Statements in generated code. -/
inductive Stmt
  /-- `if c₁ and c₂ …: …` -/
  | ite (cs : List Cond) (body : List Stmt)
  /-- `raise QuantizationError(…)` -/
  | raise
  /-- `x = x.dequantize()` -/
  | dequant (x : String)
  /-- `elems__ = []` -/
  | newList
  /-- `for elem__ in x: …` -/
  | forIn (x : String) (body : List Stmt)
  /-- `elems__.append(elem__)` -/
  | append
  /-- `x = elems__` -/
  | assignList (x : String)
  /-- `output = fallback(x=x, y=y, …)` -/
  | call (xs : List String)
  /-- `output = output_quantizer(output)` -/
  | quantize

/-- generate.py:328-383 `_single_param_quantization_guard`. -/
def singleGuard (t : Ty String) (x : String) : List Stmt :=
  let isOptional := contains t noneT && decide (1 < (variants t).length)
  let t' := unwrapOptional "NoneType" t
  let always := eqv t' quantT
  let maybe := contains t' quantT
  let check := maybe && !contains t' tensorT
  if !maybe then []
  else
    let guards := (if check then [.ite [.strict, if always then .notQuant x else .plainTensor x] [.raise]] else []) ++
      [.ite [.isQuant x] [.dequant x]]
    if isOptional then [.ite [.notNone x] guards] else guards

/-- `param.param_type.parameters()[0]`. -/
def firstParam : Ty String → Ty String
  | .gen _ (p :: _) => p
  | .union (p :: _) => p
  | t => t

/-- generate.py:297-325 `_quantizer_list_param_quantization_guard`. -/
def listGuard (t : Ty String) (x : String) : List Stmt :=
  [.newList, .forIn x (singleGuard (firstParam t) "elem__" ++ [.append]), .assignList x]

/-- generate.py:282-294 `_param_quantization_guard`. -/
def guard (t : Ty String) (x : String) : List Stmt :=
  if contains (.union [.gen "List" [.union [tensorT, quantT]], .gen "List" [quantT]]) t then listGuard t x else singleGuard t x

/-- generate.py:386-450 `_fallback_op`: the body without the final `return output`. -/
def fallbackBody (op : Op) : List Stmt :=
  (if op.returnsQuantized then [.ite [.strict, .noQuantizer] [.raise]] else []) ++ op.params.flatMap (fun p => guard p.type p.name) ++
    [.call (op.params.map Param.name), .ite [.hasQuantizer] [.quantize]]

/-! ### Execution -/

/-- Values at run time: tensors, quantized tensors, `None`, lists and other things. -/
inductive Val (T Q O : Type)
  | tensor (t : T)
  | quant (q : Q)
  | none
  | list (vs : List (Val T Q O))
  | other (o : O)

/-- Errors. -/
inductive Err
  | quantization
  | name
  | type
  /-- raised by the operator itself or by the quantizer -/
  | inner

variable {T Q O F : Type}

/-- What the generated code calls: `dequantize`, the operator (with arguments by keyword) and quantizers. -/
structure Sem (T Q O F : Type) where
  deq : Q → T
  call : List (String × Val T Q O) → Except Err (Val T Q O)
  quantize : F → Val T Q O → Except Err (Val T Q O)

/-- Variables. `quantizer`: whether there is a variable `output_quantizer` and if so, its value, possibly `None`. -/
structure Env (T Q O F : Type) where
  vars : String → Option (Val T Q O)
  strict : Bool
  quantizer : Option (Option F)
  elems : List (Val T Q O)
  output : Val T Q O

/-- `x = v`. -/
def Env.set (e : Env T Q O F) (x : String) (v : Val T Q O) : Env T Q O F := { e with vars := fun y => if y = x then some v else e.vars y }

/-- The value of a variable. -/
def Env.get (e : Env T Q O F) (x : String) : Except Err (Val T Q O) :=
  match e.vars x with
  | some v => .ok v
  | Option.none => .error .name

/-- The value of `output_quantizer`. -/
def Env.quantizerVar (e : Env T Q O F) : Except Err (Option F) :=
  match e.quantizer with
  | some f => .ok f
  | Option.none => .error .name

/-- Python's evaluation of the conditions. -/
def evalCond (e : Env T Q O F) : Cond → Except Err Bool
  | .strict => .ok e.strict
  | .noQuantizer => e.quantizerVar.map Option.isNone
  | .hasQuantizer => e.quantizerVar.map Option.isSome
  | .notNone x => (e.get x).map fun | .none => false | _ => true
  | .isQuant x => (e.get x).map fun | .quant _ => true | _ => false
  | .notQuant x => (e.get x).map fun | .quant _ => false | _ => true
  | .plainTensor x => (e.get x).map fun | .tensor _ => true | _ => false

/-- `c₁ and c₂ …`. -/
def evalAnd (e : Env T Q O F) : List Cond → Except Err Bool
  | [] => .ok true
  | c :: cs => (evalCond e c).bind fun b => if b then evalAnd e cs else .ok false

mutual

/-- Python's execution of a statement. -/
def exec (sem : Sem T Q O F) : Stmt → Env T Q O F → Except Err (Env T Q O F)
  | .ite cs body, e => (evalAnd e cs).bind fun b => if b then execs sem body e else .ok e
  | .raise, _ => .error .quantization
  | .dequant x, e => (e.get x).bind fun
    | .quant q => .ok (e.set x (.tensor (sem.deq q)))
    | _ => .error .type
  | .newList, e => .ok { e with elems := [] }
  | .forIn x body, e => (e.get x).bind fun
    | .list vs => vs.foldlM (fun e v => execs sem body (e.set "elem__" v)) e
    | _ => .error .type
  | .append, e => (e.get "elem__").map fun v => { e with elems := e.elems ++ [v] }
  | .assignList x, e => .ok (e.set x (.list e.elems))
  | .call xs, e => (xs.mapM fun x => (e.get x).map fun v => (x, v)).bind fun args => (sem.call args).map fun o => { e with output := o }
  | .quantize, e => e.quantizerVar.bind fun
    | some f => (sem.quantize f e.output).map fun o => { e with output := o }
    | Option.none => .error .type

/-- The same for a block. -/
def execs (sem : Sem T Q O F) : List Stmt → Env T Q O F → Except Err (Env T Q O F)
  | [], e => .ok e
  | s :: ss, e => (exec sem s e).bind (execs sem ss)

end

/-- Call of the generated fallback function, with `args` the values of the parameters; operators that do not return quantized tensors have no parameter
`output_quantizer`. -/
def callFallback (sem : Sem T Q O F) (op : Op) (args : String → Val T Q O) (oq : Option F) (strict : Bool) : Except Err (Val T Q O) :=
  (execs sem (fallbackBody op) { vars := fun x => if x ∈ op.params.map Param.name then some (args x) else Option.none, strict,
                                 quantizer := if op.returnsQuantized then some oq else Option.none, elems := [], output := .none }).map Env.output

/-- generate.py:453-500 `_dispatch_op`: call of the generated operator. `kernel`: what the dispatcher returns for the arguments; `flag`: the global
`get_strict_quantization()`. -/
def callOp (sem : Sem T Q O F) (op : Op)
    (kernel : List (String × Val T Q O) → Option F → Bool → Option (List (String × Val T Q O) → Option F → Bool → Except Err (Val T Q O)))
    (flag : Bool) (args : String → Val T Q O) (oq : Option F) (strict : Option Bool) : Except Err (Val T Q O) :=
  let strict := strict.getD flag
  let params := op.params.map fun p => (p.name, args p.name)
  match kernel params oq strict with
  | some k => k params oq strict
  | Option.none => callFallback sem op args oq strict

/-- A default value in a specification or in generated code: a string literal or other code. -/
inductive Default
  | str (s : String)
  | code (s : String)
  deriving DecidableEq

/-- operator.py:244-249 `_get_default_value`: the content of the string or the code. -/
def getDefault : Default → String
  | .str s => s
  | .code s => s

/-- generate.py:153-173 `_parameter`: the default in the generated function. Simplification: the string has no quotes or backslashes. -/
def genDefault (t : Ty String) (d : String) : Default := if eqv t (.atom "String") then .str d else .code d

/-! ## Specification -/

mutual

/-- All quantized tensors in a value dequantized. -/
def Val.strip (deq : Q → T) : Val T Q O → Val T Q O
  | .quant q => .tensor (deq q)
  | .list vs => .list (stripL deq vs)
  | v => v

/-- The same for the elements of lists. -/
def stripL (deq : Q → T) : List (Val T Q O) → List (Val T Q O)
  | [] => []
  | v :: vs => v.strip deq :: stripL deq vs

end

/-- Values that may be given for a parameter type. If not `strict`, a plain tensor may be given in place of a quantized one. -/
inductive Fits (strict : Bool) : Val T Q O → Ty String → Prop
  | quant {q} : Fits strict (.quant q) (.atom "QuantizedTensor")
  | tensor {t} : Fits strict (.tensor t) (.atom "Tensor")
  | lax {t} : strict = false → Fits strict (.tensor t) (.atom "QuantizedTensor")
  | none : Fits strict .none (.atom "NoneType")
  | other {o a} : a ≠ "QuantizedTensor" → a ≠ "Tensor" → a ≠ "NoneType" → Fits strict (.other o) (.atom a)
  | list {g ps vs} (f : Val T Q O → Ty String) : (∀ v ∈ vs, f v ∈ ps) → (∀ v ∈ vs, Fits strict v (f v)) → Fits strict (.list vs) (.gen g ps)
  | union {v ps p} : p ∈ ps → Fits strict v p → Fits strict v (.union ps)

/-- No quantized tensors in values of the type. -/
inductive NoQuant : Ty String → Prop
  | atom {a} : a ≠ "QuantizedTensor" → NoQuant (.atom a)
  | gen {g ps} : (∀ p ∈ ps, NoQuant p) → NoQuant (.gen g ps)
  | union {ps} : (∀ p ∈ ps, NoQuant p) → NoQuant (.union ps)

/-- Types for which code can be generated: quantized tensors do not occur in other generics than sequences of `Quantized` or `MaybeQuantized`, and these are
no alternatives of others. -/
inductive Plain : Ty String → Prop
  | atom {a} : Plain (.atom a)
  | gen {g ps} : (∀ p ∈ ps, NoQuant p) → Plain (.gen g ps)
  | union {ps a} : .atom a ∈ ps → (∀ p ∈ ps, (∃ a, p = .atom a) ∨ ∃ g qs, p = .gen g qs ∧ ∀ q ∈ qs, NoQuant q) → Plain (.union ps)
  | quantized : Plain (.gen "List" [.atom "QuantizedTensor"])
  | maybe {ps} : .atom "QuantizedTensor" ∈ ps → .atom "Tensor" ∈ ps → (∀ p ∈ ps, p = .atom "QuantizedTensor" ∨ p = .atom "Tensor") →
      Plain (.gen "List" [.union ps])

/-! ## Lemmas -/

theorem stripL_eq (deq : Q → T) (vs : List (Val T Q O)) : stripL deq vs = vs.map (·.strip deq) := by
  induction vs with
  | nil => rfl
  | cons v vs ih => simp [stripL, ih]

theorem eqv_atom (t : Ty String) (a : String) : eqv t (.atom a) = true ↔ t = .atom a := by
  cases t <;> simp [eqv]

theorem anyEq_atom (ps : List (Ty String)) (a : String) : anyEq ps (.atom a) = true ↔ .atom a ∈ ps := by
  rw [anyEq_iff]
  constructor
  · rintro ⟨p, hp, h⟩
    rwa [(eqv_atom p a).1 h] at hp
  · exact fun h => ⟨_, h, (eqv_atom _ _).2 rfl⟩

/-- `a` is one of the alternatives of a type. -/
def Alt : Ty String → String → Prop
  | .atom b, a => b = a
  | .union ps, a => .atom a ∈ ps
  | .gen _ _, _ => False

theorem contains_atom (t : Ty String) (a : String) : contains t (.atom a) = true ↔ Alt t a := by
  cases t with
  | atom b => simp [contains, eqv, Alt, eq_comm]
  | gen g ps => simp [contains, eqv, Alt]
  | union ps => simp only [contains, anyEq_atom, Alt]

/-- No alternative is a union. -/
def FlatAlts : Ty String → Prop
  | .union ps => ∀ p ∈ ps, Single p
  | _ => True

theorem unwrap_alt {t : Ty String} (hf : FlatAlts t) {a : String} (ha : a ≠ "NoneType") : contains (unwrapOptional "NoneType" t) (.atom a) = true ↔ Alt t a := by
  cases t with
  | atom b => exact contains_atom _ _
  | gen g ps => exact contains_atom _ _
  | union ps =>
    simp only [unwrapOptional]
    split
    · have hm : .atom a ∈ ps.filter (fun p => !eqv p noneT) ↔ .atom a ∈ ps := by
        rw [List.mem_filter]
        simp [eqv, ha]
      split
      · rename_i p hp
        have hs : Single p := hf p (List.mem_of_mem_filter (by rw [hp]; exact List.mem_singleton_self p))
        rw [contains_atom]
        change Alt p a ↔ .atom a ∈ ps
        rw [← hm, hp, List.mem_singleton]
        cases p with
        | atom b => simp [Alt, eq_comm]
        | gen g qs => simp [Alt]
        | union qs => exact absurd hs (by simp [Single])
      · rw [contains_atom]
        exact hm
    · exact contains_atom _ _

theorem unwrap_always {t : Ty String} (h : eqv (unwrapOptional "NoneType" t) quantT = true) : t = quantT ∨ ∃ ps, t = .union ps ∧
    ∀ p ∈ ps, p = quantT ∨ p = noneT := by
  rw [eqv_atom] at h
  cases t with
  | atom b => exact .inl h
  | gen g ps => exact .inl h
  | union ps =>
    refine .inr ⟨ps, rfl, fun p hp => ?_⟩
    simp only [unwrapOptional] at h
    split at h
    · split at h
      · rename_i q hq
        by_cases hn : eqv p noneT = true
        · exact .inr ((eqv_atom _ _).1 hn)
        · have : p ∈ ps.filter (fun p => !eqv p noneT) := List.mem_filter.2 ⟨hp, by simpa using hn⟩
          rw [hq, List.mem_singleton] at this
          exact .inl (this.trans h)
      · cases h
    · cases h

theorem fits_noQuant {s : Bool} {v : Val T Q O} {t : Ty String} (deq : Q → T) (h : Fits s v t) (hn : NoQuant t) : v.strip deq = v ∧ Fits true v t := by
  induction h with
  | quant => cases hn with | atom h => exact absurd rfl h
  | tensor => exact ⟨rfl, .tensor⟩
  | lax => cases hn with | atom h => exact absurd rfl h
  | none => exact ⟨rfl, .none⟩
  | other h1 h2 h3 => exact ⟨rfl, .other h1 h2 h3⟩
  | @list g ps vs f h1 _ ih =>
    cases hn with
    | gen hn =>
      refine ⟨?_, .list f h1 fun v hv => (ih v hv (hn _ (h1 v hv))).2⟩
      simp only [Val.strip, stripL_eq]
      congr 1
      conv => rhs; rw [← List.map_id vs]
      exact List.map_congr_left fun v hv => (ih v hv (hn _ (h1 v hv))).1
  | union h1 _ ih =>
    cases hn with
    | union hn => exact ⟨(ih (hn _ h1)).1, .union h1 (ih (hn _ h1)).2⟩

theorem noQuant_alt {t : Ty String} (h : NoQuant t) : ¬ Alt t "QuantizedTensor" := by
  cases h with
  | atom h => exact h
  | gen => exact id
  | union h => exact fun hm => by cases h _ hm with | atom h => exact h rfl

/-- Plain types without the sequences. -/
inductive Simple : Ty String → Prop
  | atom {a} : Simple (.atom a)
  | gen {g ps} : (∀ p ∈ ps, NoQuant p) → Simple (.gen g ps)
  | union {ps} : (∀ p ∈ ps, (∃ a, p = .atom a) ∨ ∃ g qs, p = .gen g qs ∧ ∀ q ∈ qs, NoQuant q) → Simple (.union ps)

theorem Simple.flatAlts {t : Ty String} (h : Simple t) : FlatAlts t := by
  cases h with
  | atom => trivial
  | gen => trivial
  | union h =>
    intro p hp
    rcases h p hp with ⟨a, rfl⟩ | ⟨g, qs, rfl, -⟩ <;> trivial

/-- A fitting value by cases. -/
theorem fits_simple {s : Bool} {v : Val T Q O} {t : Ty String} (deq : Q → T) (h : Fits s v t) (ht : Simple t) :
    (∃ q, v = .quant q ∧ Alt t "QuantizedTensor") ∨ (∃ x, v = .tensor x ∧ (Alt t "Tensor" ∨ s = false ∧ Alt t "QuantizedTensor")) ∨
      (v = .none ∧ Alt t "NoneType") ∨ (v.strip deq = v ∧ Fits true v t ∧ ((∃ o, v = .other o) ∨ ∃ vs, v = .list vs) ∧
        t ≠ quantT ∧ ∀ ps, t = .union ps → ∃ p ∈ ps, p ≠ quantT ∧ p ≠ noneT) := by
  have key : ∀ {v : Val T Q O} {a : String}, Fits s v (.atom a) → (∃ q, v = .quant q ∧ a = "QuantizedTensor") ∨
      (∃ x, v = .tensor x ∧ (a = "Tensor" ∨ s = false ∧ a = "QuantizedTensor")) ∨ (v = .none ∧ a = "NoneType") ∨
      ((∃ o, v = .other o) ∧ a ≠ "QuantizedTensor" ∧ a ≠ "Tensor" ∧ a ≠ "NoneType") := by
    intro v a h
    cases h with
    | quant => exact .inl ⟨_, rfl, rfl⟩
    | tensor => exact .inr (.inl ⟨_, rfl, .inl rfl⟩)
    | lax h => exact .inr (.inl ⟨_, rfl, .inr ⟨h, rfl⟩⟩)
    | none => exact .inr (.inr (.inl ⟨rfl, rfl⟩))
    | other h1 h2 h3 => exact .inr (.inr (.inr ⟨⟨_, rfl⟩, h1, h2, h3⟩))
  cases ht with
  | @atom a =>
    rcases key h with ⟨q, rfl, rfl⟩ | ⟨x, rfl, h'⟩ | ⟨rfl, rfl⟩ | ⟨⟨o, rfl⟩, h1, h2, h3⟩
    · exact .inl ⟨q, rfl, rfl⟩
    · exact .inr (.inl ⟨x, rfl, h'⟩)
    · exact .inr (.inr (.inl ⟨rfl, rfl⟩))
    · exact .inr (.inr (.inr ⟨rfl, .other h1 h2 h3, .inl ⟨o, rfl⟩, by simp [h1], by simp⟩))
  | gen hn =>
    obtain ⟨h1, h2⟩ := fits_noQuant deq h (.gen hn)
    cases h with
    | list => exact .inr (.inr (.inr ⟨h1, h2, .inr ⟨_, rfl⟩, by simp, by simp⟩))
  | @union ps hu =>
    cases h with
    | @union _ _ p hp h =>
      rcases hu p hp with ⟨a, rfl⟩ | ⟨g, qs, rfl, hn⟩
      · rcases key h with ⟨q, rfl, rfl⟩ | ⟨x, rfl, h'⟩ | ⟨rfl, rfl⟩ | ⟨⟨o, rfl⟩, h1, h2, h3⟩
        · exact .inl ⟨q, rfl, hp⟩
        · refine .inr (.inl ⟨x, rfl, ?_⟩)
          rcases h' with rfl | ⟨h', rfl⟩
          · exact .inl hp
          · exact .inr ⟨h', hp⟩
        · exact .inr (.inr (.inl ⟨rfl, hp⟩))
        · refine .inr (.inr (.inr ⟨rfl, .union hp (.other h1 h2 h3), .inl ⟨o, rfl⟩, by simp, ?_⟩))
          rintro ps' he
          cases he
          exact ⟨_, hp, by simp [h1], by simp [h3]⟩
      · obtain ⟨h1, h2⟩ := fits_noQuant deq h (.gen hn)
        cases h with
        | list =>
          refine .inr (.inr (.inr ⟨h1, .union hp h2, .inr ⟨_, rfl⟩, by simp, ?_⟩))
          rintro ps' he
          cases he
          exact ⟨_, hp, by simp, by simp⟩

theorem Simple.fits_alt {t : Ty String} {a : String} (h : Alt t a) {s : Bool} {v : Val T Q O} (hv : Fits s v (.atom a)) : Fits s v t := by
  cases t with
  | atom b =>
    change b = a at h
    rwa [h]
  | gen => cases h
  | union ps => exact .union h hv

theorem fits_tensor {t : Ty String} (deq : Q → T) (ht : Simple t) {x : T} : Fits true (.tensor x : Val T Q O) t ↔ Alt t "Tensor" := by
  constructor
  · intro h
    rcases fits_simple deq h ht with ⟨q, h, -⟩ | ⟨y, -, h | ⟨h, -⟩⟩ | ⟨h, -⟩ | ⟨-, -, ⟨o, h⟩ | ⟨vs, h⟩, -⟩
    · cases h
    · exact h
    · cases h
    · cases h
    · cases h
    · cases h
  · exact fun h => Simple.fits_alt h .tensor

theorem set_self {e : Env T Q O F} {x : String} {v : Val T Q O} (h : e.vars x = some v) : e.set x v = e := by
  have : (fun y => if y = x then some v else e.vars y) = e.vars := by
    funext y
    by_cases hy : y = x
    · simp [hy, h]
    · simp [hy]
  simp [Env.set, this]

theorem get_eq {e : Env T Q O F} {x : String} {v : Val T Q O} (h : e.vars x = some v) : e.get x = .ok v := by
  simp [Env.get, h]

theorem execs_append (sem : Sem T Q O F) (a b : List Stmt) (e : Env T Q O F) : execs sem (a ++ b) e = (execs sem a e).bind (execs sem b) := by
  induction a generalizing e with
  | nil => rfl
  | cons s a ih =>
    simp only [List.cons_append, execs]
    cases exec sem s e with
    | error => rfl
    | ok e' => exact ih e'

/-- The checks and the conversion without the test for `None`. -/
theorem guards_exec (sem : Sem T Q O F) (check always : Bool) (x : String) (e : Env T Q O F) (v : Val T Q O) (hv : e.vars x = some v) :
    let guards : List Stmt := (if check then [.ite [.strict, if always then .notQuant x else .plainTensor x] [.raise]] else []) ++
      [.ite [.isQuant x] [.dequant x]]
    (∀ q, v = .quant q → execs sem guards e = .ok (e.set x (.tensor (sem.deq q)))) ∧
    (∀ t, v = .tensor t → execs sem guards e = if check && e.strict then .error .quantization else .ok e) ∧
    (((∃ o, v = .other o) ∨ ∃ vs, v = .list vs) → always = false → execs sem guards e = .ok e) := by
  have hg := get_eq hv
  refine ⟨?_, ?_, ?_⟩
  · rintro q rfl
    cases check <;> cases always <;> cases hs : e.strict <;>
      simp [execs, exec, evalAnd, evalCond, hg, hs, Except.bind, Except.map]
  · rintro t rfl
    cases check <;> cases always <;> cases hs : e.strict <;>
      simp [execs, exec, evalAnd, evalCond, hg, hs, Except.bind, Except.map]
  · rintro h rfl
    rcases h with ⟨o, rfl⟩ | ⟨vs, rfl⟩ <;> cases check <;> cases hs : e.strict <;>
      simp [execs, exec, evalAnd, evalCond, hg, hs, Except.bind, Except.map]

theorem single_exec (sem : Sem T Q O F) {t : Ty String} (ht : Simple t) {x : String} {e : Env T Q O F} {v : Val T Q O} (hv : e.vars x = some v)
    (hf : Fits false v t) : (e.strict = true → ¬ Fits true v t → execs sem (singleGuard t x) e = .error .quantization) ∧
      ((e.strict = true → Fits true v t) → execs sem (singleGuard t x) e = .ok (e.set x (v.strip sem.deq))) := by
  have hq := unwrap_alt ht.flatAlts (a := "QuantizedTensor") (by decide)
  have htn := unwrap_alt ht.flatAlts (a := "Tensor") (by decide)
  have hn := contains_atom t "NoneType"
  by_cases hQ : Alt t "QuantizedTensor"
  · have hm : contains (unwrapOptional "NoneType" t) quantT = true := hq.2 hQ
    unfold singleGuard
    simp only [hm, Bool.not_true, Bool.false_eq_true, if_false, Bool.true_and]
    obtain ⟨g1, g2, g3⟩ := guards_exec sem (!contains (unwrapOptional "NoneType" t) tensorT) (eqv (unwrapOptional "NoneType" t) quantT) x e v hv
    generalize hG : ((if (!contains (unwrapOptional "NoneType" t) tensorT) = true then
        [Stmt.ite [.strict, if eqv (unwrapOptional "NoneType" t) quantT = true then .notQuant x else .plainTensor x] [.raise]] else []) ++
      [Stmt.ite [.isQuant x] [.dequant x]]) = G at g1 g2 g3 ⊢
    -- the test for `None`
    have hopt : v ≠ .none → execs sem (if (contains t noneT && decide (1 < (variants t).length)) = true then [.ite [.notNone x] G] else G) e =
        execs sem G e := by
      intro hvn
      split
      · have : evalCond e (.notNone x) = .ok true := by
          simp only [evalCond, get_eq hv]
          cases v <;> first | rfl | exact absurd rfl hvn
        simp only [execs, exec, evalAnd, this, Except.bind, if_true]
        cases execs sem G e <;> rfl
      · rfl
    rcases fits_simple sem.deq hf ht with ⟨q, rfl, -⟩ | ⟨y, rfl, h⟩ | ⟨rfl, h⟩ | ⟨h1, h2, h3, h4, h5⟩
    · rw [hopt (by simp)]
      have : Fits true (.quant q : Val T Q O) t := Simple.fits_alt hQ .quant
      exact ⟨fun _ h => absurd this h, fun _ => g1 q rfl⟩
    · rw [hopt (by simp), g2 y rfl]
      rw [fits_tensor sem.deq ht, set_self (v := (Val.tensor y).strip sem.deq) hv]
      by_cases hT : Alt t "Tensor"
      · have : contains (unwrapOptional "NoneType" t) tensorT = true := htn.2 hT
        simp [this, hT]
      · have : contains (unwrapOptional "NoneType" t) tensorT = false := by
          rw [Bool.eq_false_iff]; exact fun h => hT (htn.1 h)
        simp only [this, Bool.not_false, Bool.true_and]
        refine ⟨fun hs _ => by simp [hs], fun hs => ?_⟩
        have : e.strict = false := by
          rw [Bool.eq_false_iff]; exact fun h => hT (hs h)
        simp [this]
    · have hl : (contains t noneT && decide (1 < (variants t).length)) = true := by
        rw [Bool.and_eq_true, decide_eq_true_eq]
        refine ⟨hn.2 h, ?_⟩
        cases t with
        | atom a =>
          change a = _ at h
          change a = _ at hQ
          rw [h] at hQ
          exact absurd hQ (by decide)
        | gen => cases h
        | union ps =>
          change noneT ∈ ps at h
          change quantT ∈ ps at hQ
          simp only [variants]
          match ps, h, hQ with
          | [p], h, hQ =>
            rw [List.mem_singleton] at h hQ
            rw [← hQ] at h
            exact absurd h (by simp)
          | _ :: _ :: _, _, _ => simp
      rw [if_pos hl]
      have hfit : Fits true (.none : Val T Q O) t := Simple.fits_alt h .none
      refine ⟨fun _ h => absurd hfit h, fun _ => ?_⟩
      rw [set_self (v := (Val.none : Val T Q O).strip sem.deq) hv]
      simp [execs, exec, evalAnd, evalCond, get_eq hv, Except.bind, Except.map]
    · refine ⟨fun _ h => absurd h2 h, fun _ => ?_⟩
      have hvn : v ≠ .none := by
        rcases h3 with ⟨o, rfl⟩ | ⟨vs, rfl⟩ <;> simp
      rw [hopt hvn, h1, set_self hv]
      refine g3 h3 ?_
      rw [Bool.eq_false_iff]
      intro ha
      rcases unwrap_always ha with rfl | ⟨ps, rfl, hp⟩
      · exact h4 rfl
      · obtain ⟨p, hp', h6, h7⟩ := h5 ps rfl
        rcases hp p hp' with rfl | rfl
        · exact h6 rfl
        · exact h7 rfl
  · have hm : contains (unwrapOptional "NoneType" t) quantT = false := by
      rw [Bool.eq_false_iff]; exact fun h => hQ (hq.1 h)
    have hG : singleGuard t x = [] := by simp [singleGuard, hm]
    have hgood : v.strip sem.deq = v ∧ Fits true v t := by
      rcases fits_simple sem.deq hf ht with ⟨q, rfl, h⟩ | ⟨y, rfl, h | ⟨-, h⟩⟩ | ⟨rfl, h⟩ | ⟨h1, h2, -⟩
      · exact absurd h hQ
      · exact ⟨rfl, Simple.fits_alt h .tensor⟩
      · exact absurd h hQ
      · exact ⟨rfl, Simple.fits_alt h .none⟩
      · exact ⟨h1, h2⟩
    rw [hG, hgood.1, set_self hv]
    exact ⟨fun _ h => absurd hgood.2 h, fun _ => rfl⟩

/-- What a guard does: `x` gets the converted value, other variables (besides `elem__`) stay. -/
structure Does (e e' : Env T Q O F) (x : String) (v : Val T Q O) : Prop where
  var : e'.vars x = some v
  rest : ∀ y, y ≠ x → y ≠ "elem__" → e'.vars y = e.vars y
  strict : e'.strict = e.strict
  quantizer : e'.quantizer = e.quantizer

theorem loop_exec (sem : Sem T Q O F) {t : Ty String} (ht : Simple t) (vs : List (Val T Q O)) (e : Env T Q O F) (hf : ∀ v ∈ vs, Fits false v t) :
    (e.strict = true → (∃ v ∈ vs, ¬ Fits true v t) →
      vs.foldlM (fun e v => execs sem (singleGuard t "elem__" ++ [.append]) (e.set "elem__" v)) e = .error .quantization) ∧
    ((e.strict = true → ∀ v ∈ vs, Fits true v t) →
      ∃ e', vs.foldlM (fun e v => execs sem (singleGuard t "elem__" ++ [.append]) (e.set "elem__" v)) e = .ok e' ∧
        e'.elems = e.elems ++ vs.map (·.strip sem.deq) ∧ (∀ y, y ≠ "elem__" → e'.vars y = e.vars y) ∧ e'.strict = e.strict ∧
        e'.quantizer = e.quantizer) := by
  induction vs generalizing e with
  | nil => exact ⟨fun _ h => by simp at h, fun _ => ⟨e, rfl, by simp, fun _ _ => rfl, rfl, rfl⟩⟩
  | cons v vs ih =>
    have hset : (e.set "elem__" v).vars "elem__" = some v := by simp [Env.set]
    obtain ⟨s1, s2⟩ := single_exec sem ht hset (hf v (List.mem_cons_self ..))
    have hgood : (e.strict = true → Fits true v t) → execs sem (singleGuard t "elem__" ++ [.append]) (e.set "elem__" v) =
        .ok { (e.set "elem__" v).set "elem__" (v.strip sem.deq) with elems := e.elems ++ [v.strip sem.deq] } := by
      intro h
      rw [execs_append, s2 h]
      simp [Except.bind, execs, exec, Env.get, Env.set, Except.map]
    obtain ⟨i1, i2⟩ := ih { (e.set "elem__" v).set "elem__" (v.strip sem.deq) with elems := e.elems ++ [v.strip sem.deq] }
      fun v hv => hf v (List.mem_cons_of_mem _ hv)
    rw [List.foldlM_cons]
    constructor
    · intro hs hx
      by_cases hv : Fits true v t
      · rw [hgood fun _ => hv]
        refine i1 hs ?_
        obtain ⟨w, hw, hw'⟩ := hx
        rcases List.mem_cons.1 hw with rfl | hw
        · exact absurd hv hw'
        · exact ⟨w, hw, hw'⟩
      · rw [execs_append, s1 hs hv]
        rfl
    · intro hall
      rw [hgood fun hs => hall hs v (List.mem_cons_self ..)]
      obtain ⟨e', h1, h2, h3, h4, h5⟩ := i2 (fun hs w hw => hall hs w (List.mem_cons_of_mem _ hw))
      refine ⟨e', h1, by rw [h2]; simp, fun y hy => by rw [h3 y hy]; simp [Env.set, hy], h4, h5⟩

theorem list_exec (sem : Sem T Q O F) {g : String} {t : Ty String} (ht : Simple t) {x : String} {e : Env T Q O F} {v : Val T Q O}
    (hv : e.vars x = some v) (hf : Fits false v (.gen g [t])) :
    (e.strict = true → ¬ Fits true v (.gen g [t]) → execs sem (listGuard (.gen g [t]) x) e = .error .quantization) ∧
      ((e.strict = true → Fits true v (.gen g [t])) → ∃ e', execs sem (listGuard (.gen g [t]) x) e = .ok e' ∧ Does e e' x (v.strip sem.deq)) := by
  cases hf with
  | @list _ _ vs f h1 h2 =>
    have h2' : ∀ w ∈ vs, Fits false w t := fun w hw => by
      have := h2 w hw
      rwa [List.mem_singleton.1 (h1 w hw)] at this
    have hfit : Fits true (.list vs : Val T Q O) (.gen g [t]) ↔ ∀ w ∈ vs, Fits true w t := by
      constructor
      · intro h
        cases h with
        | list f h1 h2 =>
          intro w hw
          have := h2 w hw
          rwa [List.mem_singleton.1 (h1 w hw)] at this
      · exact fun h => .list (fun _ => t) (fun _ _ => List.mem_singleton_self t) h
    obtain ⟨l1, l2⟩ := loop_exec sem ht vs { e with elems := [] } h2'
    have hex : execs sem (listGuard (.gen g [t]) x) e =
        (vs.foldlM (fun e v => execs sem (singleGuard t "elem__" ++ [.append]) (e.set "elem__" v)) { e with elems := [] }).bind fun e =>
          .ok (e.set x (.list e.elems)) := by
      have hg : Env.get { e with elems := [] } x = .ok (.list vs) := get_eq hv
      simp only [listGuard, firstParam, execs, exec, Except.bind, hg]
    rw [hex, hfit]
    constructor
    · intro hs hn
      have : ∃ w ∈ vs, ¬ Fits true w t := by
        by_cases h : ∃ w ∈ vs, ¬ Fits true w t
        · exact h
        · exact absurd (fun w hw => Classical.byContradiction fun hc => h ⟨w, hw, hc⟩) hn
      rw [l1 hs this]
      rfl
    · intro hall
      obtain ⟨e', h3, h4, h5, h6, h7⟩ := l2 hall
      rw [h3]
      refine ⟨_, rfl, ?_, ?_, h6, h7⟩
      · simp only [Env.set, if_true, h4, List.nil_append, Val.strip, stripL_eq]
      · intro y hy hy'
        simp only [Env.set, if_neg hy]
        exact h5 y hy'

theorem atom_eqv (a : String) (q : Ty String) : eqv (.atom a) q = true ↔ q = .atom a := by
  cases q with
  | atom b => simp [eqv, eq_comm]
  | gen => simp [eqv]
  | union => simp [eqv]

theorem gen_eqv (g h : String) (ps qs : List (Ty String)) : eqv (.gen g ps) (.gen h qs) = true ↔ g = h ∧ eqvs ps qs = true := by
  rw [eqv]
  simp

theorem eqvs_singleton (q : Ty String) (ps : List (Ty String)) : eqvs [q] ps = true ↔ ∃ t, ps = [t] ∧ eqv q t = true := by
  match ps with
  | [t] =>
    rw [eqvs, eqvs]
    simp
  | [] => simp [eqvs]
  | [_, _] => simp [eqvs]
  | _ :: _ :: _ :: _ => simp [eqvs]

theorem union_eqv (qs : List (Ty String)) : eqv (.union [tensorT, quantT]) (.union qs) = true ↔ ∀ q ∈ qs, q = quantT ∨ q = tensorT := by
  rw [eqv, List.all_eq_true]
  refine forall_congr' fun q => imp_congr_right fun _ => ?_
  rw [anyEq_iff]
  constructor
  · rintro ⟨p, hp, h⟩
    rcases List.mem_cons.1 hp with rfl | hp
    · exact .inr ((atom_eqv _ _).1 h)
    · rw [List.mem_singleton.1 hp] at h
      exact .inl ((atom_eqv _ _).1 h)
  · rintro (rfl | rfl)
    · exact ⟨quantT, by simp, eqv_refl _⟩
    · exact ⟨tensorT, by simp, eqv_refl _⟩

/-- Which types are treated as lists. -/
theorem isList_iff (t : Ty String) (ht : Single t) :
    contains (.union [.gen "List" [.union [tensorT, quantT]], .gen "List" [quantT]]) t = true ↔
      t = .gen "List" [quantT] ∨ ∃ qs, t = .gen "List" [.union qs] ∧ ∀ q ∈ qs, q = quantT ∨ q = tensorT := by
  have h0 : contains (.union [.gen "List" [.union [tensorT, quantT]], .gen "List" [quantT]]) t =
      anyEq [.gen "List" [.union [tensorT, quantT]], .gen "List" [quantT]] t := by
    cases t with
    | atom => rfl
    | gen => rfl
    | union => exact absurd ht (by simp [Single])
  rw [h0, anyEq_iff]
  constructor
  · rintro ⟨p, hp, h⟩
    cases t with
    | atom =>
      rcases List.mem_cons.1 hp with rfl | hp
      · simp [eqv] at h
      · rw [List.mem_singleton.1 hp] at h
        simp [eqv] at h
    | union => exact absurd ht (by simp [Single])
    | gen g ps =>
      rcases List.mem_cons.1 hp with rfl | hp
      · obtain ⟨rfl, h'⟩ := (gen_eqv _ _ _ _).1 h
        clear h
        obtain ⟨t, rfl, h⟩ := (eqvs_singleton _ _).1 h'
        clear h'
        cases t with
        | atom => simp [eqv] at h
        | gen => simp [eqv] at h
        | union qs => exact .inr ⟨qs, rfl, (union_eqv qs).1 h⟩
      · rw [List.mem_singleton.1 hp] at h
        obtain ⟨rfl, h'⟩ := (gen_eqv _ _ _ _).1 h
        clear h
        obtain ⟨t, rfl, h⟩ := (eqvs_singleton _ _).1 h'
        rw [(atom_eqv _ _).1 h]
        exact .inl rfl
  · rintro (rfl | ⟨qs, rfl, h⟩)
    · exact ⟨_, by simp, eqv_refl _⟩
    · exact ⟨.gen "List" [.union [tensorT, quantT]], by simp, (gen_eqv _ _ _ _).2 ⟨rfl, (eqvs_singleton _ _).2 ⟨_, rfl, (union_eqv qs).2 h⟩⟩⟩

theorem guard_exec (sem : Sem T Q O F) {t : Ty String} (ht : Plain t) {x : String} {e : Env T Q O F} {v : Val T Q O}
    (hv : e.vars x = some v) (hf : Fits false v t) :
    (e.strict = true → ¬ Fits true v t → execs sem (guard t x) e = .error .quantization) ∧
      ((e.strict = true → Fits true v t) → ∃ e', execs sem (guard t x) e = .ok e' ∧ Does e e' x (v.strip sem.deq)) := by
  have single : Simple t → guard t x = singleGuard t x →
      (e.strict = true → ¬ Fits true v t → execs sem (guard t x) e = .error .quantization) ∧
      ((e.strict = true → Fits true v t) → ∃ e', execs sem (guard t x) e = .ok e' ∧ Does e e' x (v.strip sem.deq)) := by
    intro hs hg
    rw [hg]
    obtain ⟨s1, s2⟩ := single_exec sem hs hv hf
    exact ⟨s1, fun h => ⟨_, s2 h, by simp [Env.set], fun y hy _ => by simp [Env.set, hy], rfl, rfl⟩⟩
  cases ht with
  | @atom a =>
    refine single .atom ?_
    unfold guard
    rw [if_neg]
    rw [isList_iff _ (by simp [Single])]
    simp
  | @gen g ps hn =>
    by_cases hc : contains (.union [.gen "List" [.union [tensorT, quantT]], .gen "List" [quantT]]) (.gen g ps) = true
    · have hg : guard (.gen g ps) x = listGuard (.gen g ps) x := by simp only [guard, if_pos hc]
      rw [hg]
      rcases (isList_iff _ (by simp [Single])).1 hc with h | ⟨qs, h, hq⟩
      · cases h
        exact list_exec sem .atom hv hf
      · cases h
        refine list_exec sem (.union fun p hp => .inl ?_) hv hf
        rcases hq p hp with rfl | rfl <;> exact ⟨_, rfl⟩
    · exact single (.gen hn) (by simp only [guard, if_neg hc])
  | @union ps a ha hp =>
    refine single (.union hp) ?_
    have hc : ¬ contains (.union [.gen "List" [.union [tensorT, quantT]], .gen "List" [quantT]]) (.union ps) = true := by
      rw [contains, List.all_eq_true]
      intro h
      have := (anyEq_atom _ _).1 (h _ ha)
      simp at this
    simp only [guard, if_neg hc]
  | quantized =>
    have hg : guard (.gen "List" [quantT]) x = listGuard (.gen "List" [quantT]) x := by
      unfold guard
      rw [if_pos ((isList_iff _ (by simp [Single])).2 (.inl rfl))]
    rw [hg]
    exact list_exec sem .atom hv hf
  | @maybe ps h1 h2 h3 =>
    have hg : guard (.gen "List" [.union ps]) x = listGuard (.gen "List" [.union ps]) x := by
      unfold guard
      rw [if_pos ((isList_iff _ (by simp [Single])).2 (.inr ⟨ps, rfl, h3⟩))]
    rw [hg]
    refine list_exec sem (.union fun p hp => .inl ?_) hv hf
    rcases h3 p hp with rfl | rfl <;> exact ⟨_, rfl⟩

theorem params_exec (sem : Sem T Q O F) (args : String → Val T Q O) (ps : List Param) (hp : ∀ p ∈ ps, Plain p.type) (hn : (ps.map Param.name).Nodup)
    (he : "elem__" ∉ ps.map Param.name) (hf : ∀ p ∈ ps, Fits false (args p.name) p.type) (e : Env T Q O F)
    (hv : ∀ p ∈ ps, e.vars p.name = some (args p.name)) :
    (e.strict = true → (∃ p ∈ ps, ¬ Fits true (args p.name) p.type) → execs sem (ps.flatMap fun p => guard p.type p.name) e = .error .quantization) ∧
    ((e.strict = true → ∀ p ∈ ps, Fits true (args p.name) p.type) → ∃ e', execs sem (ps.flatMap fun p => guard p.type p.name) e = .ok e' ∧
      (∀ p ∈ ps, e'.vars p.name = some ((args p.name).strip sem.deq)) ∧ (∀ y, y ∉ ps.map Param.name → y ≠ "elem__" → e'.vars y = e.vars y) ∧
      e'.strict = e.strict ∧ e'.quantizer = e.quantizer) := by
  induction ps generalizing e with
  | nil => exact ⟨fun _ h => by simp at h, fun _ => ⟨e, rfl, by simp, fun _ _ _ => rfl, rfl, rfl⟩⟩
  | cons p ps ih =>
    simp only [List.map_cons, List.nodup_cons] at hn
    simp only [List.map_cons, List.mem_cons, not_or] at he
    obtain ⟨g1, g2⟩ := guard_exec sem (hp p (List.mem_cons_self ..)) (hv p (List.mem_cons_self ..)) (hf p (List.mem_cons_self ..))
    have ih' := ih (fun p h => hp p (List.mem_cons_of_mem _ h)) hn.2 he.2 (fun p h => hf p (List.mem_cons_of_mem _ h))
    have hrest : ∀ {e' v}, Does e e' p.name v → ∀ q ∈ ps, e'.vars q.name = some (args q.name) := by
      intro e' v hd q hq
      have hm := List.mem_map_of_mem (f := Param.name) hq
      rw [hd.rest q.name (fun h => hn.1 (h ▸ hm)) (fun h => he.2 (h ▸ hm))]
      exact hv q (List.mem_cons_of_mem _ hq)
    simp only [List.flatMap_cons, execs_append]
    constructor
    · intro hs hx
      by_cases hfit : Fits true (args p.name) p.type
      · obtain ⟨e', h1, hd⟩ := g2 fun _ => hfit
        rw [h1]
        refine (ih' e' (hrest hd)).1 (hd.strict.trans hs) ?_
        obtain ⟨q, hq, hq'⟩ := hx
        rcases List.mem_cons.1 hq with rfl | hq
        · exact absurd hfit hq'
        · exact ⟨q, hq, hq'⟩
      · rw [g1 hs hfit]
        rfl
    · intro hall
      obtain ⟨e', h1, hd⟩ := g2 fun hs => hall hs p (List.mem_cons_self ..)
      rw [h1]
      obtain ⟨e'', h2, h3, h4, h5, h6⟩ := (ih' e' (hrest hd)).2
        (fun hs q hq => hall (hd.strict ▸ hs) q (List.mem_cons_of_mem _ hq))
      refine ⟨e'', h2, ?_, ?_, h5.trans hd.strict, h6.trans hd.quantizer⟩
      · intro q hq
        rcases List.mem_cons.1 hq with rfl | hq
        · rw [h4 _ hn.1 (Ne.symm he.1)]
          exact hd.var
        · exact h3 q hq
      · intro y hy hy'
        simp only [List.map_cons, List.mem_cons, not_or] at hy
        rw [h4 y hy.2 hy', hd.rest y hy.1 hy']

theorem call_exec (sem : Sem T Q O F) (vals : String → Val T Q O) (ps : List Param) (e : Env T Q O F) (hv : ∀ p ∈ ps, e.vars p.name = some (vals p.name)) :
    exec sem (.call (ps.map Param.name)) e = (sem.call (ps.map fun p => (p.name, vals p.name))).map fun o => { e with output := o } := by
  have : ((ps.map Param.name).mapM fun x => (e.get x).map fun v => (x, v)) = .ok (ps.map fun p => (p.name, vals p.name)) := by
    induction ps with
    | nil => rfl
    | cons p ps ih =>
      rw [List.map_cons, List.mapM_cons, ih fun q hq => hv q (List.mem_cons_of_mem _ hq), get_eq (hv p (List.mem_cons_self ..))]
      rfl
  simp only [exec, this, Except.bind]

/-! ## Properties -/

/-- **C98 (partial).** The generated function for an operator with quantized result, called with values that fit the declared types, applies the operator to
the arguments with all quantized tensors dequantized and the output quantizer, if given, to the result. In strict mode it is an error if there is no output
quantizer or a plain tensor is given where only a quantized one is declared. This holds for all operators whose types are plain.
Missing: `nested_not_dequantized`; operators without quantized result, see `plain_result_fails`. -/
theorem fallback_computes_partial (sem : Sem T Q O F) (op : Op) (hq : op.returnsQuantized = true) (hp : ∀ p ∈ op.params, Plain p.type)
    (hn : (op.params.map Param.name).Nodup) (he : "elem__" ∉ op.params.map Param.name) (args : String → Val T Q O)
    (hf : ∀ p ∈ op.params, Fits false (args p.name) p.type) (oq : Option F) (strict : Bool) :
    (strict = true → (oq = Option.none ∨ ∃ p ∈ op.params, ¬ Fits true (args p.name) p.type) →
      callFallback sem op args oq strict = .error .quantization) ∧
    ((strict = true → oq ≠ Option.none ∧ ∀ p ∈ op.params, Fits true (args p.name) p.type) →
      callFallback sem op args oq strict = (sem.call (op.params.map fun p => (p.name, (args p.name).strip sem.deq))).bind fun out =>
        match oq with
        | some f => sem.quantize f out
        | Option.none => .ok out) := by
  obtain ⟨p1, p2⟩ := params_exec sem args op.params hp hn he hf
    { vars := fun x => if x ∈ op.params.map Param.name then some (args x) else Option.none, strict, quantizer := some oq, elems := [], output := .none }
    (fun p hp => by simp only [if_pos (List.mem_map_of_mem (f := Param.name) hp)])
  unfold callFallback fallbackBody
  simp only [hq, if_true, List.nil_append, List.cons_append, execs]
  have hfirst : ∀ e : Env T Q O F, e.quantizer = some oq → exec sem (.ite [.strict, .noQuantizer] [.raise]) e =
      if e.strict = true ∧ oq = Option.none then .error .quantization else .ok e := by
    intro e h
    cases hs : e.strict <;> cases oq <;> simp [exec, execs, evalAnd, evalCond, Env.quantizerVar, h, hs, Except.bind, Except.map]
  rw [hfirst _ rfl]
  constructor
  · intro hs hx
    by_cases ho : oq = Option.none
    · rw [if_pos ⟨hs, ho⟩]
      rfl
    · rw [if_neg fun h => ho h.2]
      have hx : ∃ p ∈ op.params, ¬ Fits true (args p.name) p.type := hx.resolve_left ho
      simp only [Except.bind]
      rw [execs_append, p1 hs hx]
      rfl
  · intro hall
    rw [if_neg fun h => (hall h.1).1 h.2]
    simp only [Except.bind]
    obtain ⟨e', h1, h2, -, -, h5⟩ := p2 fun hs => (hall hs).2
    rw [execs_append, h1]
    simp only [Except.bind, execs, call_exec sem (fun x => (args x).strip sem.deq) op.params e' h2]
    cases sem.call (op.params.map fun p => (p.name, (args p.name).strip sem.deq)) with
    | error => rfl
    | ok out =>
      cases oq with
      | none => simp [Except.map, exec, evalAnd, evalCond, Env.quantizerVar, h5, Except.bind]
      | some f =>
        simp only [Except.map, exec, execs, evalAnd, evalCond, Env.quantizerVar, h5, Except.bind]
        cases sem.quantize f out <;> simp

/-- **C98 (partial).** Calling an operator means: the kernel that the dispatcher returns for these arguments is called with them; without one, the
operator is applied to the dequantized arguments and the result quantized. Strictness not given is that of the global flag.
Missing: as for `fallback_computes_partial`. -/
theorem operator_computes_partial (sem : Sem T Q O F) (op : Op) (hq : op.returnsQuantized = true) (hp : ∀ p ∈ op.params, Plain p.type)
    (hn : (op.params.map Param.name).Nodup) (he : "elem__" ∉ op.params.map Param.name)
    (kernel : List (String × Val T Q O) → Option F → Bool → Option (List (String × Val T Q O) → Option F → Bool → Except Err (Val T Q O)))
    (flag : Bool) (args : String → Val T Q O) (oq : Option F) (strict : Option Bool) (b : Bool) (hb : strict = some b ∨ strict = Option.none ∧ flag = b) :
    (∀ k, kernel (op.params.map fun p => (p.name, args p.name)) oq b = some k →
      callOp sem op kernel flag args oq strict = k (op.params.map fun p => (p.name, args p.name)) oq b) ∧
    (kernel (op.params.map fun p => (p.name, args p.name)) oq b = Option.none → (∀ p ∈ op.params, Fits b (args p.name) p.type) →
      (b = true → oq ≠ Option.none) →
      callOp sem op kernel flag args oq strict = (sem.call (op.params.map fun p => (p.name, (args p.name).strip sem.deq))).bind fun out =>
        match oq with
        | some f => sem.quantize f out
        | Option.none => .ok out) := by
  have hs : strict.getD flag = b := by
    rcases hb with rfl | ⟨rfl, rfl⟩ <;> rfl
  have hweak : ∀ {v : Val T Q O} {t}, Fits b v t → Fits false v t := by
    intro v t h
    induction h with
    | quant => exact .quant
    | tensor => exact .tensor
    | lax => exact .lax rfl
    | none => exact .none
    | other h1 h2 h3 => exact .other h1 h2 h3
    | list f h1 _ ih => exact .list f h1 ih
    | union h1 _ ih => exact .union h1 ih
  constructor
  · intro k hk
    simp only [callOp, hs, hk]
  · intro hk hfit ho
    simp only [callOp, hs, hk]
    refine (fallback_computes_partial sem op hq hp hn he args (fun p hp => hweak (hfit p hp)) oq b).2 ?_
    rintro rfl
    exact ⟨ho rfl, hfit⟩

/-- **C98 (partial).** The default of a parameter in the generated function is that of the specification exactly if it is a string literal and the declared
type `str`, or neither. Missing: `other_default_quoted`, `optional_string_unquoted`. -/
theorem default_kept_partial (t : Ty String) (d : Default) : genDefault t (getDefault d) = d ↔ ((∃ s, d = .str s) ↔ t = .atom "String") := by
  unfold genDefault
  by_cases h : t = .atom "String"
  · rw [if_pos ((eqv_atom _ _).2 h)]
    cases d <;> simp [getDefault, h]
  · rw [if_neg fun h' => h ((eqv_atom _ _).1 h')]
    cases d <;> simp [getDefault, h]

/-! ## Deviations -/

mutual

theorem exec_quantizer (sem : Sem T Q O F) : (s : Stmt) → (e e' : Env T Q O F) → exec sem s e = .ok e' → e'.quantizer = e.quantizer
  | .ite cs body, e, e', h => by
    simp only [exec] at h
    cases hc : evalAnd e cs with
    | error => rw [hc] at h; cases h
    | ok b =>
      rw [hc] at h
      cases b with
      | false => cases h; rfl
      | true => exact execs_quantizer sem body e e' h
  | .raise, _, _, h => by cases h
  | .dequant x, e, e', h => by
    simp only [exec] at h
    cases hx : e.get x with
    | error => rw [hx] at h; cases h
    | ok v =>
      rw [hx] at h
      cases v <;> cases h
      rfl
  | .newList, e, e', h => by cases h; rfl
  | .forIn x body, e, e', h => by
    simp only [exec] at h
    cases hx : e.get x with
    | error => rw [hx] at h; cases h
    | ok v =>
      rw [hx] at h
      cases v with
      | list vs =>
        simp only [Except.bind] at h
        clear hx
        induction vs generalizing e with
        | nil => cases h; rfl
        | cons v vs ih =>
          rw [List.foldlM_cons] at h
          cases h1 : execs sem body (e.set "elem__" v) with
          | error => rw [h1] at h; cases h
          | ok e1 =>
            rw [h1] at h
            rw [ih e1 h]
            exact (execs_quantizer sem body (e.set "elem__" v) e1 h1)
      | _ => cases h
  | .append, e, e', h => by
    simp only [exec] at h
    cases hx : e.get "elem__" with
    | error => rw [hx] at h; cases h
    | ok v => rw [hx] at h; cases h; rfl
  | .assignList x, e, e', h => by cases h; rfl
  | .call xs, e, e', h => by
    simp only [exec] at h
    cases hx : (xs.mapM fun x => (e.get x).map fun v => (x, v)) with
    | error => rw [hx] at h; cases h
    | ok args =>
      rw [hx] at h
      simp only [Except.bind] at h
      cases ho : sem.call args with
      | error => rw [ho] at h; cases h
      | ok o => rw [ho] at h; cases h; rfl
  | .quantize, e, e', h => by
    simp only [exec] at h
    cases hx : e.quantizerVar with
    | error => rw [hx] at h; cases h
    | ok f =>
      rw [hx] at h
      cases f with
      | none => cases h
      | some f =>
        simp only [Except.bind] at h
        cases ho : sem.quantize f e.output with
        | error => rw [ho] at h; cases h
        | ok o => rw [ho] at h; cases h; rfl

theorem execs_quantizer (sem : Sem T Q O F) : (ss : List Stmt) → (e e' : Env T Q O F) → execs sem ss e = .ok e' → e'.quantizer = e.quantizer
  | [], e, e', h => by cases h; rfl
  | s :: ss, e, e', h => by
    simp only [execs] at h
    cases h1 : exec sem s e with
    | error => rw [h1] at h; cases h
    | ok e1 =>
      rw [h1] at h
      rw [execs_quantizer sem ss e1 e' h, exec_quantizer sem s e e1 h1]

end

/-- **C98, deviation.** The generated function for an operator without quantized result never returns: it reads a variable `output_quantizer` that it
does not have. -/
theorem plain_result_fails (sem : Sem T Q O F) (op : Op) (hq : op.returnsQuantized = false) (args : String → Val T Q O) (oq : Option F) (strict : Bool)
    (v : Val T Q O) : callFallback sem op args oq strict ≠ .ok v := by
  intro h
  unfold callFallback fallbackBody at h
  simp only [hq, Bool.false_eq_true, if_false, List.nil_append, execs_append] at h
  generalize hE : (⟨_, strict, Option.none, [], Val.none⟩ : Env T Q O F) = e0 at h
  have h0 : e0.quantizer = Option.none := by rw [← hE]
  cases h1 : execs sem (op.params.flatMap fun p => guard p.type p.name) e0 with
  | error => rw [h1] at h; cases h
  | ok e1 =>
    rw [h1] at h
    simp only [Except.bind, execs] at h
    cases h2 : exec sem (.call (op.params.map Param.name)) e1 with
    | error => rw [h2] at h; cases h
    | ok e2 =>
      rw [h2] at h
      have h3 : e2.quantizer = Option.none := (exec_quantizer sem _ _ _ h2).trans ((execs_quantizer sem _ _ _ h1).trans h0)
      simp [exec, evalAnd, evalCond, Env.quantizerVar, h3, Except.map, Except.bind] at h

/-- **C98, deviation.** Quantized tensors in an optional sequence, or in anything but a plain sequence, reach the operator as they are; and plain ones pass
for quantized ones also in strict mode. -/
theorem nested_not_dequantized (sem : Sem T Q O F) (t : Ty String) (ht : t = .union [.gen "List" [.atom "QuantizedTensor"], .atom "NoneType"] ∨
    ∃ g ps, g ≠ "List" ∧ t = .gen g ps) (x : String) (v : Val T Q O) (f : F) (strict : Bool) :
    callFallback sem ⟨[⟨x, t⟩], true⟩ (fun _ => v) (some f) strict = (sem.call [(x, v)]).bind (sem.quantize f) := by
  have hg : guard t x = [] := by
    rcases ht with rfl | ⟨g, ps, hg, rfl⟩
    · rfl
    · have hno : contains (.union [.gen "List" [.union [tensorT, quantT]], .gen "List" [quantT]]) (.gen g ps) = false := by
        simp [contains, anyEq, eqv, Ne.symm hg]
      unfold guard
      rw [hno]
      rfl
  simp only [callFallback, fallbackBody, List.flatMap_cons, List.flatMap_nil, hg, if_true, List.map_cons, List.map_nil, List.cons_append, List.nil_append,
    List.append_nil, execs]
  have hc := call_exec sem (fun _ => v) [⟨x, t⟩]
    { vars := fun y => if y ∈ [x] then some v else Option.none, strict, quantizer := some (some f), elems := [], output := .none } (by simp)
  simp only [List.map_cons, List.map_nil] at hc
  have h1 : ∀ e : Env T Q O F, e.quantizer = some (some f) → exec sem (.ite [.strict, .noQuantizer] [.raise]) e = .ok e := by
    intro e h
    cases hs : e.strict <;> simp [exec, evalAnd, evalCond, Env.quantizerVar, h, hs, Except.bind, Except.map]
  rw [h1 _ rfl]
  simp only [Except.bind, hc]
  cases sem.call [(x, v)] with
  | error => rfl
  | ok out =>
    simp only [Except.map, exec, execs, evalAnd, evalCond, Env.quantizerVar, Except.bind]
    cases sem.quantize f out <;> simp

/-- **C98, deviation.** A default that is not a string literal becomes one if the declared type is `str`: `mode: str = ...` of `pad` is the string `"..."` in
the generated function (fallback.py:1549). -/
theorem other_default_quoted (s : String) : genDefault (.atom "String") (getDefault (.code s)) = .str s := by
  simp [genDefault, eqv, getDefault]

/-- **C98, deviation.** A string literal as default of an optional string becomes code. -/
theorem optional_string_unquoted (s : String) : genDefault (.union [.atom "String", .atom "NoneType"]) (getDefault (.str s)) = .code s := by
  simp [genDefault, eqv, getDefault]

/-! ## Concrete cases -/

/-- Tensors, quantized tensors and quantizers as numbers: dequantization doubles, the operator returns its first argument, a quantizer adds. -/
private def sem1 : Sem Nat Nat Nat Nat where
  deq q := 2 * q
  call
    | (_, v) :: _ => .ok v
    | [] => .error .inner
  quantize f
    | .tensor t => .ok (.quant (t + f))
    | _ => .error .inner

/-- `linear(input: Quantized, weight: Quantized, bias: Optional[MaybeQuantized]) -> Quantized` -/
private def linear : Op where
  params := [⟨"input", quantT⟩, ⟨"weight", quantT⟩, ⟨"bias", .union [quantT, tensorT, noneT]⟩]
  returnsQuantized := true

/-- `cat(tensors: Sequence[Quantized], dim: int = 0) -> Quantized` -/
private def cat : Op where
  params := [⟨"tensors", .gen "List" [quantT]⟩, ⟨"dim", .atom "int"⟩]
  returnsQuantized := true

example : (∀ p ∈ linear.params, Plain p.type) ∧ (∀ p ∈ cat.params, Plain p.type) ∧ (linear.params.map Param.name).Nodup ∧
    "elem__" ∉ linear.params.map Param.name ∧ "elem__" ∉ cat.params.map Param.name := by
  refine ⟨?_, ?_, by decide, by decide, by decide⟩
  · simp only [linear, List.mem_cons, List.not_mem_nil, or_false]
    rintro p (rfl | rfl | rfl)
    · exact .atom
    · exact .atom
    · exact .union (List.mem_cons_self ..) (by simp)
  · simp only [cat, List.mem_cons, List.not_mem_nil, or_false]
    rintro p (rfl | rfl)
    · exact .quantized
    · exact .atom

private def args1 : String → Val Nat Nat Nat
  | "input" => .quant 3
  | "weight" => .quant 4
  | "bias" => .none
  | "tensors" => .list [.quant 1, .quant 2]
  | _ => .other 0

example : (∀ p ∈ linear.params, Fits true (args1 p.name) p.type) ∧ ∀ p ∈ cat.params, Fits true (args1 p.name) p.type := by
  constructor
  · simp only [linear, List.mem_cons, List.not_mem_nil, or_false]
    rintro p (rfl | rfl | rfl)
    · exact .quant
    · exact .quant
    · exact .union (p := noneT) (by simp) .none
  · simp only [cat, List.mem_cons, List.not_mem_nil, or_false]
    rintro p (rfl | rfl)
    · refine .list (fun _ => quantT) (by simp) ?_
      simp only [List.mem_cons, List.not_mem_nil, or_false]
      rintro v (rfl | rfl) <;> exact .quant
    · exact .other (by decide) (by decide) (by decide)

example : callFallback sem1 linear args1 (some 1) true = .ok (.quant 7) := rfl
example : callFallback sem1 linear args1 Option.none true = .error .quantization := rfl
example : callFallback sem1 linear args1 Option.none false = .ok (.tensor 6) := rfl
example : callFallback sem1 linear (fun x => if x = "weight" then .tensor 1 else args1 x) (some 1) true = .error .quantization := rfl
example : callFallback sem1 cat args1 Option.none false = .ok (.list [.tensor 2, .tensor 4]) := rfl
example : callOp sem1 linear (fun _ _ _ => Option.none) true args1 Option.none Option.none = .error .quantization := rfl
example : genDefault (.atom "String") (getDefault (.str "none")) = .str "none" := by simp [genDefault, eqv, getDefault]

end FF.Gen
