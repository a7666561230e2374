import Mathlib.Data.Nat.Notation

/-!
# Which operations autoquant considers for quantization

Models `MarkReplacementCandidates` and `ExtendedMarkReplacementCandidates` in `/repo/src/fastforward/_autoquant/cst/passes.py` (272-397) and the types they look at, from
`/repo/src/fastforward/_autoquant/mypy/type_provider_impl.py`. Only operations that are marked can be replaced by quantized ones, and only functions that are called by marked calls are
converted.
-/

namespace FF.Candidates

/-! ### Model -/

/-- Types, as far as they are told apart here. `other` are classes that have nothing to do with tensors, `object` those above `Tensor`; `seq` are lists, tuples and other sequences. -/
inductive Ty where
  | any | tensor | scalar | str | none | other | object
  | seq (t : Ty)
  | union (a b : Ty)
  deriving DecidableEq, Repr

/-- `TypeInfo.is_subtype("torch.Tensor")` (`type_provider_impl.py:37-53`); a union is a subtype if its members are. -/
def sub : Ty → Bool
  | .any => true
  | .tensor => true
  | .union a b => sub a && sub b
  | _ => false

/-- `TypeInfo.is_sequence_of_subtype("torch.Tensor")` (55-91). -/
def seqSub : Ty → Bool
  | .any => true
  | .seq t => sub t
  | .union a b => seqSub a && seqSub b
  | _ => false

/-- Expressions: variables and attributes with the declared type that `mypy` stores for them, literals, calls of `float`, `int`, `bool` and `complex`, operators, and all other expressions,
by number. -/
inductive Ex where
  | var (x : String) (declared : Option Ty)
  | num
  | str
  | ctor (a : Ex)
  | bin (op : String) (a b : Ex)
  | un (op : String) (a : Ex)
  | other (i : ℕ)
  deriving DecidableEq, Repr

/-- `_get_prestored_type` (195-290), if `torch.Tensor` is known to `mypy`. -/
def prestored : Ex → Option Ty
  | .var _ t => t
  | .num => some .scalar
  | .str => some .str
  | .ctor _ => some .scalar
  | .bin _ a b => match prestored a, prestored b with
    | some l, some r => if !sub l && !sub r then some .scalar else none
    | _, _ => none
  | .un _ a => match prestored a with
    | some t => if !sub t then some .scalar else none
    | none => none
  | .other _ => none

/-- `enter_node` (292-320): the stored type, or else what the expression checker `acc` says, if it does not fail. -/
def typeOf (acc : Ex → Option Ty) (e : Ex) : Option Ty := match prestored e with
  | some t => some t
  | none => acc e

/-- An argument: with a keyword, with `*` or `**`, with parentheses that are not those of a tuple. -/
structure Arg where
  keyword : Bool
  star : Bool
  parens : Bool
  e : Ex
  deriving DecidableEq, Repr

/-- `get_metadata(MypyTypeProvider, arg, None)` for an argument (`passes.py:366-368`): types are found by position (`on_visit`, `type_provider_impl.py:134-146`), and the position of the argument is that of its
expression only without keyword, star and parentheses. -/
def argType (acc : Ex → Option Ty) (a : Arg) : Option Ty := if a.keyword || a.star || a.parens then none else typeOf acc a.e

/-- A call: the full name of the function, the object if it is a method, the arguments. -/
structure Call where
  func : String
  receiver : Option Ex
  args : List Arg
  deriving DecidableEq, Repr

/-- The operations autoquant must leave untouched (`bypass.py:27-34`). -/
def bypassed : List String := ["torch.utils.checkpoint.checkpoint", "torch.overrides.handle_torch_function", "torch.compiler.is_exporting", "torch._check_with"]

/-- `is_simple_literal` (`nodes.py:236-254`). -/
def literal : Ex → Bool
  | .num => true
  | .str => true
  | .un _ a => literal a
  | .bin _ a b => literal a && literal b
  | _ => false

/-- `_determine_replacement_candidate` (`passes.py:331-360`): marked, not marked, or no type is known. -/
def determine (types : List (Option Ty)) : Option Bool :=
  if types.all (·.isNone) then none
  else some (types.any fun t => match t with
    | some t => sub t || seqSub t
    | none => false)

/-- `MarkReplacementCandidates.leave_Call` (283-291). -/
def plainCall (c : Call) : Bool := if c.func = "super" then false else if c.func ∈ bypassed then false else true

/-- `ExtendedMarkReplacementCandidates.leave_Call` (362-371). `result or super()…`: nodes are never false. -/
def markCall (acc : Ex → Option Ty) (c : Call) : Bool := (determine (c.args.map (argType acc))).getD (plainCall c)

/-- `leave_BinaryOperation` (385-397 and 293-303). -/
def markBin (acc : Ex → Option Ty) (a b : Ex) : Bool := (determine [typeOf acc a, typeOf acc b]).getD (!(literal a && literal b))

/-- `leave_UnaryOperation` (373-383 and 305-315). -/
def markUn (acc : Ex → Option Ty) (a : Ex) : Bool := (determine [typeOf acc a]).getD (!literal a)

/-! ### Specification -/

/-- Values, as far as they are told apart here: sequences with a tensor, and without. -/
inductive Val where
  | tensor | num | str | none | other | seqWith | seqWithout
  deriving DecidableEq, Repr

/-- Values that quantization is about: tensors and sequences of tensors. -/
def Tensorish (v : Val) : Prop := v = .tensor ∨ v = .seqWith

/-- A value is of a type. -/
def HasTy (v : Val) : Ty → Prop
  | .any => True
  | .object => True
  | .tensor => v = .tensor
  | .scalar => v = .num
  | .str => v = .str
  | .none => v = .none
  | .other => v = .other
  | .seq t => v = .seqWithout ∨ (v = .seqWith ∧ HasTy .tensor t)
  | .union a b => HasTy v a ∨ HasTy v b

/-- No value of the type is a tensor or a sequence of tensors. -/
def NoTensor (t : Ty) : Prop := ∀ v, HasTy v t → ¬ Tensorish v

/-- Types that say whether their values are tensors: no union of tensors and other values, and not `object`. -/
def Plain : Ty → Prop
  | .object => False
  | .union a b => NoTensor (.union a b) ∨ ∀ v, HasTy v (.union a b) → v = .tensor
  | .seq t => Plain t
  | _ => True

/-- What operators do: with a tensor they give a tensor, numbers give numbers, sequences are joined and repeated. Objects of other classes may do anything (`custom`). -/
def binVal (custom : Val → Val → Val) : Val → Val → Option Val
  | .tensor, _ => some .tensor
  | _, .tensor => some .tensor
  | .num, .num => some .num
  | .seqWith, .seqWith => some .seqWith
  | .seqWith, .seqWithout => some .seqWith
  | .seqWithout, .seqWith => some .seqWith
  | .seqWithout, .seqWithout => some .seqWithout
  | .seqWith, .num => some .seqWith
  | .seqWithout, .num => some .seqWithout
  | .num, .seqWith => some .seqWith
  | .num, .seqWithout => some .seqWithout
  | .str, .str => some .str
  | .str, .num => some .str
  | .other, v => some (custom .other v)
  | v, .other => some (custom v .other)
  | _, _ => none

def unVal (custom : Val → Val) : Val → Option Val
  | .tensor => some .tensor
  | .num => some .num
  | .other => some (custom .other)
  | _ => none

structure World where
  /-- The values of variables. -/
  env : String → Val
  /-- The values of other expressions. -/
  others : ℕ → Val
  customBin : Val → Val → Val
  customUn : Val → Val

/-- The value of an expression; `none` is an exception. -/
def eval (w : World) : Ex → Option Val
  | .var x _ => some (w.env x)
  | .num => some .num
  | .str => some .str
  | .ctor a => match eval w a with
    | some _ => some .num
    | none => none
  | .bin _ a b => match eval w a, eval w b with
    | some u, some v => binVal w.customBin u v
    | _, _ => none
  | .un _ a => match eval w a with
    | some u => unVal w.customUn u
    | none => none
  | .other i => some (w.others i)

/-- Variables have values of their declared types, which are plain. -/
def Declared (w : World) : Ex → Prop
  | .var x (some t) => HasTy (w.env x) t ∧ Plain t
  | .ctor a => Declared w a
  | .bin _ a b => Declared w a ∧ Declared w b
  | .un _ a => Declared w a
  | _ => True

/-- Operators are applied to numbers and tensors only. -/
def Arithmetic (w : World) : Ex → Prop
  | .ctor a => Arithmetic w a
  | .bin _ a b => Arithmetic w a ∧ Arithmetic w b ∧ (∀ u, eval w a = some u → u = .num ∨ u = .tensor) ∧ (∀ u, eval w b = some u → u = .num ∨ u = .tensor)
  | .un _ a => Arithmetic w a ∧ (∀ u, eval w a = some u → u = .num ∨ u = .tensor)
  | _ => True

/-- The expression checker is right, and what it says is plain. -/
def Right (w : World) (acc : Ex → Option Ty) : Prop := ∀ e t v, acc e = some t → eval w e = some v → HasTy v t ∧ Plain t

/-! ### Lemmas -/

theorem sub_hasTy : ∀ t, sub t = true → HasTy .tensor t
  | .any, _ => trivial
  | .tensor, _ => rfl
  | .union a b, h => by
    simp only [sub, Bool.and_eq_true] at h
    exact .inl (sub_hasTy a h.1)
  | .scalar, h => by cases h
  | .str, h => by cases h
  | .none, h => by cases h
  | .other, h => by cases h
  | .object, h => by cases h
  | .seq _, h => by cases h

theorem seqSub_hasTy : ∀ t, seqSub t = true → HasTy .seqWith t
  | .any, _ => trivial
  | .seq t, h => .inr ⟨rfl, sub_hasTy t h⟩
  | .union a b, h => by
    simp only [seqSub, Bool.and_eq_true] at h
    exact .inl (seqSub_hasTy a h.1)
  | .scalar, h => by cases h
  | .str, h => by cases h
  | .none, h => by cases h
  | .other, h => by cases h
  | .object, h => by cases h
  | .tensor, h => by cases h

theorem noTensor_not (t : Ty) (h : NoTensor t) : (sub t || seqSub t) = false := by
  cases h1 : sub t with
  | true => exact absurd (.inl rfl) (h _ (sub_hasTy t h1))
  | false => cases h2 : seqSub t with
    | true => exact absurd (.inr rfl) (h _ (seqSub_hasTy t h2))
    | false => rfl

theorem only_sub : ∀ t, (∀ v, HasTy v t → v = .tensor) → sub t = true
  | .any, h => by have := h .num trivial; cases this
  | .object, h => by have := h .num trivial; cases this
  | .tensor, _ => rfl
  | .scalar, h => by have := h .num rfl; cases this
  | .str, h => by have := h .str rfl; cases this
  | .none, h => by have := h .none rfl; cases this
  | .other, h => by have := h .other rfl; cases this
  | .seq _, h => by have := h .seqWithout (.inl rfl); cases this
  | .union a b, h => by
    simp only [sub, Bool.and_eq_true]
    exact ⟨only_sub a fun v hv => h v (.inl hv), only_sub b fun v hv => h v (.inr hv)⟩

theorem plain_tensor : ∀ t, Plain t → HasTy .tensor t → sub t = true
  | .any, _, _ => rfl
  | .tensor, _, _ => rfl
  | .scalar, _, h => by cases h
  | .str, _, h => by cases h
  | .none, _, h => by cases h
  | .other, _, h => by cases h
  | .object, h, _ => h.elim
  | .seq _, _, h => by rcases h with h | ⟨h, _⟩ <;> cases h
  | .union a b, h, ht => by
    rcases h with h | h
    · exact absurd (.inl rfl) (h _ ht)
    · exact only_sub _ h

theorem plain_tensorish (t : Ty) (v : Val) (hp : Plain t) (h : HasTy v t) (hv : Tensorish v) : (sub t || seqSub t) = true := by
  rcases hv with rfl | rfl
  · rw [plain_tensor t hp h]; rfl
  · cases t with
    | any => rfl
    | object => exact hp.elim
    | seq t =>
      rcases h with h | ⟨_, h⟩
      · cases h
      · simp [seqSub, plain_tensor t hp h]
    | union a b =>
      rcases hp with hp | hp
      · exact absurd (.inr rfl) (hp _ h)
      · have := hp _ h; cases this
    | tensor => cases h
    | scalar => cases h
    | str => cases h
    | none => cases h
    | other => cases h

theorem prestored_right (w : World) : ∀ (e : Ex) (t : Ty) (v : Val), prestored e = some t → eval w e = some v → Declared w e → Arithmetic w e → HasTy v t ∧ Plain t
  | .var x d, t, v, h, hv, hd, _ => by
    cases d with
    | none => cases h
    | some d => cases h; cases hv; exact hd
  | .num, t, v, h, hv, _, _ => by cases h; cases hv; exact ⟨rfl, trivial⟩
  | .str, t, v, h, hv, _, _ => by cases h; cases hv; exact ⟨rfl, trivial⟩
  | .ctor a, t, v, h, hv, _, _ => by
    cases h
    rw [eval] at hv
    cases ha : eval w a with
    | none => rw [ha] at hv; cases hv
    | some u => rw [ha] at hv; cases hv; exact ⟨rfl, trivial⟩
  | .bin op a b, t, v, h, hv, hd, hr => by
    rw [prestored] at h
    cases hl : prestored a with
    | none => rw [hl] at h; cases h
    | some l =>
      cases hb : prestored b with
      | none => rw [hl, hb] at h; cases h
      | some r =>
        rw [hl, hb] at h
        by_cases hc : (!sub l && !sub r) = true
        · rw [eval] at hv
          cases hu : eval w a with
          | none => rw [hu] at hv; cases hv
          | some u =>
            cases hu' : eval w b with
            | none => rw [hu, hu'] at hv; cases hv
            | some u' =>
              rw [hu, hu'] at hv
              obtain ⟨t1, p1⟩ := prestored_right w a l u hl hu hd.1 hr.1
              obtain ⟨t2, p2⟩ := prestored_right w b r u' hb hu' hd.2 hr.2.1
              simp only [Bool.and_eq_true, Bool.not_eq_true'] at hc
              have e1 : u = .num := by
                rcases hr.2.2.1 u hu with e | e
                · exact e
                · rw [e] at t1; have := plain_tensor l p1 t1; rw [hc.1] at this; cases this
              have e2 : u' = .num := by
                rcases hr.2.2.2 u' hu' with e | e
                · exact e
                · rw [e] at t2; have := plain_tensor r p2 t2; rw [hc.2] at this; cases this
              rw [e1, e2] at hv
              have hv' : some Val.num = some v := hv
              cases hv'
              have h' : (if (!sub l && !sub r) = true then some Ty.scalar else none) = some t := h
              rw [if_pos (by simp [hc.1, hc.2])] at h'
              cases h'
              exact ⟨rfl, trivial⟩
        · have h' : (if (!sub l && !sub r) = true then some Ty.scalar else none) = some t := h
          rw [if_neg hc] at h'; cases h'
  | .un op a, t, v, h, hv, hd, hr => by
    rw [prestored] at h
    cases hl : prestored a with
    | none => rw [hl] at h; cases h
    | some l =>
      rw [hl] at h
      by_cases hc : (!sub l) = true
      · rw [eval] at hv
        cases hu : eval w a with
        | none => rw [hu] at hv; cases hv
        | some u =>
          rw [hu] at hv
          obtain ⟨t1, p1⟩ := prestored_right w a l u hl hu hd hr.1
          have hc' : sub l = false := by simpa using hc
          have e1 : u = .num := by
            rcases hr.2 u hu with e | e
            · exact e
            · rw [e] at t1; have := plain_tensor l p1 t1; rw [hc'] at this; cases this
          rw [e1] at hv
          have hv' : some Val.num = some v := hv
          cases hv'
          have h' : (if (!sub l) = true then some Ty.scalar else none) = some t := h
          rw [if_pos hc] at h'
          cases h'
          exact ⟨rfl, trivial⟩
      · have h' : (if (!sub l) = true then some Ty.scalar else none) = some t := h
        rw [if_neg hc] at h'; cases h'
  | .other _, t, v, h, _, _, _ => by cases h

theorem typeOf_right (w : World) (acc : Ex → Option Ty) (ha : Right w acc) (e : Ex) (t : Ty) (v : Val) (h : typeOf acc e = some t) (hv : eval w e = some v)
    (hd : Declared w e) (hr : Arithmetic w e) : HasTy v t ∧ Plain t := by
  unfold typeOf at h
  cases hp : prestored e with
  | some t' => rw [hp] at h; cases h; exact prestored_right w e t v hp hv hd hr
  | none => rw [hp] at h; exact ha e t v h hv

theorem determine_marked (types : List (Option Ty)) (t : Ty) (hm : some t ∈ types) (h : (sub t || seqSub t) = true) : determine types = some true := by
  unfold determine
  rw [if_neg, List.any_eq_true.2 ⟨some t, hm, h⟩]
  intro ha
  have := List.all_eq_true.1 ha _ hm
  cases this

/-! ### Properties -/

/-- **C122 (partial).** A call with a tensor, or a sequence of tensors, as an argument is marked, if the type of that argument is found (the argument is given by position and without parentheses, and some
type is known for it) and is right and plain. The types of the other arguments do not matter. Missing: `tensor_argument_missed`, `optional_tensor_missed`, `joined_sequences_missed`. -/
theorem tensor_argument_marked_partial (w : World) (acc : Ex → Option Ty) (ha : Right w acc) (c : Call) (a : Arg) (hm : a ∈ c.args)
    (hk : a.keyword = false) (hs : a.star = false) (hp : a.parens = false) (t : Ty) (ht : typeOf acc a.e = some t)
    (hd : Declared w a.e) (hr : Arithmetic w a.e) (v : Val) (hv : eval w a.e = some v) (hT : Tensorish v) : markCall acc c = true := by
  obtain ⟨h1, h2⟩ := typeOf_right w acc ha a.e t v ht hv hd hr
  unfold markCall
  rw [determine_marked _ t (List.mem_map.2 ⟨a, hm, by simp [argType, hk, hs, hp, ht]⟩) (plain_tensorish t v h2 h1 hT)]
  rfl

/-- **C122 (partial).** An operator with a tensor as an operand is marked, if the type of that operand is found, right and plain, whatever the other operand is. Missing: as for calls. -/
theorem tensor_operand_marked_partial (w : World) (acc : Ex → Option Ty) (ha : Right w acc) (a b e : Ex) (hm : e = a ∨ e = b) (t : Ty) (ht : typeOf acc e = some t)
    (hd : Declared w e) (hr : Arithmetic w e) (v : Val) (hv : eval w e = some v) (hT : Tensorish v) : markBin acc a b = true := by
  obtain ⟨h1, h2⟩ := typeOf_right w acc ha e t v ht hv hd hr
  unfold markBin
  rw [determine_marked _ t (by rcases hm with rfl | rfl <;> simp [ht]) (plain_tensorish t v h2 h1 hT)]
  rfl

/-- **C122 (partial).** The same for operators with one operand. Missing: as for calls. -/
theorem tensor_operand_marked_unary_partial (w : World) (acc : Ex → Option Ty) (ha : Right w acc) (a : Ex) (t : Ty) (ht : typeOf acc a = some t)
    (hd : Declared w a) (hr : Arithmetic w a) (v : Val) (hv : eval w a = some v) (hT : Tensorish v) : markUn acc a = true := by
  obtain ⟨h1, h2⟩ := typeOf_right w acc ha a t v ht hv hd hr
  unfold markUn
  rw [determine_marked _ t (by simp [ht]) (plain_tensorish t v h2 h1 hT)]
  rfl

/-- **C122.** Where nothing is known about the types, because they cannot be inferred or because arguments are given by keyword, with a star or in parentheses, no tensor is missed: every call is marked, except of `super` and of the operations to be left untouched. -/
theorem untyped_call_marked (acc : Ex → Option Ty) (c : Call)
    (hu : ∀ a ∈ c.args, a.keyword = true ∨ a.star = true ∨ a.parens = true ∨ typeOf acc a.e = none) :
    markCall acc c = true ↔ c.func ≠ "super" ∧ c.func ∉ ["torch.utils.checkpoint.checkpoint", "torch.overrides.handle_torch_function", "torch.compiler.is_exporting", "torch._check_with"] := by
  have : determine (c.args.map (argType acc)) = none := by
    unfold determine
    rw [if_pos]
    rw [List.all_eq_true]
    intro t ht
    obtain ⟨a, ha, rfl⟩ := List.mem_map.1 ht
    rcases hu a ha with h | h | h | h <;> simp [argType, h]
  rw [markCall, this]
  simp only [Option.getD_none, plainCall, bypassed]
  by_cases h : c.func = "super" <;> by_cases h2 : c.func ∈ ["torch.utils.checkpoint.checkpoint", "torch.overrides.handle_torch_function", "torch.compiler.is_exporting", "torch._check_with"] <;> simp [h, h2]

/-- A literal has a known type: numbers and strings, and what operators make of them. -/
theorem literal_typed : ∀ e, literal e = true → ∃ t, prestored e = some t ∧ sub t = false ∧ seqSub t = false
  | .num, _ => ⟨_, rfl, rfl, rfl⟩
  | .str, _ => ⟨_, rfl, rfl, rfl⟩
  | .un op a, h => by
    obtain ⟨t, h1, h2, _⟩ := literal_typed a h
    exact ⟨.scalar, by simp [prestored, h1, h2], rfl, rfl⟩
  | .bin op a b, h => by
    simp only [literal, Bool.and_eq_true] at h
    obtain ⟨t, h1, h2, _⟩ := literal_typed a h.1
    obtain ⟨t', h1', h2', _⟩ := literal_typed b h.2
    exact ⟨.scalar, by simp [prestored, h1, h2, h1', h2'], rfl, rfl⟩
  | .var .., h => by cases h
  | .ctor _, h => by cases h
  | .other _, h => by cases h

/-- **C122.** Where the types of both operands are unknown, operators are marked. -/
theorem untyped_operator_marked (acc : Ex → Option Ty) (a b : Ex) (ha : typeOf acc a = none) (hb : typeOf acc b = none) : markBin acc a b = true := by
  have hl : literal a = false := by
    cases h : literal a with
    | false => rfl
    | true => obtain ⟨t, h1, _⟩ := literal_typed a h; simp [typeOf, h1] at ha
  simp [markBin, determine, ha, hb, hl]

/-- **C122.** Operators on literals are not marked, with and without types. -/
theorem literals_not_marked (acc : Ex → Option Ty) (a b : Ex) (ha : literal a = true) (hb : literal b = true) : markBin acc a b = false := by
  obtain ⟨t, h1, h2, h3⟩ := literal_typed a ha
  obtain ⟨t', h1', h2', h3'⟩ := literal_typed b hb
  simp [markBin, typeOf, h1, h1', determine, h2, h3, h2', h3']

/-- **C122.** Where the types are known and say that there is no tensor, nothing is marked: a call is left as it is. -/
theorem no_tensor_not_marked (acc : Ex → Option Ty) (c : Call) (hne : c.args ≠ []) (hk : ∀ a ∈ c.args, ∃ t, argType acc a = some t ∧ NoTensor t) : markCall acc c = false := by
  have : determine (c.args.map (argType acc)) = some false := by
    unfold determine
    rw [if_neg]
    · congr 1
      rw [List.any_eq_false]
      intro t ht
      obtain ⟨a, ha, rfl⟩ := List.mem_map.1 ht
      obtain ⟨t, h1, h2⟩ := hk a ha
      rw [h1]
      simp only [noTensor_not t h2]
      exact Bool.false_ne_true
    · intro hall
      cases hc : c.args with
      | nil => exact hne hc
      | cons a as =>
        obtain ⟨t, h1, _⟩ := hk a (by rw [hc]; exact List.mem_cons_self ..)
        have := List.all_eq_true.1 hall (argType acc a) (List.mem_map.2 ⟨a, by rw [hc]; exact List.mem_cons_self .., rfl⟩)
        rw [h1] at this; cases this
  rw [markCall, this]; rfl

/-- **C122.** So is an operator. -/
theorem no_tensor_not_marked_operator (acc : Ex → Option Ty) (a b : Ex) (t t' : Ty) (h1 : typeOf acc a = some t) (h2 : typeOf acc b = some t') (n1 : NoTensor t) (n2 : NoTensor t') :
    markBin acc a b = false := by
  have h3 := noTensor_not t n1
  have h4 := noTensor_not t' n2
  simp [markBin, determine, h1, h2]
  simp at h3 h4
  exact ⟨h3, h4⟩

/-! ### Deviations -/

/-- **C122, deviation.** A tensor given by keyword, with a star or in parentheses is missed if the type of another argument is known not to be a tensor: `softmax((x + y), -1)` is not quantized. -/
theorem tensor_argument_missed (acc : Ex → Option Ty) (f : String) (r : Option Ex) (a : Arg) (h : (a.keyword || a.star || a.parens) = true) :
    markCall acc ⟨f, r, [a, ⟨false, false, false, .num⟩]⟩ = false := by
  simp [markCall, determine, argType, typeOf, prestored, h, sub, seqSub]

/-- **C122, deviation.** A variable declared as `Tensor | None` is not taken for a tensor, also where it has been checked not to be `None`: the declared type is used. `relu(mask)` is not quantized, nor is
`mask + 1`. -/
theorem optional_tensor_missed (acc : Ex → Option Ty) (f x : String) (r : Option Ex) :
    markCall acc ⟨f, r, [⟨false, false, false, .var x (some (.union .tensor .none))⟩]⟩ = false ∧
    markBin acc (.var x (some (.union .tensor .none))) .num = false ∧
    HasTy .tensor (.union .tensor .none) :=
  ⟨rfl, rfl, .inl rfl⟩

/-- **C122, deviation.** An operator on anything but tensors is taken to give a number. Joined lists of tensors are not recognized: `cat(xs + ys)` is not quantized, although `cat(xs)` is. -/
theorem joined_sequences_missed (acc : Ex → Option Ty) (f x y : String) (r : Option Ex) (w : World) (hx : w.env x = .seqWith) (hy : w.env y = .seqWith) :
    markCall acc ⟨f, r, [⟨false, false, false, .bin "+" (.var x (some (.seq .tensor))) (.var y (some (.seq .tensor)))⟩]⟩ = false ∧
    eval w (.bin "+" (.var x (some (.seq .tensor))) (.var y (some (.seq .tensor)))) = some .seqWith ∧
    markCall acc ⟨f, r, [⟨false, false, false, .var x (some (.seq .tensor))⟩]⟩ = true :=
  ⟨rfl, by simp [eval, hx, hy, binVal], rfl⟩

/-- **C122, deviation.** What a method is called on does not count. `self.helper(2)` is not marked, so `helper` is not converted and computes without quantization, and neither is a method of a tensor. -/
theorem receiver_ignored (acc : Ex → Option Ty) (f : String) (r : Option Ex) : markCall acc ⟨f, r, [⟨false, false, false, .num⟩]⟩ = false := rfl

/-- **C122, deviation.** Operations to be left untouched are marked if an argument is known to be a tensor. -/
theorem bypassed_marked (acc : Ex → Option Ty) (f x : String) : markCall acc ⟨f, none, [⟨false, false, false, .var x (some .tensor)⟩]⟩ = true := rfl

/-! ### Concrete cases -/

def exWorld : World := ⟨fun x => if x = "x" then .tensor else if x = "xs" then .seqWith else .num, fun _ => .tensor, fun _ v => v, id⟩

/-- The checker knows that `other 0` is a tensor. -/
def exAcc : Ex → Option Ty
  | .other 0 => some .tensor
  | _ => none

example : Right exWorld exAcc := by
  intro e t v h hv
  unfold exAcc at h
  split at h
  · cases h; cases hv; exact ⟨rfl, trivial⟩
  · cases h

/-- `softmax(x, n * 2)`: the first argument is a tensor, and the second is not. -/
def exCall : Call := ⟨"torch.softmax", none, [⟨false, false, false, .var "x" (some .tensor)⟩, ⟨false, false, false, .bin "*" (.var "n" (some .scalar)) .num⟩]⟩

example : markCall exAcc exCall = true := rfl

example : Declared exWorld (.bin "*" (.var "n" (some .scalar)) .num) ∧ Arithmetic exWorld (.bin "*" (.var "n" (some .scalar)) .num) := by
  refine ⟨⟨⟨rfl, trivial⟩, trivial⟩, trivial, trivial, ?_, ?_⟩ <;> intro u h <;> cases h <;> exact .inl rfl

example : Declared exWorld (.var "x" (some .tensor)) ∧ Arithmetic exWorld (.var "x" (some .tensor)) ∧ eval exWorld (.var "x" (some .tensor)) = some .tensor := ⟨⟨rfl, trivial⟩, trivial, rfl⟩

/-- `math.sqrt(n * 2)` is left as it is. -/
example : markCall exAcc ⟨"math.sqrt", none, [⟨false, false, false, .bin "*" (.var "n" (some .scalar)) .num⟩]⟩ = false := rfl

example : NoTensor (.union .scalar .none) := by
  intro v h
  rcases h with h | h <;> cases h <;> rintro (h | h) <;> cases h

example : markCall exAcc ⟨"f", none, [⟨true, false, false, .var "x" none⟩]⟩ = true := rfl

end FF.Candidates
