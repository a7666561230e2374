import Verif.Runtime.DispatcherProps

/-!
# What happens when a torch function meets a quantized tensor

Models `QuantizedTensor.__torch_function__` with its parts in `/repo/src/fastforward/quantized_tensor.py`: the functions that are
passed on as they are, the kernels registered at import, the fallback that dequantizes, and the methods that move a quantized tensor.
Tensors live in a memory, so that it can be said which tensor a function writes to.
-/

namespace FF.TorchFn

open FF.Dispatch

/-! ### Model -/

/-- Data types of torch. -/
inductive DType where
  | float64 | float32 | float16 | bfloat16 | int64 | int32 | int16 | int8 | complex128 | complex64 | complex32 | bool | uint8
  deriving DecidableEq, Repr

/-- What is passed to a function: a plain tensor and a quantized tensor (by their storage; `q` is the quantization context), some other
object, a container that `optree` walks through (as cells; positional and keyword arguments are one such container), and an object that it does
not walk through (a set, an instance of some class) with what it holds. -/
inductive Val (Q C : Type) where
  | plain (id : ℕ)
  | quant (id : ℕ) (q : Q)
  | const (c : C)
  | nil
  | cons (a b : Val Q C)
  | obj (a : Val Q C)
  deriving DecidableEq, Repr

/-- Storages in use, numbered below `next`, with what they hold: of a quantized tensor the codes. -/
structure Mem (T : Type) where
  val : ℕ → T
  next : ℕ

inductive Err where
  | quantization
  | notImplemented
  | attribute
  | type
  deriving DecidableEq, Repr

abbrev Res (T Q C : Type) := Mem T × Except Err (Val Q C)

/-- Running a torch function, on given arguments and memory. -/
abbrev Fn (F T Q C : Type) := F → Val Q C → Mem T → Res T Q C

/-- Torch and the registrations of the user. `torch f` is what the function does when subclasses are not asked: a tensor is then its
storage. `userFn` are kernels: they are given the functions as they find them. -/
structure World (F T Q C S : Type) where
  name : F → String
  excluded : F → Bool
  deq : Q → T → T
  torch : Fn F T Q C
  cast : DType → T → T
  shape : T → S
  perTensor : Q → Bool
  userPred : ℕ → Val Q C → Bool
  userFn : ℕ → Fn F T Q C → Val Q C → Mem T → Res T Q C

variable {F T Q C S : Type}

/-- `as_subclass(torch.Tensor)` of everything: how torch sees the arguments under `DisableTorchFunctionSubclass`. -/
def raw : Val Q C → Val Q C
  | .quant id _ => .plain id
  | .cons a b => .cons (raw a) (raw b)
  | .obj a => .obj (raw a)
  | v => v

/-- Calling a function while subclass functions are disabled (`quantized_tensor.py:464`). -/
def direct (w : World F T Q C S) : Fn F T Q C := fun f a m => w.torch f (raw a) m

def Mem.alloc (m : Mem T) (t : T) : Mem T := ⟨fun i => if i = m.next then t else m.val i, m.next + 1⟩

/-- `optree.tree_map(_dequantize_qtensor, args)` (549-553, 570-571). -/
def dequantAll (w : World F T Q C S) : Val Q C → Mem T → Val Q C × Mem T
  | .quant id q, m => (.plain m.next, m.alloc (w.deq q (m.val id)))
  | .cons a b, m => (.cons (dequantAll w a m).1 (dequantAll w b (dequantAll w a m).2).1, (dequantAll w b (dequantAll w a m).2).2)
  | v, m => (v, m)

/-- `_dequantization_fallback` (556-572); it is called within the `with` block of `__torch_function__`. -/
def fallback (w : World F T Q C S) (strict : Bool) (f : F) (a : Val Q C) (m : Mem T) : Res T Q C :=
  if strict then (m, .error .quantization) else direct w f (dequantAll w a m).1 (dequantAll w a m).2

/-- The casts registered at import, in order (64-76). -/
def castRegs : List (String × DType) :=
  [("double", .float64), ("float", .float32), ("half", .float16), ("bfloat16", .bfloat16), ("long", .int64), ("int", .int32), ("short", .int16),
   ("char", .int8), ("cdouble", .complex128), ("cfloat", .complex64), ("chalf", .complex32), ("bool", .bool), ("byte", .uint8)]

/-- `_to_dtype(dtype, qtensor)` (48-50); the kernel takes nothing but the tensor. -/
def castKernel (w : World F T Q C S) (d : DType) (a : Val Q C) (m : Mem T) : Res T Q C :=
  match a with
  | .cons (.quant id q) .nil => (m.alloc (w.cast d (w.deq q (m.val id))), .ok (.plain m.next))
  | _ => (m, .error .type)

/-- `_same_shape_view_as` (596-598) and `view_as` of `_linear_quantized_ops.py:104-108`, both `apply_and_reattach` of `view_as` (246-275). The
view shares the storage. A plain tensor has no `_quantization_context`. -/
def viewAsKernel (a : Val Q C) (m : Mem T) : Res T Q C :=
  match a with
  | .cons (.quant id q) (.cons _ .nil) => (m, .ok (.quant id q))
  | .cons (.plain _) (.cons _ .nil) => (m, .error .attribute)
  | _ => (m, .error .type)

/-- The storage of a tensor. -/
def idOf? : Val Q C → Option ℕ
  | .plain id => some id
  | .quant id _ => some id
  | _ => none

/-- Predicates: 0 is `None`; 1 is `_view_as_predicate` (588-592); 2 is `_is_affine_per_tensor` (`_linear_quantized_ops.py:28-47`). -/
def holds [DecidableEq S] (w : World F T Q C S) (a : Val Q C) (m : Mem T) : ℕ → Bool
  | 0 => true
  | 1 => match a with
    | .cons x (.cons y .nil) => match idOf? x, idOf? y with
      | some i, some j => decide (w.shape (m.val j) = w.shape (m.val i))
      | _, _ => false
    | _ => false
  | 2 => match a with
    | .cons (.quant _ q) _ => w.perTensor q
    | _ => false
  | n => w.userPred n a

/-- Kernels: 0 is `not_implemented_impl` (98-99), 1 to 13 are the casts (64-76), 14 and 15 the `view_as` kernels. They run within the
`with` block (464-475), so the functions they call see storages. -/
def kernel (w : World F T Q C S) (n : ℕ) (a : Val Q C) (m : Mem T) : Res T Q C :=
  if n = 0 then (m, .error .notImplemented)
  else if n ≤ 13 then match castRegs[n - 1]? with
    | some c => castKernel w c.2 a m
    | none => (m, .error .type)
  else if n ≤ 15 then viewAsKernel a m
  else w.userFn n (direct w) a m

/-- `__torch_function__` (461-478). -/
def torchFunction [DecidableEq S] (w : World F T Q C S) (t : Table) (strict : Bool) (f : F) (a : Val Q C) (m : Mem T) : Res T Q C :=
  if w.excluded f then direct w f a m
  else match dispatch t (w.name f) (holds w a m) with
    | some k => kernel w k a m
    | none => fallback w strict f a m

/-- `attr.endswith("_") and not attr.endswith("__")` (117). -/
def inplaceName (s : String) : Bool :=
  match s.toList.reverse with
  | '_' :: '_' :: _ => false
  | '_' :: _ => true
  | _ => false

/-- The methods whose implementation is removed by name (106-110). -/
def removedNames : List String :=
  ["__getitem__", "__reversed__", "__setitem__", "_autocast_to_full_precision", "_autocast_to_reduced_precision"]

/-- What is registered at import, in order, with `attrs = dir(torch.Tensor)` (64-76, 106-126, 588-598; `_linear_quantized_ops.py:104`). The
functions are taken to be named as the attributes. Of the other kernels of `_linear_quantized_ops.py`, none has one of these names, except those for
`__getitem__` (227, 283), which are left out: no theorem here is about indexing, which is modelled in `Verif.TensorOps`. -/
def importRegs (attrs : List String) : List (String × Item) :=
  (castRegs.zipIdx.map fun x => (x.1.1, ⟨0, x.2 + 1, 0⟩)) ++
  removedNames.map (fun n => (n, ⟨0, 0, 2⟩)) ++
  (attrs.filter inplaceName).map (fun n => (n, ⟨0, 0, 2⟩)) ++ [("view_as", ⟨1, 14, 1⟩), ("view_as", ⟨2, 15, 0⟩)]

def imported (attrs : List String) : Table := (importRegs attrs).foldl (fun t r => register t r.1 r.2) fun _ => []

/-- The table after import and what the user registers and ends. -/
def tableAfter (attrs : List String) (es : List Event) : Table := (St.run ⟨imported attrs, fun _ => none⟩ es).table

/-- The functions passed on as they are, by name (162-233): both the method and the function of that name in `torch`. -/
def noDispatch : List String :=
  ["__cuda_array_interface__", "__repr__", "__setstate__", "_backward_hooks", "_base", "_cdata", "_grad", "_grad_fn", "_indices", "_is_view",
   "_nested_tensor_size", "_nested_tensor_strides", "_version", "as_subclass", "backward", "data_ptr", "dim", "ndim", "dtype", "get_device",
   "device", "grad", "grad_fn", "indices", "layout", "name", "ndimension", "nelement", "numel", "output_nr", "pin_memory", "record_stream",
   "register_hook", "requires_grad", "requires_grad_", "retain_grad", "shape", "size", "sparse_dim", "sparse_mask", "storage",
   "storage_offset", "storage_type", "__dir__", "has_names", "names", "refine_names", "is_coalesced", "is_complex", "is_conj",
   "is_contiguous", "is_cpu", "is_cuda", "is_distributed", "is_floating_point", "is_inference", "is_ipu", "is_leaf", "is_meta", "is_mkldnn",
   "is_mps", "is_neg", "is_nested", "is_nonzero", "is_pinned", "is_same_size", "is_set_to", "is_shared", "is_signed", "is_sparse",
   "is_sparse_csr", "is_vulkan", "is_xpu"]

/-! Moving a quantized tensor. -/

/-- Python's `device` argument of `cuda`: nothing, an index, or something else naming device `n`. -/
inductive DeviceArg where
  | absent
  | index (n : ℕ)
  | named (n : ℕ)
  deriving DecidableEq, Repr

/-- A tensor with its device and storage. -/
structure Placed (T : Type) where
  t : T
  dev : ℕ
  store : ℕ
  deriving DecidableEq, Repr

/-- A quantized tensor with its parameters; those that are not tensors have no place. -/
structure QT (T P : Type) where
  codes : Placed T
  params : List (String × (Placed T ⊕ P))

/-- `torch.Tensor.to(device=...)`: the same tensor if it is there already, and a copy in a new storage (`fresh`) otherwise. -/
def place (dev : Option ℕ) (fresh : ℕ) (x : Placed T) : Placed T :=
  match dev with
  | none => x
  | some d => if x.dev = d then x else ⟨x.t, d, fresh⟩

/-- `QuantizedTensor.to` without `dtype` (343-358) and `QuantizationContext.to` (`function.py:147-154`): `copy` is not among what
`_parse_to` returns. -/
def move {P : Type} (dev : Option ℕ) (_copy : Bool) (fresh : ℕ) (x : QT T P) : QT T P :=
  ⟨place dev fresh x.codes, x.params.map fun p => (p.1, match p.2 with
    | .inl y => .inl (place dev fresh y)
    | .inr c => .inr c)⟩

/-- `cuda` (376-380): `device or "cuda"`; `"cuda"` is the current device, and index 0 is false. -/
def cudaDevice (current : ℕ) : DeviceArg → ℕ
  | .absent => current
  | .index 0 => current
  | .index (n + 1) => n + 1
  | .named n => n

def cuda {P : Type} (current : ℕ) (d : DeviceArg) (fresh : ℕ) (x : QT T P) : QT T P := move (some (cudaDevice current d)) false fresh x

/-! ### Specification -/

/-- `a'` with memory `m'` are the arguments `a` with every quantized tensor, wherever it is, replaced by a plain tensor in a storage of its own
that holds its values; everything else is as it was. -/
inductive OnValues (deq : Q → T → T) : Val Q C → Mem T → Val Q C → Mem T → Prop
  | plain (id m) : OnValues deq (.plain id) m (.plain id) m
  | const (c m) : OnValues deq (.const c) m (.const c) m
  | nil (m) : OnValues deq .nil m .nil m
  | quant (id q) (m m' : Mem T) : m'.val m.next = deq q (m.val id) → (∀ i, i ≠ m.next → m'.val i = m.val i) → m'.next = m.next + 1 →
      OnValues deq (.quant id q) m (.plain m.next) m'
  | cons (a b a' b') (m m1 m2 : Mem T) : OnValues deq a m a' m1 → OnValues deq b m1 b' m2 → OnValues deq (.cons a b) m (.cons a' b') m2
  | obj (a a') (m m' : Mem T) : OnValues deq a m a' m' → OnValues deq (.obj a) m (.obj a') m'

/-- There is a quantized tensor somewhere in the arguments. -/
inductive HasQuant : Val Q C → Prop
  | here (id q) : HasQuant (.quant id q)
  | left (a b) : HasQuant a → HasQuant (.cons a b)
  | right (a b) : HasQuant b → HasQuant (.cons a b)
  | inside (a) : HasQuant a → HasQuant (.obj a)

/-- No quantized tensor is inside an object that is not walked through. -/
inductive Visible : Val Q C → Prop
  | plain (id) : Visible (.plain id)
  | quant (id q) : Visible (.quant id q)
  | const (c) : Visible (.const c)
  | nil : Visible .nil
  | cons (a b) : Visible a → Visible b → Visible (.cons a b)
  | obj (a) : ¬ HasQuant a → Visible (.obj a)

/-- `id` is the storage of a plain tensor among the arguments. -/
inductive PlainIn (id : ℕ) : Val Q C → Prop
  | here : PlainIn id (.plain id)
  | left (a b) : PlainIn id a → PlainIn id (.cons a b)
  | right (a b) : PlainIn id b → PlainIn id (.cons a b)
  | inside (a) : PlainIn id a → PlainIn id (.obj a)

/-- A function that writes to nothing but the (plain) tensors it is given and to new storages. -/
def WritesArgs (f : Val Q C → Mem T → Res T Q C) : Prop :=
  ∀ a m i, i < m.next → ¬ PlainIn i a → (f a m).1.val i = m.val i

/-- All storages of the arguments are in use. -/
inductive InUse (n : ℕ) : Val Q C → Prop
  | plain (id) : id < n → InUse n (.plain id)
  | quant (id q) : id < n → InUse n (.quant id q)
  | const (c) : InUse n (.const c)
  | nil : InUse n .nil
  | cons (a b) : InUse n a → InUse n b → InUse n (.cons a b)
  | obj (a) : InUse n a → InUse n (.obj a)

/-- The user's registrations do not concern `op`. -/
def Unrelated (op : String) (es : List Event) : Prop := ∀ h it, Event.reg h op it ∉ es

/-- The same arguments up to what the tensors hold: tensors have the same shape. -/
def SameKind (shape : T → S) : Val Q C → Mem T → Val Q C → Mem T → Prop
  | .plain i, m, .plain j, m' => shape (m.val i) = shape (m'.val j)
  | .const c, _, .const d, _ => c = d
  | .nil, _, .nil, _ => True
  | .cons a b, m, .cons a' b', m' => SameKind shape a m a' m' ∧ SameKind shape b m b' m'
  | .obj a, m, .obj a', m' => SameKind shape a m a' m'
  | _, _, _, _ => False

/-- A function that answers from the shapes (and other attributes) of its arguments alone. -/
def Attribute (shape : T → S) (f : Val Q C → Mem T → Res T Q C) : Prop :=
  ∀ a m a' m', SameKind shape a m a' m' → (f a m).2 = (f a' m').2

/-- The methods of a tensor named after a type, and the type (documentation of `torch.Tensor`). -/
inductive CastTo : String → DType → Prop
  | double : CastTo "double" .float64
  | float : CastTo "float" .float32
  | half : CastTo "half" .float16
  | bfloat16 : CastTo "bfloat16" .bfloat16
  | long : CastTo "long" .int64
  | int : CastTo "int" .int32
  | short : CastTo "short" .int16
  | char : CastTo "char" .int8
  | cdouble : CastTo "cdouble" .complex128
  | cfloat : CastTo "cfloat" .complex64
  | chalf : CastTo "chalf" .complex32
  | bool : CastTo "bool" .bool
  | byte : CastTo "byte" .uint8

/-- A parameter at its new place: a tensor with the same contents at device `d`, anything else as it was. -/
def MovedTo {P : Type} (d : ℕ) : Placed T ⊕ P → Placed T ⊕ P → Prop
  | .inl y, .inl y' => y'.t = y.t ∧ y'.dev = d
  | .inr c, .inr c' => c' = c
  | _, _ => False

/-! ### Lemmas -/

theorem raw_of_no_quant {a : Val Q C} (h : ¬ HasQuant a) : raw a = a := by
  induction a with
  | plain => rfl
  | quant id q => exact absurd (.here id q) h
  | const => rfl
  | nil => rfl
  | cons a b ha hb => rw [raw, ha fun x => h (.left _ _ x), hb fun x => h (.right _ _ x)]
  | obj a ha => rw [raw, ha fun x => h (.inside _ x)]

theorem onValues_of_no_quant (deq : Q → T → T) {a : Val Q C} (h : ¬ HasQuant a) (m : Mem T) : OnValues deq a m a m := by
  induction a with
  | plain => exact .plain _ _
  | quant id q => exact absurd (.here id q) h
  | const => exact .const _ _
  | nil => exact .nil _
  | cons a b ha hb => exact .cons _ _ _ _ _ _ _ (ha fun x => h (.left _ _ x)) (hb fun x => h (.right _ _ x))
  | obj a ha => exact .obj _ _ _ _ (ha fun x => h (.inside _ x))

theorem dequantAll_spec (w : World F T Q C S) {a : Val Q C} (h : Visible a) (m : Mem T) :
    OnValues w.deq a m (dequantAll w a m).1 (dequantAll w a m).2 ∧ raw (dequantAll w a m).1 = (dequantAll w a m).1 := by
  induction h generalizing m with
  | plain => exact ⟨.plain _ _, rfl⟩
  | quant id q =>
    refine ⟨.quant _ _ _ _ ?_ ?_ rfl, rfl⟩
    · simp [Mem.alloc, dequantAll]
    · intro i hi; simp [Mem.alloc, dequantAll, hi]
  | const => exact ⟨.const _ _, rfl⟩
  | nil => exact ⟨.nil _, rfl⟩
  | cons a b _ _ ha hb =>
    refine ⟨.cons _ _ _ _ _ _ _ (ha m).1 (hb _).1, ?_⟩
    rw [dequantAll, raw, (ha m).2, (hb _).2]
  | obj a ha => exact ⟨.obj _ _ _ _ (onValues_of_no_quant _ ha m), by
      show Val.obj (raw a) = _
      rw [raw_of_no_quant ha]; rfl⟩

theorem dequantAll_mem (w : World F T Q C S) (a : Val Q C) (m : Mem T) :
    m.next ≤ (dequantAll w a m).2.next ∧ ∀ i, i < m.next → (dequantAll w a m).2.val i = m.val i := by
  induction a generalizing m with
  | plain | const | nil | obj => exact ⟨Nat.le_refl _, fun _ _ => rfl⟩
  | quant id q =>
    refine ⟨Nat.le_succ _, fun i hi => ?_⟩
    have : i ≠ m.next := Nat.ne_of_lt hi
    simp [dequantAll, Mem.alloc, this]
  | cons a b ha hb =>
    have h1 := ha m
    have h2 := hb (dequantAll w a m).2
    exact ⟨Nat.le_trans h1.1 h2.1, fun i hi => (h2.2 i (Nat.lt_of_lt_of_le hi h1.1)).trans (h1.2 i hi)⟩

theorem dequantAll_plain (w : World F T Q C S) (a : Val Q C) (m : Mem T) {i : ℕ} (hi : i < m.next) (h : PlainIn i (dequantAll w a m).1) :
    PlainIn i a := by
  induction a generalizing m with
  | plain | const | nil | obj => exact h
  | quant id q => cases h; omega
  | cons a b ha hb =>
    cases h with
    | left _ _ h => exact .left _ _ (ha m hi h)
    | right _ _ h => exact .right _ _ (hb _ (Nat.lt_of_lt_of_le hi (dequantAll_mem w a m).1) h)

theorem onValues_mem {deq : Q → T → T} {a a' : Val Q C} {m m' : Mem T} (h : OnValues deq a m a' m') :
    m.next ≤ m'.next ∧ ∀ i, i < m.next → m'.val i = m.val i := by
  induction h with
  | plain | const | nil => exact ⟨Nat.le_refl _, fun _ _ => rfl⟩
  | quant id q m m' _ h2 h3 => exact ⟨by omega, fun i hi => h2 i (Nat.ne_of_lt hi)⟩
  | cons _ _ _ _ _ _ _ _ _ h1 h2 =>
    exact ⟨Nat.le_trans h1.1 h2.1, fun i hi => (h2.2 i (Nat.lt_of_lt_of_le hi h1.1)).trans (h1.2 i hi)⟩
  | obj _ _ _ _ _ h => exact h

theorem onValues_sameKind {deq : Q → T → T} {shape : T → S} (hs : ∀ q t, shape (deq q t) = shape t) {a a' : Val Q C} {m m' : Mem T}
    (h : OnValues deq a m a' m') {n : ℕ} (hu : InUse n a) (hn : n ≤ m.next) (m0 mf : Mem T) (h0 : ∀ i, i < n → m.val i = m0.val i)
    (hf : ∀ i, i < m'.next → mf.val i = m'.val i) : SameKind shape (raw a) m0 a' mf := by
  induction h generalizing mf with
  | plain id m =>
    cases hu with
    | plain _ hi =>
      show shape (m0.val id) = shape (mf.val id)
      rw [hf id (by omega), h0 id hi]
  | const c m => exact rfl
  | nil m => trivial
  | quant id q m m' h1 h2 h3 =>
    cases hu with
    | quant _ _ hi =>
      show shape (m0.val id) = shape (mf.val m.next)
      rw [hf m.next (by omega), h1, hs, h0 id hi]
  | cons a b a' b' m m1 m2 ha hb iha ihb =>
    cases hu with
    | cons _ _ hua hub =>
      have k1 := onValues_mem ha
      have k2 := onValues_mem hb
      refine ⟨iha hua hn mf h0 fun i hi => ?_, ihb hub (by omega) mf (fun i hi => ?_) hf⟩
      · rw [hf i (by omega), k2.2 i hi]
      · rw [k1.2 i (by omega), h0 i hi]
  | obj a a' m m' _ ih =>
    cases hu with
    | obj _ hu => exact ih hu hn mf h0 hf

theorem foldl_other {l : List (String × Item)} {op : String} (h : ∀ x ∈ l, x.1 ≠ op) (t : Table) :
    (l.foldl (fun t r => register t r.1 r.2) t) op = t op := by
  induction l generalizing t with
  | nil => rfl
  | cons x xs ih =>
    rw [List.foldl_cons, ih fun y hy => h y (List.mem_cons_of_mem _ hy)]
    have : ¬ op = x.1 := fun e => h x (List.mem_cons_self) e.symm
    simp [register, this]

theorem run_other {op : String} {es : List Event} (h : Unrelated op es) (s : St) (hk : ∀ k it, s.hooks k ≠ some (op, it)) :
    (s.run es).table op = s.table op := by
  induction es generalizing s with
  | nil => rfl
  | cons e es ih =>
    have h' : Unrelated op es := fun k it hm => h k it (List.mem_cons_of_mem _ hm)
    show ((s.step e).run es).table op = _
    cases e with
    | reg k o it =>
      have ho : ¬ o = op := fun e => h k it (by rw [← e]; exact List.mem_cons_self)
      rw [ih h' _ ?_]
      · have : ¬ op = o := fun e => ho e.symm
        simp [St.step, register, this]
      · intro j it'
        show (if j = k then some (o, it) else s.hooks j) ≠ _
        by_cases hj : j = k
        · rw [if_pos hj]; intro e; injection e with e; injection e with e1 _; exact ho e1
        · rw [if_neg hj]; exact hk j it'
    | exit k =>
      cases hh : s.hooks k with
      | none =>
        have : s.step (.exit k) = s := by simp [St.step, hh]
        rw [this]; exact ih h' s hk
      | some x =>
        obtain ⟨o, it⟩ := x
        have ho : ¬ op = o := fun e => hk k it (by rw [hh, e])
        have : s.step (.exit k) = ⟨unregister s.table o it, s.hooks⟩ := by simp [St.step, hh]
        rw [this, ih h' ⟨unregister s.table o it, s.hooks⟩ hk]
        simp [unregister, ho]

theorem tableAfter_other {op : String} {es : List Event} (h : Unrelated op es) (attrs : List String) :
    tableAfter attrs es op = imported attrs op := run_other h _ (by intro k it; simp)

theorem inplace_ne {op s : String} (h : inplaceName op = true) (hs : inplaceName s = false) : s ≠ op := by
  intro e; rw [e, h] at hs; exact absurd hs (by decide)

theorem casts_not_inplace : ∀ x ∈ castRegs.zipIdx.map (fun x => ((x.1.1, ⟨0, x.2 + 1, 0⟩) : String × Item)), inplaceName x.1 = false := by
  decide +kernel

theorem imported_inplace {attrs : List String} (hd : attrs.Nodup) {op : String} (ho : op ∈ attrs) (hi : inplaceName op = true) :
    imported attrs op = [⟨0, 0, 2⟩] := by
  have hm : op ∈ attrs.filter inplaceName := List.mem_filter.2 ⟨ho, hi⟩
  have hn : (attrs.filter inplaceName).Nodup := hd.filter _
  obtain ⟨l, r, hlr⟩ := List.append_of_mem hm
  rw [hlr] at hn
  have hl : op ∉ l := by
    intro hx
    rw [List.nodup_append] at hn
    exact hn.2.2 op hx op List.mem_cons_self rfl
  have hr : op ∉ r := by
    rw [List.nodup_append] at hn
    exact (List.nodup_cons.1 hn.2.1).1
  have he : ∀ s ∈ removedNames,
      inplaceName s = false := by decide +kernel
  unfold imported importRegs
  rw [hlr, List.map_append, List.map_cons]
  simp only [List.foldl_append, List.foldl_cons, List.foldl_nil]
  have hv : ¬ op = "view_as" := by
    intro e; rw [e] at hi; revert hi; decide +kernel
  rw [show ∀ (t : Table) it, register t "view_as" it op = t op from fun t it => by simp [register, hv],
    show ∀ (t : Table) it, register t "view_as" it op = t op from fun t it => by simp [register, hv]]
  rw [foldl_other (op := op) (l := r.map fun n => ((n, ⟨0, 0, 2⟩) : String × Item))]
  · simp only [register, if_pos]
    rw [foldl_other, foldl_other, foldl_other]
    · rfl
    · intro x hx; exact inplace_ne hi (casts_not_inplace x hx)
    · intro x hx
      obtain ⟨n, hn, rfl⟩ := List.mem_map.1 hx
      exact inplace_ne hi (he n hn)
    · intro x hx
      obtain ⟨n, hn, rfl⟩ := List.mem_map.1 hx
      intro e; exact hl (e ▸ hn)
  · intro x hx
    obtain ⟨n, hn, rfl⟩ := List.mem_map.1 hx
    intro e; exact hr (e ▸ hn)

theorem imported_cast (attrs : List String) {d : ℕ} {op : String} {ty : DType} (h : ((op, ty), d) ∈ castRegs.zipIdx) : imported attrs op = [⟨0, d + 1, 0⟩] := by
  have h1 : ∀ x ∈ castRegs.zipIdx, ((castRegs.zipIdx.map fun x => ((x.1.1, ⟨0, x.2 + 1, 0⟩) : String × Item)).foldl
      (fun t r => register t r.1 r.2) (fun _ => [])) x.1.1 = [⟨0, x.2 + 1, 0⟩] := by decide +kernel
  have h2 : ∀ x ∈ castRegs.zipIdx, inplaceName x.1.1 = false ∧ x.1.1 ≠ "view_as" ∧
      x.1.1 ∉ removedNames := by decide +kernel
  obtain ⟨k1, k2, k3⟩ := h2 _ h
  unfold imported importRegs
  rw [List.append_assoc, List.append_assoc, List.foldl_append, foldl_other, h1 _ h]
  intro x hx
  rw [List.mem_append, List.mem_append] at hx
  rcases hx with hx | hx | hx
  · obtain ⟨n, hn, rfl⟩ := List.mem_map.1 hx
    intro e; exact k3 (e ▸ hn)
  · obtain ⟨n, hn, rfl⟩ := List.mem_map.1 hx
    have := (List.mem_filter.1 hn).2
    intro e
    simp only at e
    rw [e, k1] at this
    exact absurd this (by decide)
  · intro e
    apply k2
    simp only [List.mem_cons, List.not_mem_nil, or_false] at hx
    rcases hx with hx | hx <;> rw [hx] at e <;> exact e.symm

theorem imported_viewAs (attrs : List String) : imported attrs "view_as" = [⟨2, 15, 0⟩, ⟨1, 14, 1⟩] := by
  unfold imported importRegs
  simp only [List.foldl_append, List.foldl_cons, List.foldl_nil]
  have : ∀ x ∈ castRegs.zipIdx.map (fun x => ((x.1.1, ⟨0, x.2 + 1, 0⟩) : String × Item)), x.1 ≠ "view_as" := by decide +kernel
  rw [show ∀ (t : Table), t "view_as" = [] → register (register t "view_as" ⟨1, 14, 1⟩) "view_as" ⟨2, 15, 0⟩ "view_as" = [⟨2, 15, 0⟩, ⟨1, 14, 1⟩] from
    fun t ht => by simp only [register, if_pos, ht]; decide +kernel]
  rw [foldl_other, foldl_other, foldl_other this]
  · intro x hx
    obtain ⟨n, hn, rfl⟩ := List.mem_map.1 hx
    intro e
    simp only at e
    rw [e] at hn
    revert hn; decide +kernel
  · intro x hx
    obtain ⟨n, hn, rfl⟩ := List.mem_map.1 hx
    have := (List.mem_filter.1 hn).2
    intro e
    simp only at e
    rw [e] at this
    revert this; decide +kernel

variable [DecidableEq S]

/-! ### Properties -/

/-- **C114 (partial).** A function for which no kernel accepts the arguments is computed on the values of all quantized tensors among the arguments, in
lists, tuples and dictionaries of any depth, and never on their codes. Missing: tensors inside other objects, see `hidden_in_object`, the
functions passed on, see `is_nonzero_of_codes`, and what kernels do, see `kernel_sees_codes`. -/
theorem computed_on_values_partial (w : World F T Q C S) (t : Table) (f : F) (a : Val Q C) (m : Mem T) (hx : w.excluded f = false)
    (hd : dispatch t (w.name f) (holds w a m) = none) (hv : Visible a) :
    ∃ a' m', OnValues w.deq a m a' m' ∧ torchFunction w t false f a m = w.torch f a' m' := by
  obtain ⟨h1, h2⟩ := dequantAll_spec w hv m
  refine ⟨_, _, h1, ?_⟩
  simp only [torchFunction, hx, hd, fallback, direct, h2, Bool.false_eq_true, if_false]

/-- **C114.** With strict quantization such a call is an error and does nothing. -/
theorem strict_refuses (w : World F T Q C S) (t : Table) (f : F) (a : Val Q C) (m : Mem T) (hx : w.excluded f = false)
    (hd : dispatch t (w.name f) (holds w a m) = none) : torchFunction w t true f a m = (m, .error .quantization) := by
  simp only [torchFunction, hx, hd, fallback, Bool.false_eq_true, if_false, if_true]

/-- **C114.** After any history of registrations and ended registrations, what runs is the kernel of the most recent registration of the best priority
that accepts the arguments. Only without one there is dequantization or the error of strict quantization. -/
theorem kernel_first (w : World F T Q C S) (es : List Event) (hd : Distinct es) (strict : Bool) (f : F) (a : Val Q C) (m : Mem T)
    (hx : w.excluded f = false) : ∃ r, Picks (live es []) (w.name f) (holds w a m) r ∧
      torchFunction w (St.init.run es).table strict f a m = match r with
        | some k => kernel w k a m
        | none => fallback w strict f a m := by
  refine ⟨_, dispatch_most_recent_best_partial es hd (w.name f) (holds w a m), ?_⟩
  simp only [torchFunction, hx, Bool.false_eq_true, if_false]

/-- **C114 (partial).** Dequantization for a function leaves every quantized operand as it is: only storages of plain tensors among the arguments can be
written to. Missing: tensors inside other objects. -/
theorem operands_untouched_partial (w : World F T Q C S) (t : Table) (strict : Bool) (f : F) (a : Val Q C) (m : Mem T) (hx : w.excluded f = false)
    (hd : dispatch t (w.name f) (holds w a m) = none) (hv : Visible a) (hw : WritesArgs (w.torch f)) (i : ℕ) (hi : i < m.next)
    (hp : ¬ PlainIn i a) : (torchFunction w t strict f a m).1.val i = m.val i := by
  cases strict with
  | true => rw [strict_refuses w t f a m hx hd]
  | false =>
    have h2 := (dequantAll_spec w hv m).2
    simp only [torchFunction, hx, hd, fallback, direct, h2, Bool.false_eq_true, if_false]
    obtain ⟨k1, k2⟩ := dequantAll_mem w a m
    rw [hw _ _ i (by omega) fun h => hp (dequantAll_plain w a m hi h), k2 i hi]

/-- **C114.** In-place operations are refused for quantized tensors, with nothing written, unless the user registers one: this holds for every
method of a tensor whose name ends in one underscore. -/
theorem inplace_refused (w : World F T Q C S) (attrs : List String) (hn : attrs.Nodup) (es : List Event) (strict : Bool) (f : F)
    (hx : w.excluded f = false) (ha : w.name f ∈ attrs) (hi : inplaceName (w.name f) = true) (hu : Unrelated (w.name f) es)
    (id : ℕ) (q : Q) (rest : Val Q C) (m : Mem T) :
    torchFunction w (tableAfter attrs es) strict f (.cons (.quant id q) rest) m = (m, .error .notImplemented) := by
  simp only [torchFunction, hx, dispatch, tableAfter_other hu, imported_inplace hn ha hi, Bool.false_eq_true, if_false]
  rfl

/-- **C114.** A cast of a quantized tensor is the cast of its values, with or without strict quantization, in a storage of its own. -/
theorem cast_of_values (w : World F T Q C S) (attrs : List String) (es : List Event) (strict : Bool) (f : F) (hx : w.excluded f = false)
    (d : DType) (hc : CastTo (w.name f) d) (hu : Unrelated (w.name f) es) (id : ℕ) (q : Q) (m : Mem T) :
    ∃ m', torchFunction w (tableAfter attrs es) strict f (.cons (.quant id q) .nil) m = (m', .ok (.plain m.next)) ∧
      m'.val m.next = w.cast d (w.deq q (m.val id)) ∧ ∀ i, i < m.next → m'.val i = m.val i := by
  have key : ∀ i, ((w.name f, d), i) ∈ castRegs.zipIdx → i ≤ 12 → castRegs[i]? = some (w.name f, d) →
      torchFunction w (tableAfter attrs es) strict f (.cons (.quant id q) .nil) m =
        (m.alloc (w.cast d (w.deq q (m.val id))), .ok (.plain m.next)) := by
    intro i hm hi hg
    simp only [torchFunction, hx, dispatch, tableAfter_other hu, imported_cast attrs hm, Bool.false_eq_true, if_false]
    show kernel w (i + 1) _ m = _
    rw [kernel, if_neg (by omega), if_pos (by omega), Nat.add_sub_cancel, hg]
    rfl
  refine ⟨m.alloc (w.cast d (w.deq q (m.val id))), ?_, by simp [Mem.alloc], fun i hi => ?_⟩
  · generalize hn : w.name f = n at hc key
    cases hc
    · exact key 0 (by decide +kernel) (by omega) rfl
    · exact key 1 (by decide +kernel) (by omega) rfl
    · exact key 2 (by decide +kernel) (by omega) rfl
    · exact key 3 (by decide +kernel) (by omega) rfl
    · exact key 4 (by decide +kernel) (by omega) rfl
    · exact key 5 (by decide +kernel) (by omega) rfl
    · exact key 6 (by decide +kernel) (by omega) rfl
    · exact key 7 (by decide +kernel) (by omega) rfl
    · exact key 8 (by decide +kernel) (by omega) rfl
    · exact key 9 (by decide +kernel) (by omega) rfl
    · exact key 10 (by decide +kernel) (by omega) rfl
    · exact key 11 (by decide +kernel) (by omega) rfl
    · exact key 12 (by decide +kernel) (by omega) rfl
  · have : i ≠ m.next := Nat.ne_of_lt hi
    simp [Mem.alloc, this]

/-- **C114 (partial).** Functions passed on answer as for the values when they answer from what dequantization keeps. Missing: what it does not
keep (the data type) and functions that look at the contents, see `is_nonzero_of_codes`. -/
theorem attributes_as_of_values_partial (w : World F T Q C S) (t : Table) (strict : Bool) (f : F) (a : Val Q C) (m : Mem T)
    (hx : w.excluded f = true) (hf : Attribute w.shape (w.torch f)) (hs : ∀ q x, w.shape (w.deq q x) = w.shape x) (hu : InUse m.next a)
    (a' : Val Q C) (m' : Mem T) (hv : OnValues w.deq a m a' m') : (torchFunction w t strict f a m).2 = (w.torch f a' m').2 := by
  simp only [torchFunction, hx, if_true, direct]
  exact hf _ _ _ _ (onValues_sameKind hs hv hu (Nat.le_refl _) m m' (fun _ _ => rfl) fun _ _ => rfl)

/-- **C114.** Moving a quantized tensor to a device moves its codes and all tensors among its parameters there, and changes no value and no name. -/
theorem moved_whole {P : Type} (d : ℕ) (copy : Bool) (fresh : ℕ) (x : QT T P) :
    (move (some d) copy fresh x).codes.t = x.codes.t ∧ (move (some d) copy fresh x).codes.dev = d ∧
    (move (some d) copy fresh x).params.length = x.params.length ∧
    ∀ (i : ℕ) (n : String) (p : Placed T ⊕ P), x.params[i]? = some (n, p) → ∃ p', (move (some d) copy fresh x).params[i]? = some (n, p') ∧ MovedTo d p p' := by
  have hp : ∀ y : Placed T, (place (some d) fresh y).t = y.t ∧ (place (some d) fresh y).dev = d := by
    intro y
    simp only [place]
    by_cases h : y.dev = d
    · rw [if_pos h]; exact ⟨rfl, h⟩
    · rw [if_neg h]; exact ⟨rfl, rfl⟩
  refine ⟨(hp _).1, (hp _).2, by simp [move], ?_⟩
  intro i n p h
  cases p with
  | inl y => exact ⟨.inl (place (some d) fresh y), by simp [move, h], hp y⟩
  | inr c => exact ⟨.inr c, by simp [move, h], rfl⟩

/-- **C114 (partial).** `cuda` moves to the device it is given, and to the current one if it is given none. Missing: index 0, see
`cuda_zero_is_current`. -/
theorem cuda_goes_partial {P : Type} (current : ℕ) (n : ℕ) (fresh : ℕ) (x : QT T P) :
    (cuda current .absent fresh x).codes.dev = current ∧ (cuda current (.named n) fresh x).codes.dev = n ∧
      (n ≠ 0 → (cuda current (.index n) fresh x).codes.dev = n) := by
  refine ⟨(moved_whole current false fresh x).2.1, (moved_whole n false fresh x).2.1, fun h => ?_⟩
  obtain ⟨k, rfl⟩ := Nat.exists_eq_succ_of_ne_zero h
  exact (moved_whole (k + 1) false fresh x).2.1

/-- **C114.** `q.view_as(x)` for a tensor of the same shape is the same quantized tensor: the same codes in the same storage and the same quantization, for every
kind of quantization. -/
theorem view_as_same_shape (w : World F T Q C S) (attrs : List String) (es : List Event) (strict : Bool) (f : F) (hx : w.excluded f = false)
    (hn : w.name f = "view_as") (hu : Unrelated "view_as" es) (id x : ℕ) (q : Q) (m : Mem T) (hs : w.shape (m.val x) = w.shape (m.val id)) :
    torchFunction w (tableAfter attrs es) strict f (.cons (.quant id q) (.cons (.plain x) .nil)) m = (m, .ok (.quant id q)) := by
  have h1 : ∃ k, (k = 14 ∨ k = 15) ∧ dispatch (tableAfter attrs es) (w.name f) (holds w (.cons (.quant id q) (.cons (.plain x) .nil)) m) = some k := by
    rw [hn, dispatch, tableAfter_other hu, imported_viewAs]
    cases hp : w.perTensor q with
    | true => exact ⟨15, .inr rfl, by simp [holds, List.find?, hp]⟩
    | false => exact ⟨14, .inl rfl, by simp [holds, idOf?, hs, List.find?, hp]⟩
  obtain ⟨k, hk, h1⟩ := h1
  simp only [torchFunction, hx, h1, Bool.false_eq_true, if_false]
  rcases hk with rfl | rfl <;> rfl

theorem imported_removed (attrs : List String) {op : String} (h : op ∈ ["__reversed__", "__setitem__"]) :
    imported attrs op = [⟨0, 0, 2⟩] := by
  have h1 : ∀ n ∈ ["__reversed__", "__setitem__"], ((removedNames.map (fun n => ((n, ⟨0, 0, 2⟩) : String × Item))).foldl (fun t r => register t r.1 r.2)
      ((castRegs.zipIdx.map fun x => ((x.1.1, ⟨0, x.2 + 1, 0⟩) : String × Item)).foldl (fun t r => register t r.1 r.2) (fun _ => []))) n = [⟨0, 0, 2⟩] := by decide +kernel
  have h2 : ∀ n ∈ ["__reversed__", "__setitem__"], inplaceName n = false ∧ n ≠ "view_as" := by decide +kernel
  obtain ⟨k1, k2⟩ := h2 _ h
  unfold imported importRegs
  rw [List.append_assoc (_ ++ _), List.foldl_append, foldl_other, List.foldl_append, h1 _ h]
  intro x hx
  rw [List.mem_append] at hx
  rcases hx with hx | hx
  · obtain ⟨n, hn, rfl⟩ := List.mem_map.1 hx
    have := (List.mem_filter.1 hn).2
    intro e
    simp only at e
    rw [e, k1] at this
    exact absurd this (by decide)
  · intro e
    apply k2
    simp only [List.mem_cons, List.not_mem_nil, or_false] at hx
    rcases hx with hx | hx <;> rw [hx] at e <;> exact e.symm

/-- **C114.** Assignment to an index and reversal are refused for quantized tensors, with nothing written, unless a kernel is registered for them. -/
theorem index_assignment_refused (w : World F T Q C S) (attrs : List String) (es : List Event) (strict : Bool) (f : F)
    (hx : w.excluded f = false) (ha : w.name f ∈ ["__reversed__", "__setitem__"]) (hu : Unrelated (w.name f) es)
    (id : ℕ) (q : Q) (rest : Val Q C) (m : Mem T) :
    torchFunction w (tableAfter attrs es) strict f (.cons (.quant id q) rest) m = (m, .error .notImplemented) := by
  simp only [torchFunction, hx, dispatch, tableAfter_other hu, imported_removed attrs ha, Bool.false_eq_true, if_false]
  rfl

/-! ### Deviations -/

/-- **C114, deviation.** `is_nonzero` is among the functions passed on and looks at the codes: for any code but 0 there is an offset for which the
value is 0 and the answer is that it is not. -/
theorem is_nonzero_of_codes (w : World F Int (Int × Int) Bool S) (t : Table) (strict : Bool) (f : F) (hn : w.name f = "is_nonzero")
    (hx : w.excluded f = noDispatch.contains (w.name f)) (hd : ∀ s o x, w.deq (s, o) x = (x + o) * s)
    (hf : ∀ id m, w.torch f (.cons (.plain id) .nil) m = (m, .ok (.const (decide (m.val id ≠ 0))))) (code scale : Int) (h : code ≠ 0) (m : Mem Int)
    (id : ℕ) (hm : m.val id = code) : ∃ q, w.deq q (m.val id) = 0 ∧
      (torchFunction w t strict f (.cons (.quant id q) .nil) m).2 = .ok (.const true) := by
  have hx' : w.excluded f = true := by rw [hx, hn]; decide +kernel
  refine ⟨(scale, -code), by rw [hd, hm, Int.add_right_neg, Int.zero_mul], ?_⟩
  simp only [torchFunction, hx', if_true, direct, raw, hf, hm]
  simp [h]

/-- **C114, deviation.** A write through a function that has no kernel is lost: after `q.data = x` or with `out=q` the quantized tensor is what it was,
and there is no error. -/
theorem write_lost (w : World F T Q C S) (t : Table) (f : F) (v : T) (id : ℕ) (q : Q) (rest : Val Q C) (m : Mem T) (hx : w.excluded f = false)
    (hd : dispatch t (w.name f) (holds w (.cons (.quant id q) rest) m) = none) (hv : Visible rest) (hw : WritesArgs (w.torch f))
    (hset : ∀ i r m, (w.torch f (.cons (.plain i) r) m).1.val i = v ∧ (w.torch f (.cons (.plain i) r) m).2 = .ok .nil)
    (hi : id < m.next) (hp : ¬ PlainIn id rest) :
    (torchFunction w t false f (.cons (.quant id q) rest) m).1.val id = m.val id ∧
      (torchFunction w t false f (.cons (.quant id q) rest) m).2 = .ok .nil := by
  have hvis : Visible (Val.cons (.quant id q) rest) := .cons _ _ (.quant _ _) hv
  refine ⟨operands_untouched_partial w t false f _ m hx hd hvis hw id hi ?_, ?_⟩
  · intro h
    cases h with
    | left _ _ h => cases h
    | right _ _ h => exact hp h
  · simp only [torchFunction, hx, hd, fallback, direct, (dequantAll_spec w hvis m).2, Bool.false_eq_true, if_false]
    exact (hset _ _ _).2

/-- **C114, deviation.** An in-place operation on a plain tensor is refused as well as soon as an operand is quantized: `x += q` is an error. -/
theorem inplace_on_plain_refused (w : World F T Q C S) (attrs : List String) (hn : attrs.Nodup) (es : List Event) (strict : Bool) (f : F)
    (hx : w.excluded f = false) (ha : w.name f ∈ attrs) (hi : inplaceName (w.name f) = true) (hu : Unrelated (w.name f) es)
    (x id : ℕ) (q : Q) (m : Mem T) :
    torchFunction w (tableAfter attrs es) strict f (.cons (.plain x) (.cons (.quant id q) .nil)) m = (m, .error .notImplemented) := by
  simp only [torchFunction, hx, dispatch, tableAfter_other hu, imported_inplace hn ha hi, Bool.false_eq_true, if_false]
  rfl

/-- **C114, deviation.** Within a kernel a quantized tensor is its codes for all functions: a kernel that does no more than call another
function gives the result of that function for the codes. -/
theorem kernel_sees_codes (w : World F T Q C S) (t : Table) (strict : Bool) (f g : F) (k : ℕ) (a : Val Q C) (m : Mem T) (hx : w.excluded f = false)
    (hd : dispatch t (w.name f) (holds w a m) = some k) (hk : 15 < k) (hu : ∀ call a m, w.userFn k call a m = call g a m) :
    torchFunction w t strict f a m = w.torch g (raw a) m := by
  simp only [torchFunction, hx, hd, Bool.false_eq_true, if_false]
  rw [kernel, if_neg (by omega), if_neg (by omega), if_neg (by omega), hu, direct]

/-- **C114, deviation.** A quantized tensor inside an object that is no list, tuple or dictionary is not dequantized; the function is computed on its
codes. -/
theorem hidden_in_object (w : World F T Q C S) (t : Table) (f : F) (id : ℕ) (q : Q) (m : Mem T) (hx : w.excluded f = false)
    (hd : dispatch t (w.name f) (holds w (.cons (.obj (.quant id q)) .nil) m) = none) :
    torchFunction w t false f (.cons (.obj (.quant id q)) .nil) m = w.torch f (.cons (.obj (.plain id)) .nil) m := by
  simp only [torchFunction, hx, hd, fallback, direct, dequantAll, raw, Bool.false_eq_true, if_false]

/-- **C114, deviation.** `x.view_as(q)` for a plain tensor of the shape of the quantized one fails: the kernel for quantized tensors is chosen. -/
theorem view_as_of_plain_fails (w : World F T Q C S) (attrs : List String) (es : List Event) (strict : Bool) (f : F) (hx : w.excluded f = false)
    (hn : w.name f = "view_as") (hu : Unrelated "view_as" es) (x id : ℕ) (q : Q) (m : Mem T) (hs : w.shape (m.val id) = w.shape (m.val x)) :
    torchFunction w (tableAfter attrs es) strict f (.cons (.plain x) (.cons (.quant id q) .nil)) m = (m, .error .attribute) := by
  have h1 : dispatch (tableAfter attrs es) (w.name f) (holds w (.cons (.plain x) (.cons (.quant id q) .nil)) m) = some 14 := by
    rw [hn, dispatch, tableAfter_other hu, imported_viewAs]
    simp [holds, idOf?, hs, List.find?]
  simp only [torchFunction, hx, h1, Bool.false_eq_true, if_false]
  rfl

omit [DecidableEq S] in
/-- **C114, deviation.** `q.cuda(0)` moves to the current device, whichever it is. -/
theorem cuda_zero_is_current {P : Type} (current : ℕ) (fresh : ℕ) (x : QT T P) : (cuda current (.index 0) fresh x).codes.dev = current :=
  (moved_whole current false fresh x).2.1

omit [DecidableEq S] in
/-- **C114, deviation.** `to(..., copy=True)` makes no copy if the tensor is at the device already. -/
theorem no_copy_made {P : Type} (fresh : ℕ) (x : QT T P) : (move (some x.codes.dev) true fresh x).codes.store = x.codes.store := by
  simp [move, place]

/-! ### Concrete cases -/

/-- Whole numbers as tensors; a function named `add` that adds, `relu_` that writes, `is_nonzero` and `float`. -/
def exWorld : World String Int (Int × Int) Bool Unit where
  name f := f
  excluded f := noDispatch.contains f
  deq q x := (x + q.2) * q.1
  torch f a m := match f, a with
    | "add", .cons (.plain i) (.cons (.plain j) .nil) => (m.alloc (m.val i + m.val j), .ok (.plain m.next))
    | "is_nonzero", .cons (.plain i) .nil => (m, .ok (.const (decide (m.val i ≠ 0))))
    | "set", .cons (.plain i) .nil => (⟨fun j => if j = i then 7 else m.val j, m.next⟩, .ok .nil)
    | _, _ => (m, .error .type)
  cast _ x := x
  shape _ := ()
  perTensor _ := false
  userPred _ _ := false
  userFn _ call a m := call "add" a m

def exMem : Mem Int := ⟨fun i => [5, 3, 0][i]?.getD 0, 3⟩

def exTable : Table := tableAfter ["add", "add_", "relu_", "__iadd__"] []

/-- `(5 + 1) * 2 + 3`. -/
example : (torchFunction exWorld exTable false "add" (.cons (.quant 0 (2, 1)) (.cons (.plain 1) .nil)) exMem).1.val 4 = 15 := by decide +kernel

example : (torchFunction exWorld exTable false "add" (.cons (.quant 0 (2, 1)) (.cons (.plain 1) .nil)) exMem).2 = .ok (.plain 4) := rfl

example : (torchFunction exWorld exTable true "add" (.cons (.quant 0 (2, 1)) (.cons (.plain 1) .nil)) exMem).2 = .error .quantization := rfl

example : (torchFunction exWorld exTable false "add_" (.cons (.quant 0 (2, 1)) (.cons (.plain 1) .nil)) exMem).2 = .error .notImplemented := rfl

/-- The value is 0. -/
example : (torchFunction exWorld exTable false "is_nonzero" (.cons (.quant 0 (2, -5)) .nil) exMem).2 = .ok (.const true) := rfl

/-- The write goes to the copy. -/
example : (torchFunction exWorld exTable false "set" (.cons (.quant 0 (2, 1)) .nil) exMem).1.val 0 = 5 ∧
    (torchFunction exWorld exTable false "set" (.cons (.quant 0 (2, 1)) .nil) exMem).1.val 3 = 7 := by decide +kernel

example : (torchFunction exWorld exTable false "float" (.cons (.quant 0 (2, 1)) .nil) exMem).1.val 3 = 12 := by decide +kernel

example : Visible (Val.cons (.quant 0 (2, 1)) (.cons (.plain 1) .nil) : Val (Int × Int) Bool) := .cons _ _ (.quant _ _) (.cons _ _ (.plain _) .nil)

example : cudaDevice 1 (.index 0) = 1 ∧ cudaDevice 1 (.index 2) = 2 ∧ cudaDevice 1 .absent = 1 := ⟨rfl, rfl, rfl⟩

end FF.TorchFn
