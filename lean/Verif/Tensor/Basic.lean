import Mathlib.Algebra.BigOperators.Group.List.Basic
import Mathlib.Tactic.Linarith
import Mathlib.Tactic.Ring

/-!
# A small model of PyTorch tensors

A tensor is a shape together with its elements in row-major order.  Only the shape operations the library relies on are
modelled (`reshape`, `permute`).  Trusted: that these definitions describe PyTorch's `Tensor.reshape` and `Tensor.permute`.
-/

namespace FF.Tens

/-- Exceptions raised by the shape code. -/
inductive TErr where
  | valueError
  | zeroDivision
  | runtimeError
  | indexError
  deriving DecidableEq, Repr

/-- Row-major strides of a contiguous tensor (PyTorch `Tensor.stride()` for contiguous data). -/
def strides : List ℕ → List ℕ
  | [] => []
  | _ :: ds => ds.prod :: strides ds

/-- Sum of products of two lists: the address of an index for given strides. -/
def dot : List ℕ → List ℕ → ℕ
  | a :: as, b :: bs => a * b + dot as bs
  | _, _ => 0

/-- Row-major position of a multi-index. -/
def ravel (shape idx : List ℕ) : ℕ := dot idx (strides shape)

/-- Multi-index of a row-major position. -/
def unravel : List ℕ → ℕ → List ℕ
  | [], _ => []
  | _ :: ds, k => k / ds.prod :: unravel ds (k % ds.prod)

/-- The multi-index lies inside the shape. -/
def InBounds (shape idx : List ℕ) : Prop := List.Forall₂ (· < ·) idx shape

/-- A tensor: a shape and the elements by row-major position (only positions below `numel` are meaningful). -/
structure Tensor (α : Type) where
  shape : List ℕ
  get : ℕ → α

variable {α : Type}

/-- `Tensor.numel()`. -/
def Tensor.numel (t : Tensor α) : ℕ := t.shape.prod

/-- Element at a multi-index. -/
def Tensor.at (t : Tensor α) (idx : List ℕ) : α := t.get (ravel t.shape idx)

/-- Two tensors are equal: same shape and same elements. -/
def Tensor.Same (t u : Tensor α) : Prop := t.shape = u.shape ∧ ∀ idx, InBounds t.shape idx → t.at idx = u.at idx

/-- `Tensor.reshape(shape)`: keep the row-major order; the number of elements must agree. -/
def Tensor.reshape (t : Tensor α) (shape : List ℕ) : Except TErr (Tensor α) :=
  if shape.prod = t.numel then .ok ⟨shape, t.get⟩ else .error .runtimeError

/-- `Tensor.permute(p)`: dimension `k` of the result is dimension `p[k]` of the input (size and stride). -/
def Tensor.permute (t : Tensor α) (p : List ℕ) : Tensor α :=
  let shape := p.map (t.shape.getD · 0)
  let st := p.map ((strides t.shape).getD · 0)
  ⟨shape, fun k => t.get (dot (unravel shape k) st)⟩

/-- Element-wise map. -/
def Tensor.map {β : Type} (f : α → β) (t : Tensor α) : Tensor β := ⟨t.shape, fun k => f (t.get k)⟩

end FF.Tens
