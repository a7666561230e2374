import Mathlib.Data.List.Sort
import Mathlib.Data.Nat.Notation

/-!
# Quantizer overrides

Models `/repo/src/fastforward/forward_override.py` and the override methods of `Quantizer` (`/repo/src/fastforward/nn/quantizer.py:373-416`).
-/

namespace FF.Overrides

/-- What an override does once it has been given the arguments: return a result, or call the overridden function and go on with the
result of that. This covers overrides that call it never, once, several times, or with other arguments. -/
inductive Body (A R : Type) where
  | ret (r : R)
  | call (a : A) (k : R → Body A R)

/-- `OverrideFn` (`forward_override.py:16-41`). -/
abbrev Override (A R : Type) := A → Body A R

/-- Run an override body; `f st a` calls the overridden function when the shared stack is `st` and returns the result and the stack
afterwards. -/
def Body.exec {A R : Type} (f : List (Override A R) → A → R × List (Override A R)) :
    Body A R → List (Override A R) → R × List (Override A R)
  | .ret r, st => (r, st)
  | .call a k, st => (k (f st a).1).exec f (f st a).2

/-- `_WrappedOverriddenFn.__call__` (`forward_override.py:88-93`): the overridden function is called when the stack is empty, else the
top of the stack (the head of the list here) is popped and called. The number bounds the nesting depth and is never reached when it is
at least the size of the stack. -/
def callWrapped {A R : Type} (base : A → R) : ℕ → List (Override A R) → A → R × List (Override A R)
  | _, [], a => (base a, [])
  | 0, st@(_ :: _), a => (base a, st)
  | n + 1, o :: st, a => (o a).exec (callWrapped base n) st

/-- `_quantizer_overrides` and the next handle id (`forward_override.py:52-58`). -/
structure St (A R : Type) where
  map : List (ℕ × Override A R) := []
  next : ℕ := 0

/-- `register_override` (`quantizer.py:373-392`): the new id is larger than all ids so far, so it is a new key of the dictionary. -/
def St.register {A R : Type} (s : St A R) (o : Override A R) : St A R × ℕ := (⟨s.map ++ [(s.next, o)], s.next + 1⟩, s.next)

/-- `remove_override` (`quantizer.py:394-406`). -/
def St.remove {A R : Type} (s : St A R) (id : ℕ) : St A R := { s with map := s.map.filter fun p => p.1 ≠ id }

/-- Python's `sorted` on `(id, function)` pairs; ids are different, so functions are never compared (`forward_override.py:85`). -/
def sortedItems {A R : Type} (m : List (ℕ × Override A R)) : List (ℕ × Override A R) := m.insertionSort fun a b => a.1 ≤ b.1

/-- `Quantizer.forward` with `apply_overrides` (`quantizer.py:414-416`, `forward_override.py:96-127`): the stack is popped from the
end, so its top is the last override in id order. -/
def St.forward {A R : Type} (s : St A R) (quantize : A → R) (a : A) : R :=
  if s.map.isEmpty then quantize a
  else
    let stack := ((sortedItems s.map).map (·.2)).reverse
    (callWrapped quantize stack.length stack a).1

/-- Client code: register overrides and remove handles. Handle ids are global over all quantizers (`forward_override.py:52-58`):
`other` stands for a registration on another quantizer. -/
inductive Event (A R : Type) where
  | register (o : Override A R)
  | remove (id : ℕ)
  | other

def St.step {A R : Type} (s : St A R) : Event A R → St A R
  | .register o => (s.register o).1
  | .remove id => s.remove id
  | .other => { s with next := s.next + 1 }

def St.run {A R : Type} (s : St A R) (es : List (Event A R)) : St A R := es.foldl St.step s

end FF.Overrides
