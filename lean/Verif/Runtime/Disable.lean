import Verif.Runtime.OverridesProps
import Verif.Runtime.Scope
import Mathlib.Logic.Function.Basic

/-!
# Disabling and enabling quantization

Models `/repo/src/fastforward/overrides.py:22-118,155-169` on top of the override model (`Verif.Runtime.Overrides`). A module is
represented by the list of quantizers that `named_quantizers` yields for it.
-/

namespace FF.Disable

open FF.Overrides FF.Scope

/-- An override of the user that calls its continuation at most once: it returns a result (`inl`), or calls the overridden function on
some argument and maps the result (`inr`). -/
abbrev UserOverride (A : Type) := A → A ⊕ (A × (A → A))

def UserOverride.toOverride {A : Type} (f : UserOverride A) : Override A A := fun a =>
  match f a with
  | .inl r => .ret r
  | .inr (a', k) => .call a' fun r => .ret (k r)

/-- Overrides found on a quantizer: `DisableQuantizationOverride` instances and others. -/
inductive Kind (A : Type) where
  | dq
  | user (f : UserOverride A)

/-- `DisableQuantizationOverride.__call__` (`overrides.py:107-118`). -/
def dqOverride {A : Type} (enabled : Bool) : Override A A := fun a => if enabled then .call a .ret else .ret a

/-- `ovs` are the `_quantizer_overrides` of all quantizers, `enabled` the `_quantization_enabled` attribute of the
`DisableQuantizationOverride` objects. In these programs each object is registered once, so its handle id identifies it. -/
structure St (Q A : Type) where
  ovs : Q → List (ℕ × Kind A)
  enabled : ℕ → Bool
  next : ℕ
  strict : Bool

variable {Q A : Type} [DecidableEq Q]

/-- `register_override` (`nn/quantizer.py:373-392`); a new `DisableQuantizationOverride` is not enabled (`overrides.py:77-79`). -/
def St.add (s : St Q A) (q : Q) (k : Kind A) : St Q A :=
  { s with
    ovs := Function.update s.ovs q (s.ovs q ++ [(s.next, k)])
    enabled := Function.update s.enabled s.next false
    next := s.next + 1 }

/-- `OverrideHandle.remove` (`forward_override.py:59-67`). -/
def St.remove (s : St Q A) (h : Q × ℕ) : St Q A :=
  { s with ovs := Function.update s.ovs h.1 ((s.ovs h.1).filter fun p => p.1 ≠ h.2) }

/-- The loop `overrides.py:31-33`. -/
def registerAll : List Q → St Q A → St Q A × List (Q × ℕ)
  | [], s => (s, [])
  | q :: qs, s =>
    let r := registerAll qs (s.add q .dq)
    (r.1, (q, s.next) :: r.2)

/-- The `DisableQuantizationOverride` objects on a list of quantizers (`overrides.py:55-57`). -/
def dqIds (s : St Q A) (qs : List Q) : List ℕ :=
  qs.flatMap fun q => (s.ovs q).filterMap fun p =>
    match p.2 with
    | .dq => some p.1
    | .user _ => none

/-- Entering `enable_quantization()` of the objects one after the other (`overrides.py:86-98`); the exit stack is kept with the last
entered context first. -/
def setAll : List ℕ → St Q A → St Q A × List (ℕ × Bool)
  | [], s => (s, [])
  | id :: ids, s =>
    let r := setAll ids { s with enabled := Function.update s.enabled id true }
    (r.1, r.2 ++ [(id, s.enabled id)])

/-- `_QuantizationContext.__exit__` (`overrides.py:164-165`) for the contexts of the exit stack. -/
def resetAll (l : List (ℕ × Bool)) (s : St Q A) : St Q A :=
  l.foldl (fun s x => { s with enabled := Function.update s.enabled x.1 x.2 }) s

/-- The context managers. -/
inductive Block (Q A : Type) where
  | disable (model : List Q)
  | enable (model : List Q)
  | override (q : Q) (f : UserOverride A)
  | strict (v : Bool)

/-- What a context manager remembers until it is left. -/
inductive Memo (Q : Type) where
  | handles (l : List (Q × ℕ)) (strict : Bool)
  | resets (l : List (ℕ × Bool))
  | handle (h : Q × ℕ)
  | flag (strict : Bool)

/-- Observations: calling a quantizer and reading the flag. -/
inductive Look (Q A : Type) where
  | call (q : Q) (a : A)
  | strict

/-- `Quantizer.forward` (`nn/quantizer.py:414-416`). -/
def St.call (s : St Q A) (quantize : Q → A → A) (q : Q) (a : A) : A :=
  (⟨(s.ovs q).map fun p => (p.1, match p.2 with
    | .dq => dqOverride (s.enabled p.1)
    | .user f => f.toOverride), s.next⟩ : Overrides.St A A).forward (quantize q) a

/-- `disable_quantization` (`overrides.py:22-40`), `enable_quantization` (43-59), `with quantizer.register_override(f)`
(`forward_override.py:69-73`) and `strict_quantization` (`flags.py`). -/
def managers (quantize : Q → A → A) : Managers (Block Q A) (Look Q A) (St Q A) (Memo Q) (A ⊕ Bool) where
  enter b s :=
    match b with
    | .disable qs =>
      let r := registerAll qs s
      some ({ r.1 with strict := false }, .handles r.2 r.1.strict)
    | .enable qs =>
      let r := setAll (dqIds s qs) s
      some (r.1, .resets r.2)
    | .override q f => some (s.add q (.user f), .handle (q, s.next))
    | .strict v => some ({ s with strict := v }, .flag s.strict)
  exit k s :=
    match k with
    | .handles l b => l.foldl St.remove { s with strict := b }
    | .resets l => resetAll l s
    | .handle h => s.remove h
    | .flag b => { s with strict := b }
  observe l s :=
    match l with
    | .call q a => .inl (s.call quantize q a)
    | .strict => .inr s.strict

end FF.Disable
