import Mathlib.Data.List.Basic
import Mathlib.Data.Nat.Notation

/-!
# Kernel dispatch

Models `/repo/src/fastforward/dispatcher.py`.
-/

namespace FF.Dispatch

/-- `DispatcherItem` (`dispatcher.py:99-113`). Predicates and kernels are objects compared by identity, named by numbers; the
dataclass equality compares predicate, kernel and priority. Priorities (`dispatcher.py:86-96`) are 0, 1, 2. -/
structure Item where
  pred : ℕ
  fn : ℕ
  prio : ℕ
  deriving DecidableEq, Repr

/-- `_DISPATCHER` (116): operator name to items. -/
abbrev Table := String → List Item

/-- The loop of `bisect.bisect_left` with `key` (CPython's `bisect` module; called at `dispatcher.py:202`), with a bound on the number
of iterations that is never reached. -/
def bisectLoop (a : List Item) (x : ℕ) : ℕ → ℕ → ℕ → ℕ
  | 0, lo, _ => lo
  | fuel + 1, lo, hi =>
    if lo < hi then
      let mid := (lo + hi) / 2
      match a[mid]? with
      | none => lo
      | some it => if it.prio < x then bisectLoop a x fuel (mid + 1) hi else bisectLoop a x fuel lo mid
    else lo

def bisectLeft (a : List Item) (x : ℕ) : ℕ := bisectLoop a x (a.length + 1) 0 a.length

/-- `_register_functional` (178-204). -/
def register (t : Table) (op : String) (it : Item) : Table :=
  fun o => if o = op then (t op).insertIdx (bisectLeft (t op) it.prio) it else t o

/-- `DispatcherRegistrationHook.__exit__` (133-137): `list.remove` removes the first equal item, if there is one. -/
def unregister (t : Table) (op : String) (it : Item) : Table := fun o => if o = op then (t op).erase it else t o

/-- `dispatch` (260-276); `holds p` says whether predicate `p` accepts the arguments. -/
def dispatch (t : Table) (op : String) (holds : ℕ → Bool) : Option ℕ := ((t op).find? fun it => holds it.pred).map (·.fn)

/-- What client code does: register (the hook object gets a number), or leave the hook's block. -/
inductive Event where
  | reg (hook : ℕ) (op : String) (it : Item)
  | exit (hook : ℕ)
  deriving DecidableEq, Repr

/-- The table and the hook objects created so far. -/
structure St where
  table : Table
  hooks : ℕ → Option (String × Item)

def St.step (s : St) : Event → St
  | .reg h op it => ⟨register s.table op it, fun k => if k = h then some (op, it) else s.hooks k⟩
  | .exit h => match s.hooks h with
    | none => s
    | some (op, it) => ⟨unregister s.table op it, s.hooks⟩

def St.run (s : St) (es : List Event) : St := es.foldl St.step s

/-- Nothing registered. -/
def St.init : St := ⟨fun _ => [], fun _ => none⟩

end FF.Dispatch
