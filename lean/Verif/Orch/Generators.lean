import Verif.Util.Dict
import Mathlib.Data.Nat.Notation

/-!
# Flow generators (C81)

Models `FlowGenerator`, `register_generator` and `_to_generator` of `/repo/src/fastforward/_orchestration/data_flow.py` (46-117).
-/

namespace FF.Generators

/-! ### Model -/

/-- What `generator.context(module)` gives: the context manager of a user's or built-in factory, or one fixed context manager
(`_anon_context`, 110-113). -/
inductive Factory where
  | made (k : ℕ)
  | fixed (manager : ℕ)
  deriving DecidableEq, Repr

/-- `FlowGenerator` (46-59); compared by identity, so `tag` names the object. -/
structure Gen where
  key : String
  context : Factory
  order : Int
  tag : ℕ
  deriving DecidableEq, Repr

/-- `_generators` (62), and a counter for new objects. -/
structure State where
  gens : List (String × Gen)
  fresh : ℕ

/-- What a flow is declared with (96): a generator, a name, or a context manager. -/
inductive Value where
  | generator (g : Gen)
  | name (k : String)
  | manager (m : ℕ)

/-- `register_generator` (65-79). -/
def register (s : State) (g : Gen) : State := { s with gens := Dict.set s.gens g.key g }

def original : Gen := ⟨"original", .made 0, 2, 0⟩
def quantized : Gen := ⟨"quantized", .made 1, 5, 1⟩
def any : Gen := ⟨"any", .made 1, 10, 2⟩

/-- The generators registered on import (86-94). -/
def initial : State := register (register (register ⟨[], 3⟩ original) quantized) any

/-- `_to_generator` (97-117); `qualname m` is `type(m).__qualname__`. `none` is a `KeyError`. -/
def toGenerator (qualname : ℕ → String) (s : State) : Value → State × Option Gen
  | .generator g => (s, some g)
  | .name k => (s, Dict.get s.gens k)
  | .manager m =>
    match Dict.get s.gens (qualname m) with
    | some g => (s, some g)
    | none =>
      let g : Gen := ⟨qualname m, .fixed m, 0, s.fresh⟩
      ({ register s g with fresh := s.fresh + 1 }, some g)

/-- What a program does: register generators and declare flows. -/
inductive Op where
  | register (g : Gen)
  | declare (v : Value)

def step (qualname : ℕ → String) (s : State) : Op → State
  | .register g => register s g
  | .declare v => (toGenerator qualname s v).1

def run (qualname : ℕ → String) (s : State) (ops : List Op) : State := ops.foldl (step qualname) s

/-! ### Specification -/

/-- An operation that cannot change what name `k` stands for, once it stands for something. -/
def Leaves (k : String) : Op → Prop
  | .register g => g.key ≠ k
  | .declare _ => True

/-- Nothing has given the name `k` a meaning: it is no built-in name, nothing was registered under it, and no context manager of a class
of that name was used. -/
def Unused (qualname : ℕ → String) (k : String) (ops : List Op) : Prop :=
  k ∉ ["original", "quantized", "any"] ∧ ∀ op ∈ ops, match op with
    | .register g => g.key ≠ k
    | .declare (.manager m) => qualname m ≠ k
    | .declare _ => True

/-! ### Lemmas -/

theorem step_keeps (qualname : ℕ → String) (s : State) (op : Op) (k : String) (g : Gen) (h : Dict.get s.gens k = some g) (hl : Leaves k op) :
    Dict.get (step qualname s op).gens k = some g := by
  cases op with
  | register g' => exact (Dict.get_set_ne _ _ hl).trans h
  | declare v =>
    cases v with
    | generator _ => exact h
    | name _ => exact h
    | manager m =>
      simp only [step, toGenerator]
      cases hm : Dict.get s.gens (qualname m) with
      | some g' => exact h
      | none =>
        refine (Dict.get_set_ne _ _ fun he => ?_).trans h
        have he' : qualname m = k := he
        rw [he', h] at hm
        simp at hm

theorem run_keeps (qualname : ℕ → String) (ops : List Op) (s : State) (k : String) (g : Gen) (h : Dict.get s.gens k = some g)
    (hl : ∀ op ∈ ops, Leaves k op) : Dict.get (run qualname s ops).gens k = some g := by
  unfold run
  induction ops generalizing s with
  | nil => exact h
  | cons op ops ih => exact ih (step qualname s op) (step_keeps qualname s op k g h (hl op (by simp))) fun op' h' => hl op' (by simp [h'])

theorem run_append (qualname : ℕ → String) (s : State) (a b : List Op) : run qualname s (a ++ b) = run qualname (run qualname s a) b := by
  unfold run
  rw [List.foldl_append]

theorem run_unused (qualname : ℕ → String) (k : String) (ops : List Op) (h : Unused qualname k ops) :
    Dict.get (run qualname initial ops).gens k = none := by
  obtain ⟨h0, h⟩ := h
  have hgo : ∀ (ops : List Op) (s : State), Dict.get s.gens k = none → (∀ op ∈ ops, match op with
      | .register g => g.key ≠ k
      | .declare (.manager m) => qualname m ≠ k
      | .declare _ => True) → Dict.get (run qualname s ops).gens k = none := by
    intro ops
    induction ops with
    | nil => exact fun s h _ => h
    | cons op ops ih =>
      intro s hs hop
      refine ih (step qualname s op) ?_ fun op' h' => hop op' (by simp [h'])
      have h1 := hop op (by simp)
      cases op with
      | register g => exact (Dict.get_set_ne _ _ h1).trans hs
      | declare v =>
        cases v with
        | generator _ => exact hs
        | name _ => exact hs
        | manager m =>
          simp only [step, toGenerator]
          cases hm : Dict.get s.gens (qualname m) with
          | some g' => exact hs
          | none => exact (Dict.get_set_ne _ _ h1).trans hs
  refine hgo ops initial ?_ h
  simp only [List.mem_cons, List.not_mem_nil, or_false, not_or] at h0
  obtain ⟨h1, h2, h3⟩ := h0
  show Dict.get (Dict.set (Dict.set (Dict.set [] "original" original) "quantized" quantized) "any" any) k = none
  rw [Dict.get_set_ne _ _ (fun h => h3 h.symm), Dict.get_set_ne _ _ (fun h => h2 h.symm), Dict.get_set_ne _ _ (fun h => h1 h.symm)]
  rfl

/-! ### Properties -/

/-- **C81.** A generator that is passed itself is used as it is, and nothing else changes. -/
theorem generator_itself (qualname : ℕ → String) (s : State) (g : Gen) : toGenerator qualname s (.generator g) = (s, some g) := rfl

/-- **C81.** A name stands for the last generator registered under it, whatever else the program has registered and declared. -/
theorem name_last_registered (qualname : ℕ → String) (s : State) (before after : List Op) (g : Gen) (h : ∀ op ∈ after, Leaves g.key op) :
    (toGenerator qualname (run qualname s (before ++ [.register g] ++ after)) (.name g.key)).2 = some g := by
  rw [run_append, run_append]
  refine run_keeps qualname after _ g.key g ?_ h
  show Dict.get (Dict.set _ g.key g) g.key = some g
  exact Dict.get_set_self _ _ _

/-- **C81.** The built-in names stand for the built-in generators unless the program registers another one under the name. -/
theorem builtin_names (qualname : ℕ → String) (ops : List Op) (g : Gen) (hg : g ∈ [original, quantized, any]) (h : ∀ op ∈ ops, Leaves g.key op) :
    (toGenerator qualname (run qualname initial ops) (.name g.key)).2 = some g := by
  refine run_keeps qualname ops initial g.key g ?_ h
  simp only [List.mem_cons, List.not_mem_nil, or_false] at hg
  rcases hg with rfl | rfl | rfl <;> rfl

/-- **C81.** A name that nothing has given a meaning is a `KeyError`. -/
theorem unknown_name (qualname : ℕ → String) (ops : List Op) (k : String) (h : Unused qualname k ops) :
    (toGenerator qualname (run qualname initial ops) (.name k)).2 = none := run_unused qualname k ops h

/-- **C81 (partial).** A flow declared with a context manager runs in that context manager, and declaring another flow with it gives the same
generator, until the program registers one under the name of its class.

Missing: another context manager of a class of the same name, or a generator registered under that name, for which the statement fails
(`second_manager_ignored`, `registered_name_hides_manager`). -/
theorem manager_used_partial (qualname : ℕ → String) (before after : List Op) (m : ℕ) (hu : Unused qualname (qualname m) before)
    (ha : ∀ op ∈ after, Leaves (qualname m) op) :
    ∃ g, (toGenerator qualname (run qualname initial before) (.manager m)).2 = some g ∧ g.context = .fixed m ∧
      (toGenerator qualname (run qualname initial (before ++ [.declare (.manager m)] ++ after)) (.manager m)).2 = some g := by
  have hn := run_unused qualname (qualname m) before hu
  refine ⟨⟨qualname m, .fixed m, 0, (run qualname initial before).fresh⟩, by simp only [toGenerator, hn], rfl, ?_⟩
  rw [run_append, run_append]
  have hk := run_keeps qualname after (run qualname (run qualname initial before) [.declare (.manager m)]) (qualname m)
    ⟨qualname m, .fixed m, 0, (run qualname initial before).fresh⟩ (by
      show Dict.get (step qualname _ (.declare (.manager m))).gens (qualname m) = _
      simp only [step, toGenerator, hn]
      exact Dict.get_set_self _ _ _) ha
  simp only [toGenerator, hk]

/-! ### Deviations -/

/-- **C81, deviation.** A second context manager whose class has the same name is ignored: the flow runs in the first one. All that are made with
`contextlib.contextmanager` have the same class. -/
theorem second_manager_ignored (qualname : ℕ → String) (before : List Op) (m m' : ℕ) (hne : m ≠ m') (hq : qualname m = qualname m')
    (hu : Unused qualname (qualname m) before) :
    ∃ g, (toGenerator qualname (run qualname initial (before ++ [.declare (.manager m)])) (.manager m')).2 = some g ∧ g.context = .fixed m ∧
      g.context ≠ .fixed m' := by
  have hn := run_unused qualname (qualname m) before hu
  have hk : Dict.get (run qualname initial (before ++ [.declare (.manager m)])).gens (qualname m') =
      some ⟨qualname m, .fixed m, 0, (run qualname initial before).fresh⟩ := by
    rw [run_append, ← hq]
    show Dict.get (step qualname _ (.declare (.manager m))).gens (qualname m) = _
    simp only [step, toGenerator, hn]
    exact Dict.get_set_self _ _ _
  refine ⟨⟨qualname m, .fixed m, 0, (run qualname initial before).fresh⟩, by simp only [toGenerator, hk], rfl, by simpa using hne⟩

/-- **C81, deviation.** A generator that was registered under the name of the context manager's class is used instead of it. -/
theorem registered_name_hides_manager (qualname : ℕ → String) (s : State) (g : Gen) (m : ℕ) (hq : qualname m = g.key) (hg : g.context ≠ .fixed m) :
    ∃ g', (toGenerator qualname (run qualname s [.register g]) (.manager m)).2 = some g' ∧ g'.context ≠ .fixed m := by
  have hk : Dict.get (run qualname s [.register g]).gens (qualname m) = some g := by
    rw [hq]
    exact Dict.get_set_self _ _ _
  exact ⟨g, by simp only [toGenerator, hk], hg⟩

/-! ### Concrete cases -/

def names (m : ℕ) : String := if m < 10 then "_GeneratorContextManager" else "Other"

/-- Two context managers of one class and one of another: the second runs in the first, the third in itself. -/
example : [1, 2, 11].map (fun m => ((toGenerator names (run names initial [.declare (.manager 1), .declare (.manager 2)]) (.manager m)).2.map (·.context))) =
    [some (.fixed 1), some (.fixed 1), some (.fixed 11)] := by decide +kernel

example : Unused names (names 1) [.register ⟨"mine", .made 7, 1, 9⟩, .declare (.name "any"), .declare (.manager 11)] := by
  refine ⟨by decide, fun op hop => ?_⟩
  simp only [List.mem_cons, List.not_mem_nil, or_false] at hop
  rcases hop with rfl | rfl | rfl <;> simp [names]

/-- A name registered twice. -/
example : ((toGenerator names (run names initial [.register ⟨"mine", .made 7, 1, 9⟩, .declare (.manager 1), .register ⟨"mine", .made 8, 1, 10⟩])
    (.name "mine")).2.map (·.context)) = some (.made 8) := by decide +kernel

end FF.Generators
