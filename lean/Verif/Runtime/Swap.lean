import Verif.Runtime.Scope
import Mathlib.Logic.Function.Basic

/-!
# Temporary replacements in orchestration

Models `_GraphExecutionContext` (`/repo/src/fastforward/orchestration.py:39-68`), the algorithm registry and its `override`
(`/repo/src/fastforward/_orchestration/registry.py:29-33,159-330`) and the program cache of `GraphModule.forward`
(`/repo/src/fastforward/_orchestration/graph_module.py:359-366,734-749`).
-/

namespace FF.Swap

open FF.Scope

/-- An algorithm: a function or a `functools.partial` of an algorithm. -/
inductive Alg where
  | fn (f : ℕ)
  | part (a : Alg) (args : ℕ)
  deriving DecidableEq

/-- `_algorithm_key` (`registry.py:29-33`). -/
def Alg.key : Alg → ℕ
  | .fn f => f
  | .part a _ => a.key

/-- `AlgorithmSpec` (`registry.py:159-171`). -/
structure Spec (Sel Fl : Type) where
  fn : Alg
  selector : Sel
  flows : Fl
  deriving DecidableEq

/-- The caches of a `GraphModule` (`graph_module.py:359-360`); `engine` says whether `_engine` is not `None`. -/
structure Cache (P : Type) where
  program : Option P := none
  engine : Bool := false

structure St (G P Sel Fl : Type) where
  specs : ℕ → Option (Spec Sel Fl)
  graph : G → Cache P

variable {G P Sel Fl T : Type} [DecidableEq G]

/-- `_AlgorithmRegistry.register` (`registry.py:194-211`); `none` when `normalize` raises. -/
def St.register (normalize : T → Option Sel) (s : St G P Sel Fl) (a : Alg) (t : T) (fl : Fl) : Option (St G P Sel Fl) :=
  match normalize t with
  | none => none
  | some sel => some { s with specs := Function.update s.specs a.key (some ⟨a, sel, fl⟩) }

/-- The program the next `forward` of a graph runs (`graph_module.py:736-748`). -/
def Cache.runs (schedule : P) (c : Cache P) : Option P := if c.engine then c.program else some schedule

/-- The caches after `forward` (`graph_module.py:736-744`). -/
def Cache.afterForward (schedule : P) (c : Cache P) : Cache P := if c.engine then c else ⟨some schedule, true⟩

/-- Context managers: `registry.override(algorithm, targets)` and `_GraphExecutionContext(graph, program, engine)`. -/
inductive Block (G P T : Type) where
  | override (a : Alg) (targets : Option T)
  | context (g : G) (program : P)

/-- Observations: the specification registered for an algorithm, and the program a `forward` call runs. -/
inductive Look (G : Type) where
  | spec (a : Alg)
  | forward (g : G)

inductive Memo (G P Sel Fl : Type) where
  | nothing
  | spec (key : ℕ) (previous : Spec Sel Fl)
  | cache (g : G) (original : Cache P)

/-- `override` (`registry.py:301-330`) and `_GraphExecutionContext` (`orchestration.py:51-68`). -/
def managers (normalize : T → Option Sel) (schedule : G → P) :
    Managers (Block G P T) (Look G) (St G P Sel Fl) (Memo G P Sel Fl) (Option (Spec Sel Fl) ⊕ Option P) where
  enter b s :=
    match b with
    | .override _ none => some (s, .nothing)
    | .override a (some t) =>
      match s.specs a.key with
      | none => none
      | some previous => (s.register normalize a t previous.flows).map fun s1 => (s1, .spec a.key previous)
    | .context g p => some ({ s with graph := Function.update s.graph g ⟨some p, true⟩ }, .cache g (s.graph g))
  exit k s :=
    match k with
    | .nothing => s
    | .spec key previous => { s with specs := Function.update s.specs key (some previous) }
    | .cache g original => { s with graph := Function.update s.graph g original }
  observe l s :=
    match l with
    | .spec a => .inl (s.specs a.key)
    | .forward g => .inr ((s.graph g).runs (schedule g))
  effect l s :=
    match l with
    | .spec _ => s
    | .forward g => { s with graph := Function.update s.graph g ((s.graph g).afterForward (schedule g)) }

/-! ### Specification -/

/-- The function a chain of `functools.partial`s is about. -/
inductive Wraps (f : ℕ) : Alg → Prop
  | fn : Wraps f (.fn f)
  | part {a : Alg} {args : ℕ} : Wraps f a → Wraps f (.part a args)

/-- What is in force at a point of the program: the specifications, and the program each graph runs. -/
structure Env (G P Sel Fl : Type) where
  specs : ℕ → Option (Spec Sel Fl)
  runs : G → Option P

/-- What a block means for the code inside. Retargeting keeps the flows of the registration; it is an error for an unknown algorithm
and for invalid targets. -/
def Env.enter (normalize : T → Option Sel) : Block G P T → Env G P Sel Fl → Option (Env G P Sel Fl)
  | .override _ none, e => some e
  | .override a (some t), e =>
    match e.specs a.key, normalize t with
    | some previous, some sel => some { e with specs := fun k => if k = a.key then some ⟨a, sel, previous.flows⟩ else e.specs k }
    | _, _ => none
  | .context g p, e => some { e with runs := fun g' => if g' = g then some p else e.runs g' }

def Env.observe : Look G → Env G P Sel Fl → Option (Spec Sel Fl) ⊕ Option P
  | .spec a, e => .inl (e.specs a.key)
  | .forward g, e => .inr (e.runs g)

/-! ### Properties -/

theorem runs_afterForward (schedule : P) (c : Cache P) : (c.afterForward schedule).runs schedule = c.runs schedule := by
  unfold Cache.afterForward Cache.runs
  by_cases h : c.engine <;> simp [h]

/-- **C27.** Every program that nests execution contexts and registry overrides, with `forward` calls in between and exceptions anywhere,
sees the specification and runs the program that the innermost enclosing block for that algorithm or graph installed, or the outer
one where there is none; and after it the registry is as before and every graph runs the same program as before. -/
theorem swaps_are_scoped (normalize : T → Option Sel) (schedule : G → P) (p : Prog (Block G P T) (Look G)) (s : St G P Sel Fl) :
    (exec (managers normalize schedule) p s).2 =
        lexical (Env.enter normalize) Env.observe p ⟨s.specs, fun g => (s.graph g).runs (schedule g)⟩ ∧
      (exec (managers normalize schedule) p s).1.specs = s.specs ∧
      ∀ g, ((exec (managers normalize schedule) p s).1.graph g).runs (schedule g) = (s.graph g).runs (schedule g) := by
  refine exec_scoped (managers normalize schedule) (Env.enter normalize) Env.observe
    (fun s e => s.specs = e.specs ∧ ∀ g, (s.graph g).runs (schedule g) = e.runs g)
    (fun s s' => s'.specs = s.specs ∧ ∀ g, (s'.graph g).runs (schedule g) = (s.graph g).runs (schedule g))
    ?_ ?_ ?_ ?_ ?_ ?_ ?_ p s ⟨s.specs, fun g => (s.graph g).runs (schedule g)⟩ ⟨rfl, fun _ => rfl⟩
  · exact fun s => ⟨rfl, fun _ => rfl⟩
  · exact fun a b c h1 h2 => ⟨h2.1.trans h1.1, fun g => (h2.2 g).trans (h1.2 g)⟩
  · exact fun s s' e h h' => ⟨h.1.trans h'.1, fun g => (h.2 g).trans (h'.2 g)⟩
  · intro s e a h
    cases a with
    | spec a => simp only [managers, Env.observe, h.1]
    | forward g => simp only [managers, Env.observe, h.2]
  · intro s e a _
    cases a with
    | spec a => exact ⟨rfl, fun _ => rfl⟩
    | forward g =>
      refine ⟨rfl, fun g' => ?_⟩
      simp only [managers]
      by_cases hg : g' = g
      · subst hg; rw [Function.update_self, runs_afterForward]
      · rw [Function.update_of_ne hg]
  · intro s e b h hb
    cases b with
    | override a t =>
      cases t with
      | none => simp [managers] at hb
      | some t =>
        simp only [managers] at hb
        simp only [Env.enter, ← h.1]
        cases hs : s.specs a.key with
        | none => rfl
        | some pr =>
          simp only [hs, St.register] at hb
          cases hn : normalize t with
          | none => rfl
          | some sel => simp [hn] at hb
    | context g p => simp [managers] at hb
  · intro s e b s1 k h hb
    cases b with
    | override a t =>
      cases t with
      | none =>
        simp only [managers, Option.some.injEq, Prod.mk.injEq] at hb
        obtain ⟨rfl, rfl⟩ := hb
        exact ⟨e, rfl, h, fun s2 hs => hs⟩
      | some t =>
        simp only [managers] at hb
        cases hs : s.specs a.key with
        | none => simp [hs] at hb
        | some pr =>
          cases hn : normalize t with
          | none => simp [hs, St.register, hn] at hb
          | some sel =>
            simp only [hs, St.register, hn, Option.map_some, Option.some.injEq, Prod.mk.injEq] at hb
            obtain ⟨rfl, rfl⟩ := hb
            refine ⟨{ e with specs := fun k => if k = a.key then some ⟨a, sel, pr.flows⟩ else e.specs k },
              by simp only [Env.enter, ← h.1, hs, hn], ⟨?_, h.2⟩, fun s2 hs2 => ⟨?_, hs2.2⟩⟩
            · funext k
              simp only [Function.update_apply]
              rw [h.1]
            · funext k
              simp only [managers]
              rw [hs2.1]
              by_cases hk : k = a.key
              · subst hk; rw [Function.update_self, hs]
              · rw [Function.update_of_ne hk]
                exact Function.update_of_ne hk _ _
    | context g p =>
      simp only [managers, Option.some.injEq, Prod.mk.injEq] at hb
      obtain ⟨rfl, rfl⟩ := hb
      refine ⟨_, rfl, ⟨h.1, fun g' => ?_⟩, fun s2 hs2 => ⟨hs2.1, fun g' => ?_⟩⟩
      · by_cases hg : g' = g
        · subst hg; simp [Cache.runs]
        · simp [hg, h.2]
      · simp only [managers]
        by_cases hg : g' = g
        · subst hg; simp
        · have := hs2.2 g'
          simp only [Function.update_of_ne hg] at this ⊢
          exact this

/-- **C27.** Whatever the code inside a block does to the registry and to graphs, such as registering the same algorithm again or
swapping the program of the same graph again without restoring it, after the block the registration of the block's algorithm and the
program and engine of the block's graph are the ones from before the block. -/
theorem block_restores_its_entry (normalize : T → Option Sel) (schedule : G → P) (b : Block G P T) (s s1 : St G P Sel Fl)
    (k : Memo G P Sel Fl) (h : (managers normalize schedule).enter b s = some (s1, k)) (s2 : St G P Sel Fl) :
    match b with
    | .override _ none => True
    | .override a (some _) => ((managers normalize schedule).exit k s2).specs a.key = s.specs a.key
    | .context g _ => ((managers normalize schedule).exit k s2).graph g = s.graph g := by
  cases b with
  | override a t =>
    cases t with
    | none => trivial
    | some t =>
      simp only [managers] at h ⊢
      cases hs : s.specs a.key with
      | none => simp [hs] at h
      | some pr =>
        cases hn : normalize t with
        | none => simp [hs, St.register, hn] at h
        | some sel =>
          simp only [hs, St.register, hn, Option.map_some, Option.some.injEq, Prod.mk.injEq] at h
          obtain ⟨rfl, rfl⟩ := h
          simp
  | context g p =>
    simp only [managers, Option.some.injEq, Prod.mk.injEq] at h
    obtain ⟨rfl, rfl⟩ := h
    simp [managers]

theorem key_eq_iff {a : Alg} {f : ℕ} : a.key = f ↔ Wraps f a := by
  induction a with
  | fn g =>
    constructor
    · rintro rfl; exact .fn
    · intro h; cases h; rfl
  | part a n ih =>
    constructor
    · intro h; exact .part (ih.1 h)
    · intro h; cases h with | part h => exact ih.2 h

/-- **C27.** Partials of the same function share one registration: inside an override given for one of them, every one of them resolves
to the new targets with the registered flows. -/
theorem override_applies_to_all_partials (normalize : T → Option Sel) (schedule : G → P) (f : ℕ) (a a' : Alg) (ha : Wraps f a)
    (ha' : Wraps f a') (t : T) (sel : Sel) (ht : normalize t = some sel) (s : St G P Sel Fl) (previous : Spec Sel Fl)
    (hs : s.specs f = some previous) :
    ∃ s1 k, (managers normalize schedule).enter (.override a (some t)) s = some (s1, k) ∧
      (managers normalize schedule).observe (.spec a') s1 = .inl (some ⟨a, sel, previous.flows⟩) := by
  obtain rfl := key_eq_iff.2 ha
  have h' := key_eq_iff.2 ha'
  refine ⟨_, _, by simp only [managers, hs, St.register, ht, Option.map_some]; rfl, ?_⟩
  simp only [managers, h', Function.update_self]

/-! ### Concrete cases -/

example : Wraps 7 (.part (.part (.fn 7) 1) 2) := .part (.part .fn)

/-- Algorithm 7 is registered with target 1 and flows 5; retargeting through a partial of it; targets 0 are invalid. -/
def sampleState : St ℕ ℕ ℕ ℕ := ⟨fun k => if k = 7 then some ⟨.fn 7, 1, 5⟩ else none, fun _ => {}⟩

example : (exec (managers (fun t : ℕ => if t = 0 then none else some t) fun g : ℕ => 100 + g)
    (.block (.override (.part (.fn 7) 3) (some 2)) (.act (.spec (.fn 7)) (.block (.context 1 55) (.act (.forward 1) .done)
      (.act (.forward 1) (.block (.override (.fn 7) (some 0)) .done .done)))) .done) sampleState).2 =
    (true, [.inl (some ⟨.part (.fn 7) 3, 2, 5⟩), .inr (some 55), .inr (some 101)]) := by decide
example : ((managers (fun t : ℕ => some t) fun g : ℕ => 100 + g).enter (.override (.fn 7) (some 2)) sampleState).isSome = true := by decide

end FF.Swap
