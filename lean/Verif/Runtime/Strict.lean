import Verif.Runtime.Scope
import Mathlib.Logic.Function.Basic

/-!
# Strict quantization per module

Models `/repo/src/fastforward/quantization/strict_quantization.py`, together with the order in which `torch.nn.Module.__call__` runs
hooks: the pre-hooks in registration order, `forward`, then the hooks in registration order; an exception in `forward` skips the
hooks after it.
-/

namespace FF.Strict

open FF.Scope

/-- A `ModuleStrictQuantHandle` with `_enable_strict_quantization` (24-30); `id` identifies the object. -/
structure Handle where
  id : ℕ
  enable : Bool
  deriving DecidableEq

/-- The flag, and `_module_original_strict_mode` of every handle (32-34). -/
structure St (M : Type) where
  flag : Bool
  orig : ℕ → M → Option Bool

variable {M : Type} [DecidableEq M]

/-- `_pre_forward_hook` (36-45). -/
def preHook (m : M) (s : St M) (h : Handle) : St M :=
  ⟨h.enable, fun i x => if i = h.id ∧ x = m then some s.flag else s.orig i x⟩

/-- `_post_forward_hook` (47-59). -/
def postHook (m : M) (s : St M) (h : Handle) : St M :=
  match s.orig h.id m with
  | some b => { s with flag := b }
  | none => s

/-- Running module calls. `attached m` are the handles attached to module `m` in order (61-70, 112-115); `block m body rest` is a call
of `m` whose `forward` does `body`, and `act` reads the flag. -/
def run (attached : M → List Handle) : Prog M Unit → St M → St M × Bool × List Bool
  | .done, s => (s, false, [])
  | .raise, s => (s, true, [])
  | .act _ rest, s =>
    let r := run attached rest s
    (r.1, r.2.1, s.flag :: r.2.2)
  | .block m body rest, s =>
    let r := run attached body ((attached m).foldl (preHook m) s)
    if r.2.1 then (r.1, true, r.2.2)
    else
      let r' := run attached rest ((attached m).foldl (postHook m) r.1)
      (r'.1, r'.2.1, r.2.2 ++ r'.2.2)

/-! ### Specification -/

/-- What code in `forward` of a module should see: the setting of its handle, or what its caller sees. -/
def inside (attached : M → List Handle) (m : M) (v : Bool) : Option Bool :=
  match attached m with
  | [] => some v
  | h :: _ => some h.enable

/-- No module is called while it is running; `path` are the running modules. -/
def NoReentry : List M → Prog M Unit → Prop
  | _, .done => True
  | _, .raise => True
  | path, .act _ rest => NoReentry path rest
  | path, .block m body rest => m ∉ path ∧ NoReentry (m :: path) body ∧ NoReentry path rest

instance decNoReentry : ∀ (path : List M) (p : Prog M Unit), Decidable (NoReentry path p)
  | _, .done => isTrue trivial
  | _, .raise => isTrue trivial
  | path, .act _ rest => decNoReentry path rest
  | path, .block m body rest =>
    have := decNoReentry (m :: path) body
    have := decNoReentry path rest
    inferInstanceAs (Decidable (_ ∧ _ ∧ _))

/-! ### Lemmas -/

theorem run_spec (attached : M → List Handle) (hone : ∀ m, (attached m).length ≤ 1) (p : Prog M Unit) (path : List M)
    (hp : NoReentry path p) (s : St M) :
    (run attached p s).2 = lexical (inside attached) (fun _ e => e) p s.flag ∧
      ((run attached p s).2.1 = false → (run attached p s).1.flag = s.flag ∧
        ∀ i, ∀ m ∈ path, (run attached p s).1.orig i m = s.orig i m) := by
  induction p generalizing path s with
  | done => exact ⟨rfl, fun _ => ⟨rfl, fun _ _ _ => rfl⟩⟩
  | raise => exact ⟨rfl, fun h => by simp [run] at h⟩
  | act a rest ih =>
    obtain ⟨h1, h2⟩ := ih path hp s
    simp only [run, lexical]
    rw [← h1]
    exact ⟨rfl, h2⟩
  | block m body rest ihb ihr =>
    obtain ⟨hm, hpb, hpr⟩ := hp
    cases ha : attached m with
    | nil =>
      obtain ⟨b1, b2⟩ := ihb (m :: path) hpb s
      simp only [run, lexical, inside, ha, List.foldl_nil]
      rw [← b1]
      by_cases hr : (run attached body s).2.1 = true
      · rw [if_pos hr, if_pos hr]
        exact ⟨rfl, by simp⟩
      · rw [if_neg hr, if_neg hr]
        obtain ⟨b3, b4⟩ := b2 (by simpa using hr)
        obtain ⟨r1, r2⟩ := ihr path hpr (run attached body s).1
        rw [b3] at r1 r2
        rw [← r1]
        refine ⟨rfl, fun h => ?_⟩
        obtain ⟨r3, r4⟩ := r2 h
        exact ⟨r3, fun i x hx => (r4 i x hx).trans (b4 i x (List.mem_cons_of_mem _ hx))⟩
    | cons h t =>
      have ht : t = [] := by
        have := hone m
        rw [ha] at this
        exact List.eq_nil_of_length_eq_zero (by simpa using this)
      subst ht
      obtain ⟨b1, b2⟩ := ihb (m :: path) hpb (preHook m s h)
      simp only [run, lexical, inside, ha, List.foldl_cons, List.foldl_nil]
      have hf : (preHook m s h).flag = h.enable := rfl
      rw [hf] at b1
      rw [← b1]
      by_cases hr : (run attached body (preHook m s h)).2.1 = true
      · rw [if_pos hr, if_pos hr]
        exact ⟨rfl, by simp⟩
      · rw [if_neg hr, if_neg hr]
        obtain ⟨b3, b4⟩ := b2 (by simpa using hr)
        have ho : (run attached body (preHook m s h)).1.orig h.id m = some s.flag := by
          rw [b4 h.id m (List.mem_cons_self ..)]
          simp [preHook]
        have hpost : postHook m (run attached body (preHook m s h)).1 h =
            { (run attached body (preHook m s h)).1 with flag := s.flag } := by
          unfold postHook
          rw [ho]
        rw [hpost]
        obtain ⟨r1, r2⟩ := ihr path hpr { (run attached body (preHook m s h)).1 with flag := s.flag }
        rw [← r1]
        refine ⟨rfl, fun hh => ?_⟩
        obtain ⟨r3, r4⟩ := r2 hh
        refine ⟨r3, fun i x hx => (r4 i x hx).trans ?_⟩
        show (run attached body (preHook m s h)).1.orig i x = _
        rw [b4 i x (List.mem_cons_of_mem _ hx)]
        simp only [preHook]
        rw [if_neg]
        rintro ⟨-, rfl⟩
        exact hm hx

/-! ### Properties -/

/-- **C31.** For every tree of module calls in which no module is re-entered, and at most one handle per module, all code sees the setting of
the closest running module with a handle, or the global setting where there is none, and when no exception is raised the global setting
is the same afterwards. Missing for the full claim: exceptions, re-entrant calls and several handles on one module, for which the
global setting can change, see the next three theorems. -/
theorem module_strictness_scoped_partial (attached : M → List Handle) (hone : ∀ m, (attached m).length ≤ 1) (p : Prog M Unit)
    (hp : NoReentry [] p) (s : St M) :
    (run attached p s).2 = lexical (inside attached) (fun _ e => e) p s.flag ∧
      ((run attached p s).2.1 = false → (run attached p s).1.flag = s.flag) := by
  obtain ⟨h1, h2⟩ := run_spec attached hone p [] hp s
  exact ⟨h1, fun h => (h2 h).1⟩

/-- **C31, deviation.** If `forward` of a module with a handle raises, the global setting stays changed: for every module, handle and state in which the
handle changes the setting. -/
theorem exception_leaks (attached : M → List Handle) (m : M) (h : Handle) (ha : attached m = [h]) (s : St M) (hs : s.flag ≠ h.enable)
    (rest : Prog M Unit) : (run attached (.block m .raise rest) s).1.flag ≠ s.flag := by
  simp only [run, ha, List.foldl_cons, List.foldl_nil, if_true]
  exact fun h' => hs (h'.symm)

/-- **C31, deviation.** A module that is called again while it runs (recursion, shared modules) leaves the setting changed, without any exception. -/
theorem reentry_leaks (attached : M → List Handle) (m : M) (h : Handle) (ha : attached m = [h]) (s : St M) (hs : s.flag ≠ h.enable) :
    (run attached (.block m (.block m .done .done) .done) s).2.1 = false ∧
      (run attached (.block m (.block m .done .done) .done) s).1.flag ≠ s.flag := by
  refine ⟨by simp [run], ?_⟩
  simp [run, ha, preHook, postHook]
  exact fun h' => hs h'.symm

/-- **C31, deviation.** Two handles on one module leave the setting of the first one in force, without any exception. -/
theorem two_handles_leak (attached : M → List Handle) (m : M) (h1 h2 : Handle) (hne : h1.id ≠ h2.id) (ha : attached m = [h1, h2])
    (s : St M) (hs : s.flag ≠ h1.enable) :
    (run attached (.block m .done .done) s).2.1 = false ∧ (run attached (.block m .done .done) s).1.flag ≠ s.flag := by
  refine ⟨by simp [run], ?_⟩
  simp [run, ha, preHook, postHook, hne]
  exact fun h' => hs h'.symm

/-! ### Concrete cases -/

/-- Modules 1 (non-strict) and 2 (strict) have handles, 0 and 3 do not; 0 calls 1, which calls 3 and 2. -/
def sampleHandles : ℕ → List Handle
  | 1 => [⟨0, false⟩]
  | 2 => [⟨1, true⟩]
  | _ => []
def sampleCalls : Prog ℕ Unit :=
  .block 0 (.act () (.block 1 (.act () (.block 3 (.act () .done) (.block 2 (.act () .done) (.act () .done)))) (.act () .done))) .done

example : ∀ m, (sampleHandles m).length ≤ 1 := by
  intro m; unfold sampleHandles; split <;> simp
example : NoReentry [] sampleCalls := by decide
example : (run sampleHandles sampleCalls ⟨true, fun _ _ => none⟩).2 = (false, [true, false, false, true, false, true]) := by decide
example : sampleHandles 1 = [⟨0, false⟩] ∧ (true ≠ false) := by decide

end FF.Strict
