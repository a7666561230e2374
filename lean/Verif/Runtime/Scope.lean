import Mathlib.Data.List.Basic
import Mathlib.Data.Nat.Notation

/-!
# Programs with nested context managers

Python code that uses the library's context managers, reduced to what matters for them: it enters blocks (in any nesting, in loops
or recursion, all of which unfold to such programs), observes the library's state between blocks, and may raise at any point. A
`with` statement runs the context manager's exit code when its body finishes and when it raises, and then re-raises.
-/

namespace FF.Scope

/-- A straight-line trace of a program: `B` are the context managers it enters, `A` the observations it makes. -/
inductive Prog (B A : Type) where
  | done
  | raise
  | act (a : A) (rest : Prog B A)
  | block (b : B) (body rest : Prog B A)

/-- A family of context managers over a state `S`. `enter` is construction together with `__enter__` (`none`: it raises before
anything changed), `exit` is `__exit__` and gets what the context manager object remembers. An observation may also change the state
(`effect`), for example fill a cache. -/
structure Managers (B A S K O : Type) where
  enter : B → S → Option (S × K)
  exit : K → S → S
  observe : A → S → O
  effect : A → S → S := fun _ s => s

/-- Running a program: final state, whether it raised, and the observations in order. -/
def exec {B A S K O : Type} (m : Managers B A S K O) : Prog B A → S → S × Bool × List O
  | .done, s => (s, false, [])
  | .raise, s => (s, true, [])
  | .act a rest, s =>
    let r := exec m rest (m.effect a s)
    (r.1, r.2.1, m.observe a s :: r.2.2)
  | .block b body rest, s =>
    match m.enter b s with
    | none => (s, true, [])
    | some (s1, k) =>
      let r := exec m body s1
      let s3 := m.exit k r.1
      if r.2.1 then (s3, true, r.2.2)
      else
        let r' := exec m rest s3
        (r'.1, r'.2.1, r.2.2 ++ r'.2.2)

/-- What the same program observes when each block simply runs its body in an environment made from the surrounding one, and the
surrounding environment is untouched afterwards: lexical scoping. `none`: the block cannot be entered. -/
def lexical {B A E O : Type} (enter : B → E → Option E) (observe : A → E → O) : Prog B A → E → Bool × List O
  | .done, _ => (false, [])
  | .raise, _ => (true, [])
  | .act a rest, e =>
    let r := lexical enter observe rest e
    (r.1, observe a e :: r.2)
  | .block b body rest, e =>
    match enter b e with
    | none => (true, [])
    | some e1 =>
      let r := lexical enter observe body e1
      if r.1 then (true, r.2)
      else
        let r' := lexical enter observe rest e
        (r'.1, r.2 ++ r'.2)

/-- If entering matches the environment and leaving undoes entering, up to `same`, then programs are lexically scoped and leave the
state as they found it. -/
theorem exec_scoped {B A S K O E : Type} (m : Managers B A S K O) (enter : B → E → Option E) (observe : A → E → O)
    (R : S → E → Prop) (same : S → S → Prop) (hrefl : ∀ s, same s s) (htrans : ∀ a b c, same a b → same b c → same a c)
    (hR : ∀ s s' e, same s s' → R s e → R s' e) (hobs : ∀ s e a, R s e → m.observe a s = observe a e)
    (heff : ∀ s e a, R s e → same s (m.effect a s))
    (hnone : ∀ s e b, R s e → m.enter b s = none → enter b e = none)
    (hsome : ∀ s e b s1 k, R s e → m.enter b s = some (s1, k) → ∃ e1, enter b e = some e1 ∧ R s1 e1 ∧
      ∀ s2, same s1 s2 → same s (m.exit k s2))
    (p : Prog B A) (s : S) (e : E) (h : R s e) : (exec m p s).2 = lexical enter observe p e ∧ same s (exec m p s).1 := by
  induction p generalizing s e with
  | done => exact ⟨rfl, hrefl s⟩
  | raise => exact ⟨rfl, hrefl s⟩
  | act a rest ih =>
    have h0 := heff s e a h
    obtain ⟨h1, h2⟩ := ih _ e (hR _ _ _ h0 h)
    simp only [exec, lexical]
    rw [← h1, hobs s e a h]
    exact ⟨rfl, htrans _ _ _ h0 h2⟩
  | block b body rest ihb ihr =>
    simp only [exec, lexical]
    cases hen : m.enter b s with
    | none =>
      rw [hnone s e b h hen]
      exact ⟨rfl, hrefl s⟩
    | some r =>
      obtain ⟨s1, k⟩ := r
      obtain ⟨e1, he1, hR1, hexit⟩ := hsome s e b s1 k h hen
      obtain ⟨h1, h2⟩ := ihb s1 e1 hR1
      rw [he1]
      simp only
      rw [← h1]
      have h3 := hexit _ h2
      by_cases hr : (exec m body s1).2.1
      · rw [if_pos hr, if_pos hr]
        exact ⟨rfl, h3⟩
      · rw [if_neg hr, if_neg hr]
        obtain ⟨h4, h5⟩ := ihr _ e (hR _ _ _ h3 h)
        rw [← h4]
        exact ⟨rfl, htrans _ _ _ h3 h5⟩

end FF.Scope
