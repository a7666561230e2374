import Mathlib.Data.Nat.Notation

/-! # `sdpa_upcast`: the type in which attention is computed (C91)

Models `_SDPAUpcast` of `nn/functional/custom/sdpa.py` and its use in `scaled_dot_product_attention_math`. -/

namespace FF.Upcast

/-! ### Model -/

inductive Dtype
  | float16
  | bfloat16
  | float32
  | float64
  deriving DecidableEq

/-- The argument of `sdpa_upcast`. -/
inductive Arg
  | dtype (d : Dtype)
  | flag (b : Bool)
  | none
  deriving DecidableEq

/-- `_SDPAUpcast.__init__` (433-445): the type that the argument stands for. -/
def Arg.toDtype : Arg → Option Dtype
  | .dtype d => some d
  | .flag true => some .float32
  | .flag false => .none
  | .none => .none

/-- An instance: `_orig_dtype` and `_dtype`. -/
structure Ctx where
  orig : Option Dtype
  dtype : Option Dtype

/-- What a program does with the setting. Names of instances are numbers. -/
inductive Prog
  | skip
  /-- Read the setting, as `scaled_dot_product_attention_math` does. -/
  | read
  | raise
  | seq (p q : Prog)
  /-- `try: p except: q` -/
  | handle (p q : Prog)
  /-- `with sdpa_upcast(a): p` -/
  | block (a : Arg) (p : Prog)
  /-- `x = sdpa_upcast(a)` -/
  | make (x : ℕ) (a : Arg)
  /-- `with x: p` -/
  | use (x : ℕ) (p : Prog)

structure State where
  setting : Option Dtype
  ctxs : ℕ → Ctx
  seen : List (Option Dtype)

/-- `__enter__`, the block and `__exit__` (447-456). -/
def within (c : Ctx) (body : State → Bool × State) (s : State) : Bool × State :=
  let r := body { s with setting := c.dtype }
  (r.1, { r.2 with setting := c.orig })

/-- Runs a program; true if it raises. -/
def exec : Prog → State → Bool × State
  | .skip, s => (false, s)
  | .read, s => (false, { s with seen := s.seen ++ [s.setting] })
  | .raise, s => (true, s)
  | .seq p q, s =>
    match exec p s with
    | (true, s) => (true, s)
    | (false, s) => exec q s
  | .handle p q, s =>
    match exec p s with
    | (true, s) => exec q s
    | (false, s) => (false, s)
  | .block a p, s => within ⟨s.setting, a.toDtype⟩ (exec p) s
  | .make x a, s => (false, { s with ctxs := fun y => if y = x then ⟨s.setting, a.toDtype⟩ else s.ctxs y })
  | .use x p, s => within (s.ctxs x) (exec p) s

/-- The types of query, key and value while attention is computed (222-227), and that of the result (295). -/
def computeTypes (setting : Option Dtype) (q k v : Dtype) : Dtype × Dtype × Dtype :=
  match setting with
  | none => (q, k, v)
  | some d => if q = .float16 ∨ q = .bfloat16 then (d, d, d) else (q, k, v)

/-- The type of the result; products need equal types. -/
def resultType (setting : Option Dtype) (q k v : Dtype) : Option Dtype :=
  match computeTypes setting q k v with
  | (q', k', v') => if q' = k' ∧ k' = v' then some q else none

/-! ### Specification -/

/-- What a program that uses contexts only where it makes them sees: in each block the type of the block's argument, after it what was before. -/
def Sees : Prog → Option Dtype → List (Option Dtype) → Bool → Prop
  | .skip, _, l, b => l = [] ∧ b = false
  | .read, d, l, b => l = [d] ∧ b = false
  | .raise, _, l, b => l = [] ∧ b = true
  | .seq p q, d, l, b => (Sees p d l true ∧ b = true) ∨ ∃ l1 l2, l = l1 ++ l2 ∧ Sees p d l1 false ∧ Sees q d l2 b
  | .handle p q, d, l, b => (Sees p d l false ∧ b = false) ∨ ∃ l1 l2, l = l1 ++ l2 ∧ Sees p d l1 true ∧ Sees q d l2 b
  | .block a p, _, l, b => Sees p (match a with | .dtype d => some d | .flag true => some .float32 | _ => none) l b
  | .make _ _, _, _, _ => False
  | .use _ _, _, _, _ => False

/-- Instances are made where they are used. -/
def Inline : Prog → Prop
  | .seq p q => Inline p ∧ Inline q
  | .handle p q => Inline p ∧ Inline q
  | .block _ p => Inline p
  | .make _ _ => False
  | .use _ _ => False
  | _ => True

/-! ### Properties -/

/-- **C91 (partial).** Programs that enter contexts where they make them see, in every block, the type of the innermost block around, however blocks are nested and
whatever raises; after every block the setting is what it was before.

Missing: instances that are kept and entered elsewhere, see the deviations. -/
theorem scoped_partial (p : Prog) (hp : Inline p) (s : State) :
    (exec p s).2.setting = s.setting ∧ ∃ l, (exec p s).2.seen = s.seen ++ l ∧ Sees p s.setting l (exec p s).1 := by
  induction p generalizing s with
  | skip => exact ⟨rfl, [], by simp [exec], rfl, rfl⟩
  | read => exact ⟨rfl, [s.setting], rfl, rfl, rfl⟩
  | raise => exact ⟨rfl, [], by simp [exec], rfl, rfl⟩
  | seq p q ihp ihq =>
    obtain ⟨h1, l1, h2, h3⟩ := ihp hp.1 s
    simp only [exec]
    generalize exec p s = r at h1 h2 h3
    obtain ⟨b, s'⟩ := r
    cases b with
    | true => exact ⟨h1, l1, h2, Or.inl ⟨h3, rfl⟩⟩
    | false =>
      obtain ⟨h4, l2, h5, h6⟩ := ihq hp.2 s'
      simp only at h1 h2 h3 ⊢
      refine ⟨h4.trans h1, l1 ++ l2, by rw [h5, h2, List.append_assoc], Or.inr ⟨l1, l2, rfl, h3, ?_⟩⟩
      rw [← h1]
      exact h6
  | handle p q ihp ihq =>
    obtain ⟨h1, l1, h2, h3⟩ := ihp hp.1 s
    simp only [exec]
    generalize exec p s = r at h1 h2 h3
    obtain ⟨b, s'⟩ := r
    cases b with
    | false => exact ⟨h1, l1, h2, Or.inl ⟨h3, rfl⟩⟩
    | true =>
      obtain ⟨h4, l2, h5, h6⟩ := ihq hp.2 s'
      simp only at h1 h2 h3 ⊢
      refine ⟨h4.trans h1, l1 ++ l2, by rw [h5, h2, List.append_assoc], Or.inr ⟨l1, l2, rfl, h3, ?_⟩⟩
      rw [← h1]
      exact h6
  | block a p ih =>
    obtain ⟨_, l, h2, h3⟩ := ih hp { s with setting := a.toDtype }
    refine ⟨rfl, l, h2, ?_⟩
    cases a with
    | dtype d => exact h3
    | flag b => cases b <;> exact h3
    | none => exact h3
  | make x a => exact absurd hp (by simp [Inline])
  | use x p => exact absurd hp (by simp [Inline])

/-- **C91.** The result has the type of the query; if query, key and value have the same type there is always a result, and it is computed in the type set if
they are of a half precision type and one is set, in their own type otherwise. -/
theorem result_type (setting : Option Dtype) (q : Dtype) :
    (∀ k v r, resultType setting q k v = some r → r = q) ∧ resultType setting q q q = some q ∧
    (∀ d, setting = some d → q = .float16 ∨ q = .bfloat16 → computeTypes setting q q q = (d, d, d)) ∧
    ((setting = none ∨ (q ≠ .float16 ∧ q ≠ .bfloat16)) → computeTypes setting q q q = (q, q, q)) := by
  refine ⟨fun k v r h => ?_, ?_, fun d hd hq => ?_, fun h => ?_⟩
  · unfold resultType at h
    split at h
    split at h
    · exact (Option.some.inj h).symm
    · simp at h
  · unfold resultType computeTypes
    cases setting with
    | none => simp
    | some d => by_cases hq : q = .float16 ∨ q = .bfloat16 <;> simp [hq]
  · subst hd
    simp [computeTypes, hq]
  · unfold computeTypes
    cases setting with
    | none => rfl
    | some d =>
      rcases h with h | ⟨h1, h2⟩
      · simp at h
      · simp [h1, h2]

/-! ### Deviations -/

/-- **C91, deviation.** An instance restores what was set when it was made, not when it was entered: here nothing is set around the inner block, yet after it the
default is. -/
theorem restores_too_early : (exec (.seq (.make 0 (.dtype .float64)) (.block .none (.seq (.use 0 .read) .read))) ⟨some .float32, fun _ => ⟨none, none⟩, []⟩).2.seen =
    [some .float64, some .float32] := rfl

/-- **C91, deviation.** A query in single precision is not computed in the type set, and keys in half precision then stay as they are: there is no result. -/
theorem mixed_types_fail (d : Dtype) : resultType (some d) .float32 .float16 .float16 = none ∧ resultType (some d) .float16 .float32 .float32 = some .float16 := by
  cases d <;> exact ⟨rfl, rfl⟩

/-! ### Concrete cases -/

/-- Nested blocks with an exception. -/
example : (exec (.seq (.handle (.block (.flag false) (.seq .read (.seq (.block (.dtype .float64) .read) (.seq .read .raise)))) .skip) .read)
    ⟨some .float32, fun _ => ⟨none, none⟩, []⟩).2.seen = [none, some .float64, none, some .float32] := rfl

example : Inline (.seq (.handle (.block (.flag false) (.seq .read (.seq (.block (.dtype .float64) .read) (.seq .read .raise)))) .skip) .read) := by simp [Inline]

end FF.Upcast
