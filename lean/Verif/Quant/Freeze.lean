import Mathlib.Data.Nat.Notation

/-! # `freeze_parameters`: replacing parameters by their quantized values (C88)

Models `quantization/freeze.py` and the calls of quantizers in a forward pass while its overrides are registered. -/

namespace FF.Freeze

variable {V : Type}

/-! ### Model -/

/-- The input of a quantizer: a parameter, or what is computed from the results of earlier quantizer calls. -/
inductive Input (V : Type)
  | param (p : ℕ)
  | act (f : List V → V)

/-- A call `self.name(input)` of a quantizer in the forward pass of a module. -/
structure Step (V : Type) where
  mod : ℕ
  name : String
  input : Input V

/-- What quantizers do: `fn q` is quantizing and dequantizing; an idle quantizer returns its input, as a disabled one does. -/
structure Quantizers (V : Type) where
  fn : ℕ → V → V
  idle : ℕ → Bool

/-- Parameters, the quantizer under each name of each module (`none`: a stub), the names in a module in order, and the overrides of each quantizer in the
order in which they were registered: `_FreezeParametersOverride(module, remove_quantizer)` (`quantization/freeze.py` 13-18). -/
structure State (V : Type) where
  params : ℕ → V
  slots : ℕ → String → Option ℕ
  names : ℕ → List String
  overrides : ℕ → List (ℕ × Bool)

/-- `input_data.copy_(quantized)` if the input is a parameter (`quantization/freeze.py` 49-51). -/
def write (target : Option ℕ) (w : V) (s : State V) : State V :=
  match target with
  | some p => { s with params := fun x => if x = p then w else s.params x }
  | none => s

/-- The replacement by a stub: the first name in the module with this quantizer (`quantization/freeze.py` 54-61). -/
def removeFrom (m q : ℕ) (s : State V) : State V :=
  match (s.names m).find? (fun n => s.slots m n == some q) with
  | some n => { s with slots := fun m' n' => if m' = m ∧ n' = n then none else s.slots m' n' }
  | none => s

/-- `quantizer(input)` under overrides, the last registered first (`forward_override.apply_overrides`); `none` is the input itself.
`_FreezeParametersOverride.__call__` (`quantization/freeze.py` 20-63). Simplification: `dequantize` of an ordinary tensor is the tensor. -/
def call (Q : Quantizers V) (q : ℕ) (v : V) (target : Option ℕ) : List (ℕ × Bool) → State V → Option V × State V
  | [], s => (if Q.idle q then none else some (Q.fn q v), s)
  | (m, remove) :: l, s =>
    match call Q q v target l s with
    | (none, s) => (none, s)
    | (some w, s) =>
      let s := write target w s
      (none, if remove then removeFrom m q s else s)

def Input.target : Input V → Option ℕ
  | .param p => some p
  | .act _ => none

def Input.value (params : ℕ → V) (rs : List V) : Input V → V
  | .param p => params p
  | .act f => f rs

/-- One call in a forward pass; the result, and whether it is a quantized tensor. `rs` are the results so far. -/
def step (Q : Quantizers V) (rs : List V) (st : Step V) (s : State V) : (V × Bool) × State V :=
  match s.slots st.mod st.name with
  | none => ((st.input.value s.params rs, false), s)
  | some q =>
    match call Q q (st.input.value s.params rs) st.input.target (s.overrides q).reverse s with
    | (some w, s') => ((w, true), s')
    | (none, s') => ((match st.input.target with | some p => s'.params p | none => st.input.value s.params rs, false), s')

/-- A forward pass, or the part of it before an exception. -/
def pass (Q : Quantizers V) : List V → List (Step V) → State V → List (V × Bool) × State V
  | _, [], s => ([], s)
  | rs, st :: l, s =>
    let r := step Q rs st s
    let t := pass Q (rs ++ [r.1.1]) l r.2
    (r.1 :: t.1, t.2)

/-- The registration of overrides (`quantization/freeze.py` 113-119), for the submodules of the given modules in order. -/
def register (ms : List ℕ) (remove : Bool) (s : State V) : State V :=
  { s with overrides := fun q => s.overrides q ++ ((ms.filter fun m => (s.names m).any fun n => s.slots m n == some q).map fun m => (m, remove)) }

/-- `with freeze_parameters(modules, remove): forward()` (`quantization/freeze.py` 73-127). At exit the handles in `hooks` are removed (125-127); none is put
there. -/
def freeze (Q : Quantizers V) (ms : List ℕ) (remove : Bool) (S : List (Step V)) (s : State V) : List (V × Bool) × State V :=
  pass Q [] S (register ms remove s)

inductive Op (V : Type)
  | freeze (ms : List ℕ) (remove : Bool) (S : List (Step V))
  | pass (S : List (Step V))

def run (Q : Quantizers V) : List (Op V) → State V → State V
  | [], s => s
  | .freeze ms remove S :: l, s => run Q l (freeze Q ms remove S s).2
  | .pass S :: l, s => run Q l (pass Q [] S s).2

/-! ### Specification -/

/-- What the quantizer under a name does. -/
def effect (Q : Quantizers V) (slots : ℕ → String → Option ℕ) (st : Step V) : V → V :=
  match slots st.mod st.name with
  | none => id
  | some q => if Q.idle q then id else Q.fn q

/-- The results of a forward pass of the quantized model. -/
def expected (Q : Quantizers V) (slots : ℕ → String → Option ℕ) (params : ℕ → V) : List V → List (Step V) → List V
  | _, [] => []
  | rs, st :: l => effect Q slots st (st.input.value params rs) :: expected Q slots params (rs ++ [effect Q slots st (st.input.value params rs)]) l

/-- The calls in an operation. -/
def Op.steps : Op V → List (Step V)
  | .freeze _ _ S => S
  | .pass S => S

/-- Only weights are quantized: every quantizer is in one place, quantizing twice is quantizing once, a quantizer is called on one parameter and all calls on
a parameter do the same to it; on other inputs the quantizers are idle or stubs. -/
structure WeightsOnly (Q : Quantizers V) (slots : ℕ → String → Option ℕ) (S : List (Step V)) : Prop where
  unshared : ∀ m n m' n' q, slots m n = some q → slots m' n' = some q → m' = m ∧ n' = n
  idem : ∀ q v, Q.fn q (Q.fn q v) = Q.fn q v
  one : ∀ st ∈ S, ∀ st' ∈ S, st'.mod = st.mod → st'.name = st.name → ∀ p p', st.input = .param p → st'.input = .param p' → p' = p
  agree : ∀ st ∈ S, ∀ st' ∈ S, ∀ p, st.input = .param p → st'.input = .param p → effect Q slots st' = effect Q slots st
  acts : ∀ st ∈ S, ∀ f, st.input = .act f → ∀ q, slots st.mod st.name = some q → Q.idle q = true

/-! ### Lemmas -/

theorem removeFrom_params (m q : ℕ) (s : State V) : (removeFrom m q s).params = s.params := by
  unfold removeFrom
  split <;> rfl

theorem removeFrom_names (m q : ℕ) (s : State V) : (removeFrom m q s).names = s.names := by
  unfold removeFrom
  split <;> rfl

theorem removeFrom_overrides (m q : ℕ) (s : State V) : (removeFrom m q s).overrides = s.overrides := by
  unfold removeFrom
  split <;> rfl

/-- Only names with this quantizer become stubs. -/
theorem removeFrom_slots (m q : ℕ) (s : State V) (m' : ℕ) (n' : String) :
    (removeFrom m q s).slots m' n' = s.slots m' n' ∨ ((removeFrom m q s).slots m' n' = none ∧ s.slots m' n' = some q ∧ m' = m) := by
  unfold removeFrom
  split
  · rename_i n h
    by_cases hh : m' = m ∧ n' = n
    · right
      have := List.find?_some h
      simp only [beq_iff_eq] at this
      simp only [hh, and_self, if_true, this]
    · left
      simp only [hh, if_false]
  · exact Or.inl rfl

/-- What a call can do. -/
theorem call_cases (Q : Quantizers V) (q : ℕ) (v : V) (target : Option ℕ) : ∀ (l : List (ℕ × Bool)) (s : State V),
    (call Q q v target l s = (if Q.idle q then none else some (Q.fn q v), s) ∧ (l = [] ∨ Q.idle q = true)) ∨
    (Q.idle q = false ∧ ∃ l' m remove, l = l' ++ [(m, remove)] ∧
      call Q q v target l s = (none, if remove then removeFrom m q (write target (Q.fn q v) s) else write target (Q.fn q v) s))
  | [], s => Or.inl ⟨rfl, Or.inl rfl⟩
  | (m, remove) :: l, s => by
    simp only [call]
    rcases call_cases Q q v target l s with ⟨h, h1⟩ | ⟨h, l', m', r', rfl, h'⟩
    · rw [h]
      by_cases hi : Q.idle q = true
      · left
        simp only [hi, if_true, or_true, and_true]
      · right
        simp only [hi, Bool.false_eq_true, if_false] at h1 ⊢
        rcases h1 with rfl | h1
        · exact ⟨by simp, [], m, remove, rfl, rfl⟩
        · exact absurd h1 (by simp)
    · right
      rw [h']
      exact ⟨h, (m, remove) :: l', m', r', rfl, rfl⟩

/-- A state after freezing: what was a quantizer is one or a stub, and every call on a parameter gives what it gave. -/
structure Inv (Q : Quantizers V) (slots0 : ℕ → String → Option ℕ) (params0 : ℕ → V) (S : List (Step V)) (s : State V) : Prop where
  same : ∀ st ∈ S, ∀ p, st.input = .param p → effect Q s.slots st (s.params p) = effect Q slots0 st (params0 p)
  slots : ∀ m n, s.slots m n = slots0 m n ∨ s.slots m n = none

theorem effect_none {Q : Quantizers V} {slots : ℕ → String → Option ℕ} {st : Step V} (h : slots st.mod st.name = none) : effect Q slots st = id := by
  unfold effect
  rw [h]

theorem effect_some {Q : Quantizers V} {slots : ℕ → String → Option ℕ} {st : Step V} {q : ℕ} (h : slots st.mod st.name = some q) (hi : Q.idle q = false) :
    effect Q slots st = Q.fn q := by
  unfold effect
  rw [h]
  simp [hi]

theorem effect_idle {Q : Quantizers V} {slots : ℕ → String → Option ℕ} {st : Step V} {q : ℕ} (h : slots st.mod st.name = some q) (hi : Q.idle q = true) :
    effect Q slots st = id := by
  unfold effect
  rw [h]
  simp [hi]

theorem effect_congr {Q : Quantizers V} {slots slots' : ℕ → String → Option ℕ} {st : Step V} (h : slots st.mod st.name = slots' st.mod st.name) :
    effect Q slots st = effect Q slots' st := by
  unfold effect
  rw [h]

theorem effect_idem {Q : Quantizers V} {slots : ℕ → String → Option ℕ} (hi : ∀ q v, Q.fn q (Q.fn q v) = Q.fn q v) (st : Step V) (v : V) :
    effect Q slots st (effect Q slots st v) = effect Q slots st v := by
  unfold effect
  cases slots st.mod st.name with
  | none => rfl
  | some q =>
    simp only
    split
    · rfl
    · exact hi _ _

/-- What a call does to an invariant state: it gives the expected value and leaves an invariant state; a parameter is written with that value. -/
theorem step_inv {Q : Quantizers V} {slots0 : ℕ → String → Option ℕ} {params0 : ℕ → V} {S : List (Step V)} (hw : WeightsOnly Q slots0 S) {s : State V}
    (hi : Inv Q slots0 params0 S s) {st : Step V} (hst : st ∈ S) (rs : List V) :
    (step Q rs st s).1.1 = effect Q slots0 st (st.input.value params0 rs) ∧ Inv Q slots0 params0 S (step Q rs st s).2 ∧
      ∀ p, (step Q rs st s).2.params p = s.params p ∨ (st.input = .param p ∧ (step Q rs st s).2.params p = effect Q slots0 st (params0 p)) := by
  unfold step
  cases hq : s.slots st.mod st.name with
  | none =>
    refine ⟨?_, hi, fun p => Or.inl rfl⟩
    cases hin : st.input with
    | param p =>
      have := hi.same st hst p hin
      rw [effect_none hq] at this
      exact this
    | act f =>
      show f rs = _
      cases h0 : slots0 st.mod st.name with
      | none => rw [effect_none h0]; rfl
      | some q => rw [effect_idle h0 (hw.acts st hst f hin q h0)]; rfl
  | some q =>
    have hq0 : slots0 st.mod st.name = some q := by
      rcases hi.slots st.mod st.name with h | h
      · rw [← h, hq]
      · rw [hq] at h
        simp at h
    simp only
    rcases call_cases Q q (st.input.value s.params rs) st.input.target (s.overrides q).reverse s with ⟨h, -⟩ | ⟨hidle, l', m, remove, -, h⟩
    · rw [h]
      by_cases hidle : Q.idle q = true
      · simp only [hidle, if_true]
        refine ⟨?_, hi, fun p => Or.inl (by first | rfl | simp)⟩
        cases hin : st.input with
        | param p =>
          have := hi.same st hst p hin
          rw [effect_idle hq hidle] at this
          exact this
        | act f =>
          rw [effect_idle hq0 hidle]
          rfl
      · have hidle : Q.idle q = false := by simpa using hidle
        simp only [hidle, Bool.false_eq_true, if_false]
        refine ⟨?_, hi, fun p => Or.inl (by first | rfl | simp)⟩
        cases hin : st.input with
        | param p =>
          have := hi.same st hst p hin
          rw [effect_some hq hidle] at this
          exact this
        | act f => exact absurd (hw.acts st hst f hin q hq0) (by simp [hidle])
    · rw [h]
      cases hin : st.input with
      | act f => exact absurd (hw.acts st hst f hin q hq0) (by simp [hidle])
      | param p =>
        have hval : Q.fn q (s.params p) = effect Q slots0 st (params0 p) := by
          have := hi.same st hst p hin
          rwa [effect_some hq hidle] at this
        simp only [Input.target, Input.value]
        generalize hs' : (if remove = true then removeFrom m q (write (some p) (Q.fn q (s.params p)) s) else write (some p) (Q.fn q (s.params p)) s) = s'
        have hp : s'.params = fun x => if x = p then Q.fn q (s.params p) else s.params x := by
          rw [← hs']
          split
          · rw [removeFrom_params]; rfl
          · rfl
        have hsl : ∀ m' n', s'.slots m' n' = s.slots m' n' ∨ (s'.slots m' n' = none ∧ s.slots m' n' = some q) := by
          intro m' n'
          rw [← hs']
          split
          · rcases removeFrom_slots m q (write (some p) (Q.fn q (s.params p)) s) m' n' with h1 | h1
            · exact Or.inl h1
            · exact Or.inr ⟨h1.1, h1.2.1⟩
          · exact Or.inl rfl
        refine ⟨by rw [hp]; simpa using hval, ⟨?_, ?_⟩, ?_⟩
        · intro st' hst' p' hin'
          by_cases hpp : p' = p
          · subst hpp
            have hag := hw.agree st hst st' hst' p' hin hin'
            have : s'.params p' = effect Q slots0 st (params0 p') := by
              rw [hp]
              simpa using hval
            rw [this, hag]
            have hcase : s'.slots st'.mod st'.name = slots0 st'.mod st'.name ∨ s'.slots st'.mod st'.name = none := by
              rcases hsl st'.mod st'.name with h1 | h1
              · rw [h1]
                exact hi.slots _ _
              · exact Or.inr h1.1
            rcases hcase with h1 | h1
            · rw [effect_congr h1, hag, effect_idem hw.idem]
            · rw [effect_none h1]
              rfl
          · have hsame : s'.slots st'.mod st'.name = s.slots st'.mod st'.name := by
              rcases hsl st'.mod st'.name with h1 | ⟨-, h1⟩
              · exact h1
              · exfalso
                have h0 : slots0 st'.mod st'.name = some q := by
                  rcases hi.slots st'.mod st'.name with h2 | h2
                  · rw [← h2, h1]
                  · rw [h1] at h2
                    simp at h2
                obtain ⟨e1, e2⟩ := hw.unshared _ _ _ _ q hq0 h0
                exact hpp (hw.one st hst st' hst' e1 e2 p p' hin hin')
            rw [effect_congr hsame, hp]
            simp only [hpp, if_false]
            exact hi.same st' hst' p' hin'
        · intro m' n'
          rcases hsl m' n' with h1 | h1
          · rw [h1]
            exact hi.slots m' n'
          · exact Or.inr h1.1
        · intro x
          by_cases hx : x = p
          · subst hx
            right
            refine ⟨rfl, ?_⟩
            rw [hp]
            simpa using hval
          · left
            rw [hp]
            simp [hx]

theorem pass_inv {Q : Quantizers V} {slots0 : ℕ → String → Option ℕ} {params0 : ℕ → V} {S : List (Step V)} (hw : WeightsOnly Q slots0 S) :
    ∀ (l : List (Step V)) (rs : List V) (s : State V), Inv Q slots0 params0 S s → (∀ st ∈ l, st ∈ S) →
      (pass Q rs l s).1.map Prod.fst = expected Q slots0 params0 rs l ∧ Inv Q slots0 params0 S (pass Q rs l s).2
  | [], rs, s, hi, _ => ⟨rfl, hi⟩
  | st :: l, rs, s, hi, hl => by
    obtain ⟨h1, h2, -⟩ := step_inv hw hi (hl st List.mem_cons_self) rs
    obtain ⟨h3, h4⟩ := pass_inv hw l (rs ++ [(step Q rs st s).1.1]) _ h2 fun x hx => hl x (List.mem_cons_of_mem _ hx)
    simp only [pass, List.map_cons, expected]
    rw [h3, h1]
    exact ⟨rfl, h1 ▸ h4⟩

theorem register_inv {Q : Quantizers V} {slots0 : ℕ → String → Option ℕ} {params0 : ℕ → V} {S : List (Step V)} {s : State V} {ms : List ℕ} {remove : Bool}
    (h : Inv Q slots0 params0 S s) : Inv Q slots0 params0 S (register ms remove s) := ⟨h.same, h.slots⟩

theorem run_inv {Q : Quantizers V} {slots0 : ℕ → String → Option ℕ} {params0 : ℕ → V} {S : List (Step V)} (hw : WeightsOnly Q slots0 S) :
    ∀ (l : List (Op V)) (s : State V), Inv Q slots0 params0 S s → (∀ o ∈ l, ∀ st ∈ o.steps, st ∈ S) → Inv Q slots0 params0 S (run Q l s)
  | [], _, hi, _ => hi
  | .freeze _ _ T :: l, _, hi, hl =>
    run_inv hw l _ (pass_inv hw T [] _ (register_inv hi) (hl _ List.mem_cons_self)).2 fun o ho => hl o (List.mem_cons_of_mem _ ho)
  | .pass T :: l, _, hi, hl =>
    run_inv hw l _ (pass_inv hw T [] _ hi (hl _ List.mem_cons_self)).2 fun o ho => hl o (List.mem_cons_of_mem _ ho)

theorem inv_self (Q : Quantizers V) (S : List (Step V)) (s : State V) : Inv Q s.slots s.params S s := ⟨fun _ _ _ _ => rfl, fun _ _ => Or.inl rfl⟩

theorem step_plain (Q : Quantizers V) (rs : List V) (st : Step V) (s : State V) (h : s.overrides = fun _ => []) :
    step Q rs st s = ((effect Q s.slots st (st.input.value s.params rs), match s.slots st.mod st.name with | none => false | some q => !Q.idle q), s) := by
  unfold step effect
  cases hq : s.slots st.mod st.name with
  | none => rfl
  | some q =>
    simp only [h, List.reverse_nil, call]
    cases hi : Q.idle q
    · simp
    · cases hin : st.input <;> simp [Input.target, Input.value]

theorem step_frame (Q : Quantizers V) (rs : List V) (st : Step V) (s : State V) :
    (step Q rs st s).2.names = s.names ∧ (step Q rs st s).2.overrides = s.overrides ∧
    (∀ p, (step Q rs st s).2.params p = s.params p ∨ (st.input = .param p ∧ ∃ q, s.slots st.mod st.name = some q ∧ Q.idle q = false)) ∧
    ∀ m n, (step Q rs st s).2.slots m n = s.slots m n ∨
      ((step Q rs st s).2.slots m n = none ∧ ∃ q, s.slots m n = some q ∧ s.slots st.mod st.name = some q ∧ Q.idle q = false ∧ ∃ o ∈ s.overrides q, o = (m, true)) := by
  unfold step
  cases hq : s.slots st.mod st.name with
  | none => exact ⟨rfl, rfl, fun _ => Or.inl rfl, fun _ _ => Or.inl rfl⟩
  | some q =>
    simp only
    rcases call_cases Q q (st.input.value s.params rs) st.input.target (s.overrides q).reverse s with ⟨h, -⟩ | ⟨hidle, l', m, remove, hl, h⟩
    · rw [h]
      by_cases hidle : Q.idle q = true
      · simp only [hidle, if_true]
        exact ⟨trivial, trivial, fun _ => Or.inl (by first | rfl | simp), fun _ _ => Or.inl (by first | rfl | simp)⟩
      · simp only [hidle, Bool.false_eq_true, if_false]
        exact ⟨trivial, trivial, fun _ => Or.inl (by first | rfl | simp), fun _ _ => Or.inl (by first | rfl | simp)⟩
    · rw [h]
      have hmem : (m, remove) ∈ s.overrides q := by
        rw [← List.mem_reverse, hl]
        simp
      simp only
      generalize hw : write st.input.target (Q.fn q (st.input.value s.params rs)) s = s1
      have hwn : s1.names = s.names ∧ s1.overrides = s.overrides ∧ s1.slots = s.slots ∧ ∀ p, s1.params p = s.params p ∨ st.input = .param p := by
        rw [← hw]
        cases hin : st.input with
        | act f => exact ⟨rfl, rfl, rfl, fun _ => Or.inl rfl⟩
        | param p =>
          refine ⟨rfl, rfl, rfl, fun x => ?_⟩
          by_cases hx : x = p
          · exact Or.inr (by rw [hx])
          · exact Or.inl (by simp [write, Input.target, hx])
      have hpar : ∀ p, s1.params p = s.params p ∨ (st.input = .param p ∧ ∃ q', some q = some q' ∧ Q.idle q' = false) := fun p => by
        rcases hwn.2.2.2 p with h1 | h1
        · exact Or.inl h1
        · exact Or.inr ⟨h1, q, rfl, hidle⟩
      cases remove with
      | false =>
        simp only [Bool.false_eq_true, if_false]
        exact ⟨hwn.1, hwn.2.1, hpar, fun m' n' => Or.inl (by rw [hwn.2.2.1])⟩
      | true =>
        simp only [if_true]
        refine ⟨by rw [removeFrom_names, hwn.1], by rw [removeFrom_overrides, hwn.2.1], by rw [removeFrom_params]; exact hpar, fun m' n' => ?_⟩
        rcases removeFrom_slots m q s1 m' n' with h1 | ⟨h1, h2, h3⟩
        · exact Or.inl (by rw [h1, hwn.2.2.1])
        · subst h3
          rw [hwn.2.2.1] at h2
          exact Or.inr ⟨h1, q, h2, rfl, hidle, _, hmem, rfl⟩

theorem pass_append (Q : Quantizers V) : ∀ (l₁ l₂ : List (Step V)) (rs : List V) (s : State V),
    (pass Q rs (l₁ ++ l₂) s).2 = (pass Q (rs ++ (pass Q rs l₁ s).1.map Prod.fst) l₂ (pass Q rs l₁ s).2).2
  | [], l₂, rs, s => by simp [pass]
  | st :: l₁, l₂, rs, s => by
    simp only [List.cons_append, pass, List.map_cons]
    rw [pass_append Q l₁ l₂]
    simp

theorem pass_frame (Q : Quantizers V) : ∀ (l : List (Step V)) (rs : List V) (s : State V),
    (pass Q rs l s).2.names = s.names ∧ (pass Q rs l s).2.overrides = s.overrides ∧
    (∀ m n, (pass Q rs l s).2.slots m n = s.slots m n ∨ (pass Q rs l s).2.slots m n = none)
  | [], rs, s => ⟨rfl, rfl, fun _ _ => Or.inl rfl⟩
  | st :: l, rs, s => by
    obtain ⟨h1, h2, h3, h4⟩ := step_frame Q rs st s
    obtain ⟨g1, g2, g3⟩ := pass_frame Q l (rs ++ [(step Q rs st s).1.1]) (step Q rs st s).2
    simp only [pass]
    refine ⟨g1.trans h1, g2.trans h2, fun m n => ?_⟩
    rcases g3 m n with h | h
    · rw [h]
      rcases h4 m n with h' | h'
      · exact Or.inl h'
      · exact Or.inr h'.1
    · exact Or.inr h

/-! ### Properties -/

/-- **C88 (partial).** Freezing does not change what the model computes: after any sequence of forward passes, in and out of the context, complete or broken off
by an exception, a forward pass gives the results of the quantized model as it was at first.

Missing: models with quantized activations and the other restrictions of `WeightsOnly`, see the deviations. -/
theorem results_kept_partial (Q : Quantizers V) (s : State V) (h : List (Op V)) (S : List (Step V))
    (hw : WeightsOnly Q s.slots (h.flatMap Op.steps ++ S)) :
    (pass Q [] S (run Q h s)).1.map Prod.fst = expected Q s.slots s.params [] S :=
  (pass_inv hw S [] _ (run_inv hw h s (inv_self Q _ s) fun o ho _ hst => List.mem_append_left _ (List.mem_flatMap.2 ⟨o, ho, hst⟩))
    fun _ hst => List.mem_append_right _ hst).1

/-- **C88.** `expected` is what a forward pass gives before any freezing, for all models, and it changes nothing. -/
theorem pass_without_overrides (Q : Quantizers V) (s : State V) (h : s.overrides = fun _ => []) (S : List (Step V)) (rs : List V) :
    (pass Q rs S s).1.map Prod.fst = expected Q s.slots s.params rs S ∧ (pass Q rs S s).2 = s := by
  induction S generalizing rs with
  | nil => exact ⟨rfl, rfl⟩
  | cons st l ih =>
    simp only [pass, step_plain Q rs st s h, List.map_cons, expected]
    exact ⟨by rw [(ih _).1], (ih _).2⟩

/-- **C88 (partial).** A forward pass in the context sets every parameter that it quantizes to its quantized value; if quantizers are to be removed, the
quantizer is replaced by a stub, otherwise all stay.

Missing: the restrictions of `WeightsOnly`. -/
theorem parameter_frozen_partial (Q : Quantizers V) (s : State V) (ms : List ℕ) (remove : Bool) (S : List (Step V)) (hw : WeightsOnly Q s.slots S)
    (ho : s.overrides = fun _ => []) (st : Step V) (hst : st ∈ S) (p q : ℕ) (hp : st.input = .param p) (hq : s.slots st.mod st.name = some q)
    (hidle : Q.idle q = false) (hm : st.mod ∈ ms) (hn : st.name ∈ s.names st.mod) :
    (freeze Q ms remove S s).2.params p = Q.fn q (s.params p) ∧ (freeze Q ms remove S s).2.slots st.mod st.name = if remove then none else some q := by
  obtain ⟨S1, S2, rfl⟩ := List.append_of_mem hst
  unfold freeze
  rw [pass_append]
  have hi0 : Inv Q s.slots s.params (S1 ++ st :: S2) (register ms remove s) := register_inv (inv_self Q _ s)
  have hi1 := (pass_inv hw S1 [] _ hi0 fun x hx => List.mem_append_left _ hx).2
  have hf1 := pass_frame Q S1 [] (register ms remove s)
  -- without removal no quantizer goes
  have hkeep : remove = false → ∀ (l : List (Step V)) rs (s' : State V), s'.overrides = (register ms remove s).overrides → (pass Q rs l s').2.slots = s'.slots := by
    intro hr l
    induction l with
    | nil => intro rs s' _; rfl
    | cons x l ih =>
      intro rs s' h'
      have hfr := step_frame Q rs x s'
      simp only [pass]
      rw [ih _ _ (hfr.2.1.trans h')]
      funext m n
      rcases hfr.2.2.2 m n with h1 | ⟨-, q', -, -, -, o, hmem, rfl⟩
      · exact h1
      · rw [h'] at hmem
        simp [register, ho, hr] at hmem
  generalize hrs : ([] : List V) ++ List.map Prod.fst (pass Q [] S1 (register ms remove s)).1 = rs
  generalize hs1 : (pass Q [] S1 (register ms remove s)).2 = s1 at *
  have hov : s1.overrides = (register ms remove s).overrides := hf1.2.1
  have heff : effect Q s.slots st = Q.fn q := effect_some hq hidle
  obtain ⟨hval, hi2, hpar⟩ := step_inv hw hi1 hst rs
  simp only [pass]
  -- all overrides of the quantizer are for this module
  have hovq : ∀ o ∈ s1.overrides q, o = (st.mod, remove) := by
    intro o hmem
    rw [hov] at hmem
    simp only [register, ho, List.nil_append, List.mem_map, List.mem_filter, List.any_eq_true, beq_iff_eq] at hmem
    obtain ⟨m, ⟨-, n, -, hmn⟩, rfl⟩ := hmem
    rw [(hw.unshared _ _ _ _ q hq hmn).1]
  have hne : s1.overrides q ≠ [] := by
    intro he
    have : (st.mod, remove) ∈ s1.overrides q := by
      rw [hov]
      simp only [register, ho, List.nil_append, List.mem_map, List.mem_filter, List.any_eq_true, beq_iff_eq]
      exact ⟨st.mod, ⟨hm, st.name, hn, hq⟩, rfl⟩
    rw [he] at this
    simp at this
  -- the call itself
  have hstep : (step Q rs st s1).2.params p = Q.fn q (s.params p) ∧ (remove = true → (step Q rs st s1).2.slots st.mod st.name = none) := by
    rcases hi1.slots st.mod st.name with h1 | h1
    · have hq1 : s1.slots st.mod st.name = some q := h1.trans hq
      have hv : Q.fn q (s1.params p) = Q.fn q (s.params p) := by
        have := hi1.same st hst p hp
        rwa [effect_some hq1 hidle, heff] at this
      unfold step
      rw [hq1]
      simp only
      rcases call_cases Q q (st.input.value s1.params rs) st.input.target (s1.overrides q).reverse s1 with ⟨-, h2⟩ | ⟨-, l', m, r, hl, h2⟩
      · rcases h2 with h2 | h2
        · exact absurd (List.reverse_eq_nil_iff.1 h2) hne
        · rw [hidle] at h2
          simp at h2
      · have hmr : (m, r) = (st.mod, remove) := hovq _ (by rw [← List.mem_reverse, hl]; simp)
        obtain ⟨rfl, rfl⟩ := Prod.mk.injEq .. ▸ hmr
        rw [h2]
        simp only [hp, Input.target, Input.value]
        constructor
        · split
          · rw [removeFrom_params]
            simpa [write] using hv
          · simpa [write] using hv
        · intro hr
          rw [if_pos hr]
          unfold removeFrom
          split
          · rename_i n hfind
            have hfs := List.find?_some hfind
            simp only [write, beq_iff_eq] at hfs
            have hs0 : s.slots st.mod n = some q := by
              rcases hi1.slots st.mod n with h3 | h3
              · rw [← h3, hfs]
              · rw [hfs] at h3
                simp at h3
            have := (hw.unshared _ _ _ _ q hq hs0).2
            subst this
            simp
          · rename_i hfind
            have := List.find?_eq_none.1 hfind st.name (by
              show st.name ∈ s1.names st.mod
              rw [hf1.1]
              exact hn)
            simp [write, hq1] at this
    · have hx : s1.params p = Q.fn q (s.params p) := by
        have := hi1.same st hst p hp
        rw [effect_none h1, heff] at this
        exact this
      refine ⟨?_, fun _ => ?_⟩
      · rcases hpar p with h2 | ⟨-, h2⟩
        · rw [h2, hx]
        · rw [h2, heff]
      · unfold step
        rw [h1]
        exact h1
  -- and the rest of the pass
  generalize hs2 : (step Q rs st s1).2 = s2 at *
  have hrest : ∀ (l : List (Step V)) rs (s' : State V), (∀ x ∈ l, x ∈ S1 ++ st :: S2) → Inv Q s.slots s.params (S1 ++ st :: S2) s' →
      s'.params p = Q.fn q (s.params p) → (pass Q rs l s').2.params p = Q.fn q (s.params p) := by
    intro l
    induction l with
    | nil => intro rs s' _ _ h; exact h
    | cons x l ih =>
      intro rs s' hl hinv h
      obtain ⟨-, hx2, hx3⟩ := step_inv hw hinv (hl x List.mem_cons_self) rs
      refine ih _ _ (fun y hy => hl y (List.mem_cons_of_mem _ hy)) hx2 ?_
      rcases hx3 p with h1 | ⟨h1, h2⟩
      · rw [h1, h]
      · rw [h2, hw.agree st hst x (hl x List.mem_cons_self) p hp h1, heff]
  refine ⟨hrest S2 _ s2 (fun x hx => by simp [hx]) hi2 hstep.1, ?_⟩
  cases hr : remove with
  | true =>
    simp only [if_true]
    rcases (pass_frame Q S2 (rs ++ [(step Q rs st s1).1.1]) s2).2.2 st.mod st.name with h1 | h1
    · rw [h1]
      exact hstep.2 hr
    · exact h1
  | false =>
    simp only [Bool.false_eq_true, if_false]
    have hs2o : s2.overrides = (register ms remove s).overrides := by
      rw [← hs2, (step_frame Q rs st s1).2.1, hov]
    rw [hkeep hr S2 _ s2 hs2o]
    have e1 := hkeep hr [st] rs s1 hov
    have e0 := hkeep hr S1 [] (register ms remove s) rfl
    simp only [pass] at e1
    rw [hs2] at e1
    rw [e1, ← hs1, e0]
    exact hq

/-- **C88.** A forward pass in the context changes a parameter only if it calls a quantizer, which is not idle, on it; a quantizer is replaced only if it, or the
same quantizer elsewhere, is called and is not idle, and quantizers are to be removed; idle quantizers stay. -/
theorem others_untouched (Q : Quantizers V) (s : State V) (ms : List ℕ) (remove : Bool) (S : List (Step V)) (ho : s.overrides = fun _ => []) :
    (∀ p, (freeze Q ms remove S s).2.params p ≠ s.params p →
      ∃ st ∈ S, st.input = .param p ∧ ∃ q, s.slots st.mod st.name = some q ∧ Q.idle q = false) ∧
    ∀ m n, (freeze Q ms remove S s).2.slots m n ≠ s.slots m n → (freeze Q ms remove S s).2.slots m n = none ∧ remove = true ∧ m ∈ ms ∧
      ∃ q, s.slots m n = some q ∧ Q.idle q = false ∧ ∃ st ∈ S, s.slots st.mod st.name = some q := by
  unfold freeze
  have hov : ∀ q m, (m, true) ∈ (register ms remove s).overrides q → remove = true ∧ m ∈ ms := by
    intro q m h
    simp only [register, ho, List.nil_append, List.mem_map, List.mem_filter, Prod.mk.injEq] at h
    obtain ⟨m', ⟨h1, -⟩, rfl, h2⟩ := h
    exact ⟨h2, h1⟩
  have key : ∀ (l : List (Step V)) (rs : List V) (s' : State V), (∀ x ∈ l, x ∈ S) → s'.overrides = (register ms remove s).overrides →
      (∀ m n, s'.slots m n = s.slots m n ∨ s'.slots m n = none) →
      (∀ p, (pass Q rs l s').2.params p ≠ s'.params p → ∃ st ∈ S, st.input = .param p ∧ ∃ q, s.slots st.mod st.name = some q ∧ Q.idle q = false) ∧
      ∀ m n, (pass Q rs l s').2.slots m n ≠ s'.slots m n → (pass Q rs l s').2.slots m n = none ∧ remove = true ∧ m ∈ ms ∧
        ∃ q, s.slots m n = some q ∧ Q.idle q = false ∧ ∃ st ∈ S, s.slots st.mod st.name = some q := by
    intro l
    induction l with
    | nil => intro rs s' _ _ _; exact ⟨fun _ h => absurd rfl h, fun _ _ h => absurd rfl h⟩
    | cons x l ih =>
      intro rs s' hl h1 h2
      have hfr := step_frame Q rs x s'
      have hlift : ∀ m n q, s'.slots m n = some q → s.slots m n = some q := by
        intro m n q h
        rcases h2 m n with h3 | h3
        · rw [← h3, h]
        · rw [h] at h3
          simp at h3
      have h2' : ∀ m n, (step Q rs x s').2.slots m n = s.slots m n ∨ (step Q rs x s').2.slots m n = none := by
        intro m n
        rcases hfr.2.2.2 m n with h | h
        · rw [h]
          exact h2 m n
        · exact Or.inr h.1
      obtain ⟨i1, i2⟩ := ih (rs ++ [(step Q rs x s').1.1]) (step Q rs x s').2 (fun y hy => hl y (List.mem_cons_of_mem _ hy)) (hfr.2.1.trans h1) h2'
      simp only [pass]
      constructor
      · intro p hne
        by_cases h : (step Q rs x s').2.params p = s'.params p
        · exact i1 p (by rw [h]; exact hne)
        · rcases hfr.2.2.1 p with h3 | ⟨h3, q, h4, h5⟩
          · exact absurd h3 h
          · exact ⟨x, hl x List.mem_cons_self, h3, q, hlift _ _ _ h4, h5⟩
      · intro m n hne
        by_cases h : (step Q rs x s').2.slots m n = s'.slots m n
        · exact i2 m n (by rw [h]; exact hne)
        · rcases hfr.2.2.2 m n with h3 | ⟨h3, q, h4, h5, h6, o, h7, rfl⟩
          · exact absurd h3 h
          · refine ⟨?_, ?_⟩
            · rcases (pass_frame Q l (rs ++ [(step Q rs x s').1.1]) (step Q rs x s').2).2.2 m n with h8 | h8
              · rw [h8, h3]
              · exact h8
            · rw [h1] at h7
              obtain ⟨e1, e2⟩ := hov q m h7
              exact ⟨e1, e2, q, hlift _ _ _ h4, h6, x, hl x List.mem_cons_self, hlift _ _ _ h5⟩
  exact key S [] (register ms remove s) (fun _ h => h) rfl fun _ _ => Or.inl rfl

/-! ### Deviations -/

/-- Quantizers that round to multiples of ten; number 9 is idle. -/
def toyQ : Quantizers ℕ := ⟨fun _ v => v / 10 * 10, fun q => q == 9⟩

/-- A module 0 with a quantizer for the weight and one for the input, and a module 1 with a quantizer for the weight. -/
def toyState : State ℕ where
  params p := 17 + p
  slots m n := if m = 0 ∧ n = "weight" then some 1 else if m = 0 ∧ n = "input" then some 2 else if m = 1 ∧ n = "weight" then some 3 else none
  names m := if m = 0 then ["input", "weight"] else ["weight"]
  overrides _ := []

def weight (m p : ℕ) : Step ℕ := ⟨m, "weight", .param p⟩

def activation (v : ℕ) : Step ℕ := ⟨0, "input", .act fun _ => v⟩

/-- **C88, deviation.** The quantizer of an activation is replaced by a stub as well, although no parameter was frozen with it: the model has other results
afterwards, and already within the context. -/
theorem activation_quantizer_removed :
    (pass toyQ [] [activation 25, weight 0 0] toyState).1 = [(20, true), (10, true)] ∧
    (freeze toyQ [0, 1] true [activation 25, weight 0 0] toyState).1 = [(25, false), (10, false)] ∧
    (freeze toyQ [0, 1] true [activation 25, weight 0 0] toyState).2.slots 0 "input" = none ∧
    (pass toyQ [] [activation 25, weight 0 0] (freeze toyQ [0, 1] true [activation 25, weight 0 0] toyState).2).1 = [(25, false), (10, false)] := by
  decide +kernel

/-- **C88, deviation.** The overrides are not removed at exit. If quantizers are kept, they give ordinary tensors instead of quantized ones from then on, and
activations are no longer quantized. -/
theorem overrides_stay :
    (freeze toyQ [0, 1] false [activation 25, weight 0 0] toyState).2.overrides 1 = [(0, false)] ∧
    (pass toyQ [] [activation 25, weight 0 0] (freeze toyQ [0, 1] false [activation 25, weight 0 0] toyState).2).1 = [(25, false), (10, false)] := by
  decide +kernel

/-- **C88, deviation.** So a quantizer that no pass within the context called freezes its parameter and is removed in a later pass, after the context. -/
theorem frozen_after_exit :
    (freeze toyQ [0, 1] true [weight 0 0] toyState).2.params 1 = 18 ∧ (freeze toyQ [0, 1] true [weight 0 0] toyState).2.slots 1 "weight" = some 3 ∧
    (pass toyQ [] [weight 1 1] (freeze toyQ [0, 1] true [weight 0 0] toyState).2).2.params 1 = 10 ∧
    (pass toyQ [] [weight 1 1] (freeze toyQ [0, 1] true [weight 0 0] toyState).2).2.slots 1 "weight" = none := by
  decide +kernel

/-- **C88, deviation.** A quantizer that two modules share is removed from one of them only. -/
theorem shared_quantizer_stays :
    (freeze toyQ [0, 1] true [weight 0 0, weight 1 1] { toyState with slots := fun _ n => if n = "weight" then some 1 else none }).2.slots 0 "weight" = none ∧
    (freeze toyQ [0, 1] true [weight 0 0, weight 1 1] { toyState with slots := fun _ n => if n = "weight" then some 1 else none }).2.slots 1 "weight" = some 1 := by
  decide +kernel

/-- **C88, deviation.** A quantizer that is called on two parameters is gone after the first: the second stays unquantized. -/
theorem second_parameter_unquantized :
    (pass toyQ [] [weight 0 0, weight 0 1] toyState).1.map Prod.fst = [10, 10] ∧
    (freeze toyQ [0, 1] true [weight 0 0, weight 0 1] toyState).1.map Prod.fst = [10, 18] ∧
    (freeze toyQ [0, 1] true [weight 0 0, weight 0 1] toyState).2.params 1 = 18 := by
  decide +kernel

/-! ### Concrete cases -/

/-- Two weights, one of them used twice, and an activation computed from them with a stub. -/
def toySteps : List (Step ℕ) := [weight 0 0, weight 1 1, ⟨1, "out", .act fun rs => rs.sum⟩, weight 0 0]

example : WeightsOnly toyQ toyState.slots toySteps := by
  refine ⟨?_, ?_, ?_, ?_, ?_⟩
  · intro m n m' n' q h h'
    simp only [toyState] at h h'
    split at h
    · rename_i e; split at h'
      · rename_i e'; simp [e, e']
      · split at h'
        · simp at h h'; omega
        · split at h' <;> simp at h h'; omega
    · split at h
      · rename_i e; split at h'
        · simp at h h'; omega
        · split at h'
          · rename_i e'; simp [e, e']
          · split at h' <;> simp at h h'; omega
      · split at h
        · rename_i e; split at h'
          · simp at h h'; omega
          · split at h'
            · simp at h h'; omega
            · split at h'
              · rename_i e'; simp [e, e']
              · simp at h'
        · simp at h
  · intro q v
    simp only [toyQ]
    omega
  · intro st hst st' hst' e1 e2 p p' h h'
    simp only [toySteps, weight, List.mem_cons, List.not_mem_nil, or_false] at hst hst'
    rcases hst with rfl | rfl | rfl | rfl <;> rcases hst' with rfl | rfl | rfl | rfl <;> simp_all
  · intro st hst st' hst' p h h'
    simp only [toySteps, weight, List.mem_cons, List.not_mem_nil, or_false] at hst hst'
    rcases hst with rfl | rfl | rfl | rfl <;> rcases hst' with rfl | rfl | rfl | rfl <;> simp_all
  · intro st hst f h q hq
    simp only [toySteps, weight, List.mem_cons, List.not_mem_nil, or_false] at hst
    rcases hst with rfl | rfl | rfl | rfl <;> simp_all [toyState]

example : (pass toyQ [] toySteps toyState).1 = [(10, true), (10, true), (20, false), (10, true)] ∧
    (freeze toyQ [0, 1] true toySteps toyState).1 = [(10, false), (10, false), (20, false), (10, false)] ∧
    (freeze toyQ [0, 1] true toySteps toyState).2.params 1 = 10 ∧ (freeze toyQ [0, 1] true toySteps toyState).2.slots 1 "weight" = none := by decide +kernel

end FF.Freeze
