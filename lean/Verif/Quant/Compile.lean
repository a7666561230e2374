/-!
# Compiled quantization functions

Models `conditional_compile` (`src/fastforward/quantization/_quantizer_impl.py:26-41`), which wraps the functions that quantize and dequantize tensors, with the flag
`compiled_quant_funcs` (`src/fastforward/flags.py:28-58, 96-100`).

Simplifications: functions are numbered; what `torch.compile` makes of a function is given; keyword arguments are a list without repeated names; a context is
entered where it is made.
-/

namespace FF.Compile

/-! ## Model -/

variable {V R : Type}

/-- The arguments of a call. -/
structure Args (V : Type) where
  pos : List V
  kw : List (String × V)
  deriving DecidableEq, Repr

/-- Lines 32-33: `kwargs["num_bits"] = float(kwargs["num_bits"])`; `none`: `float` raises. -/
def convert (float : V → Option V) : List (String × V) → Option (List (String × V))
  | [] => some []
  | (n, v) :: l => match (if n = "num_bits" then float v else some v), convert float l with
    | some v', some l' => some ((n, v') :: l')
    | _, _ => none

/-- The flag, the values to restore, and which functions were compiled, last first. -/
structure St where
  flag : Bool
  saved : List Bool
  compiled : List Nat

inductive Op (V : Type) where
  | set (b : Bool)
  | enter (b : Bool)
  | exit
  | call (k : Nat) (a : Args V)

/-- One operation: the flag (flags.py:31-52), or a call (_quantizer_impl.py:30-39), with its result; `none`: it raised. -/
def step (float : V → Option V) (impl comp : Nat → Args V → R) (s : St) : Op V → St × List (Option R)
  | .set b => ({ s with flag := b }, [])
  | .enter b => ({ s with flag := b, saved := s.flag :: s.saved }, [])
  | .exit => match s.saved with
    | [] => (s, [])
    | b :: l => ({ s with flag := b, saved := l }, [])
  | .call k a => match convert float a.kw with
    | none => (s, [none])
    | some kw =>
      if s.flag then ({ s with compiled := if k ∈ s.compiled then s.compiled else k :: s.compiled }, [some (comp k ⟨a.pos, kw⟩)])
      else (s, [some (impl k ⟨a.pos, kw⟩)])

/-- A history, with the results of all calls in order. -/
def run (float : V → Option V) (impl comp : Nat → Args V → R) (s : St) : List (Op V) → St × List (Option R)
  | [] => (s, [])
  | op :: ops => ((run float impl comp (step float impl comp s op).1 ops).1, (step float impl comp s op).2 ++ (run float impl comp (step float impl comp s op).1 ops).2)

/-! ## Specification -/

/-- The calls of a history. -/
def calls (ops : List (Op V)) : List (Nat × Args V) := ops.filterMap fun | .call k a => some (k, a) | _ => none

/-- The keyword arguments that a function gets: the number of bits as a float, all others as they are. -/
inductive Given (float : V → Option V) : List (String × V) → List (String × V) → Prop
  | nil : Given float [] []
  | bits (v v' : V) (l l' : List (String × V)) (h : float v = some v') (hl : Given float l l') : Given float (("num_bits", v) :: l) (("num_bits", v') :: l')
  | other (n : String) (v : V) (l l' : List (String × V)) (h : n ≠ "num_bits") (hl : Given float l l') : Given float ((n, v) :: l) ((n, v) :: l')

/-- What a call should give: the result of the function, or an error if the number of bits is no number. -/
def Answer (float : V → Option V) (impl : Nat → Args V → R) (c : Nat × Args V) (r : Option R) : Prop :=
  (∃ kw, Given float c.2.kw kw ∧ r = some (impl c.1 ⟨c.2.pos, kw⟩)) ∨ ((∀ kw, ¬ Given float c.2.kw kw) ∧ r = none)

/-- Pairwise. -/
inductive Each {A B : Type} (P : A → B → Prop) : List A → List B → Prop
  | nil : Each P [] []
  | cons (a : A) (b : B) (as : List A) (bs : List B) (h : P a b) (t : Each P as bs) : Each P (a :: as) (b :: bs)

/-! ## Lemmas -/

theorem convert_iff (float : V → Option V) : ∀ l l' : List (String × V), convert float l = some l' ↔ Given float l l'
  | [], l' => by
    refine ⟨fun h => ?_, fun h => ?_⟩
    · cases h; exact .nil
    · cases h; rfl
  | (n, v) :: l, l' => by
    refine ⟨fun h => ?_, fun h => ?_⟩
    · unfold convert at h
      split at h
      · rename_i v' k' hv hk
        cases h
        have ih := (convert_iff float l k').1 hk
        by_cases hn : n = "num_bits"
        · subst hn
          rw [if_pos rfl] at hv
          exact .bits v v' l k' hv ih
        · rw [if_neg hn] at hv
          cases hv
          exact .other n v l k' hn ih
      · cases h
    · cases h with
      | bits _ v' _ k' hv hl =>
        unfold convert
        rw [if_pos rfl, hv, (convert_iff float l k').2 hl]
      | other _ _ _ k' hn hl =>
        unfold convert
        rw [if_neg hn, (convert_iff float l k').2 hl]

theorem answer_step {float : V → Option V} {impl comp : Nat → Args V → R} (hc : ∀ k a, comp k a = impl k a) (s : St) (k : Nat) (a : Args V) :
    ∃ r, (step float impl comp s (.call k a)).2 = [r] ∧ Answer float impl (k, a) r := by
  unfold step
  dsimp only
  split
  · rename_i h
    refine ⟨none, rfl, .inr ⟨fun kw hk => ?_, rfl⟩⟩
    rw [← convert_iff, h] at hk
    cases hk
  · rename_i kw h
    split
    · exact ⟨_, rfl, .inl ⟨kw, (convert_iff _ _ _).1 h, by rw [hc]⟩⟩
    · exact ⟨_, rfl, .inl ⟨kw, (convert_iff _ _ _).1 h, rfl⟩⟩

/-- What is compiled after a step. -/
theorem step_compiled (float : V → Option V) (impl comp : Nat → Args V → R) (s : St) (op : Op V) (j : Nat) :
    j ∈ (step float impl comp s op).1.compiled ↔ j ∈ s.compiled ∨ (s.flag = true ∧ ∃ a kw, op = .call j a ∧ Given float a.kw kw) := by
  cases op with
  | set b => simp [step]
  | enter b => simp [step]
  | exit => unfold step; dsimp only; split <;> simp
  | call k a =>
    unfold step
    dsimp only
    split
    · rename_i h
      refine ⟨fun hj => .inl hj, fun hj => hj.elim id ?_⟩
      rintro ⟨-, a', kw, e, hk⟩
      cases e
      rw [← convert_iff, h] at hk
      cases hk
    · rename_i kw h
      have hg := (convert_iff _ _ _).1 h
      cases hf : s.flag with
      | false => simp
      | true =>
        simp only [if_true]
        refine ⟨fun hj => ?_, fun hj => ?_⟩
        · split at hj
          · exact .inl hj
          · rcases List.mem_cons.1 hj with rfl | hj
            · exact .inr ⟨trivial, a, kw, rfl, hg⟩
            · exact .inl hj
        · split
          · rename_i hk
            rcases hj with hj | ⟨-, a', kw', e, -⟩
            · exact hj
            · cases e; exact hk
          · rcases hj with hj | ⟨-, a', kw', e, -⟩
            · exact List.mem_cons_of_mem _ hj
            · cases e; exact List.mem_cons_self

theorem step_nodup (float : V → Option V) (impl comp : Nat → Args V → R) (s : St) (op : Op V) (h : s.compiled.Nodup) : (step float impl comp s op).1.compiled.Nodup := by
  cases op with
  | set b => exact h
  | enter b => exact h
  | exit => unfold step; dsimp only; split <;> exact h
  | call k a =>
    unfold step
    dsimp only
    split
    · exact h
    · split
      · dsimp only
        split
        · exact h
        · rename_i hk
          exact List.nodup_cons.2 ⟨hk, h⟩
      · exact h

/-! ## Properties -/

/-- **C149.** If compiled functions compute what the functions compute, every call gives the result of the function for its arguments, with the number of bits as a float, whatever was
called before and however the flag was switched. -/
theorem compilation_transparent (float : V → Option V) (impl comp : Nat → Args V → R) (hc : ∀ k a, comp k a = impl k a) (ops : List (Op V)) :
    ∀ s : St, Each (Answer float impl) (calls ops) (run float impl comp s ops).2 := by
  induction ops with
  | nil => exact fun _ => .nil
  | cons op ops ih =>
    intro s
    have ih' := ih (step float impl comp s op).1
    unfold run
    cases op with
    | set b => exact ih'
    | enter b => exact ih'
    | exit =>
      have : (step float impl comp s (.exit : Op V)).2 = [] := by unfold step; dsimp only; split <;> rfl
      rw [this]
      exact ih'
    | call k a =>
      obtain ⟨r, hr, ha⟩ := answer_step (float := float) hc s k a
      rw [hr]
      exact .cons (k, a) r _ _ ha ih'

/-- **C149.** A function is compiled at most once, and exactly if it is called, with a number of bits that is a number, while the flag is set. -/
theorem compiled_once (float : V → Option V) (impl comp : Nat → Args V → R) (ops : List (Op V)) (b : Bool) :
    (run float impl comp ⟨b, [], []⟩ ops).1.compiled.Nodup ∧
    ∀ j, j ∈ (run float impl comp ⟨b, [], []⟩ ops).1.compiled ↔
      ∃ pre a kw post, ops = pre ++ .call j a :: post ∧ Given float a.kw kw ∧ (run float impl comp ⟨b, [], []⟩ pre).1.flag = true := by
  have gen : ∀ (ops : List (Op V)) (s : St), s.compiled.Nodup → (run float impl comp s ops).1.compiled.Nodup ∧
      ∀ j, j ∈ (run float impl comp s ops).1.compiled ↔
        j ∈ s.compiled ∨ ∃ pre a kw post, ops = pre ++ .call j a :: post ∧ Given float a.kw kw ∧ (run float impl comp s pre).1.flag = true := by
    intro ops
    induction ops with
    | nil =>
      intro s hs
      refine ⟨hs, fun j => ⟨.inl, fun h => h.elim id ?_⟩⟩
      rintro ⟨pre, a, kw, post, e, -⟩
      cases pre <;> cases e
    | cons op ops ih =>
      intro s hs
      obtain ⟨h1, h2⟩ := ih (step float impl comp s op).1 (step_nodup float impl comp s op hs)
      refine ⟨h1, fun j => ?_⟩
      show j ∈ (run float impl comp (step float impl comp s op).1 ops).1.compiled ↔ _
      rw [h2, step_compiled]
      constructor
      · rintro ((h | ⟨hf, a, kw, rfl, hk⟩) | ⟨pre, a, kw, post, rfl, hk, hf⟩)
        · exact .inl h
        · exact .inr ⟨[], a, kw, ops, rfl, hk, hf⟩
        · exact .inr ⟨op :: pre, a, kw, post, rfl, hk, hf⟩
      · rintro (h | ⟨pre, a, kw, post, e, hk, hf⟩)
        · exact .inl (.inl h)
        · cases pre with
          | nil =>
            cases e
            exact .inl (.inr ⟨hf, a, kw, rfl, hk⟩)
          | cons o pre =>
            cases e
            exact .inr ⟨pre, a, kw, post, rfl, hk, hf⟩
  obtain ⟨h1, h2⟩ := gen ops ⟨b, [], []⟩ List.nodup_nil
  exact ⟨h1, fun j => by rw [h2]; simp⟩

/-- **C149.** After a `with` block, the flag is what it was before it, if blocks inside it are closed: whatever is called and set in it. -/
theorem flag_restored (float : V → Option V) (impl comp : Nat → Args V → R) (b : Bool) (ops : List (Op V)) (hops : ∀ op ∈ ops, (∃ c, op = .set c) ∨ ∃ k a, op = .call k a) (s : St) :
    (run float impl comp s (.enter b :: ops ++ [.exit])).1.flag = s.flag ∧ (run float impl comp s (.enter b :: ops ++ [.exit])).1.saved = s.saved := by
  have gen : ∀ (ops : List (Op V)) (t : St) (f : Bool) (l : List Bool), (∀ op ∈ ops, (∃ c, op = .set c) ∨ ∃ k a, op = .call k a) → t.saved = f :: l →
      (run float impl comp t (ops ++ [.exit])).1.flag = f ∧ (run float impl comp t (ops ++ [.exit])).1.saved = l := by
    intro ops
    induction ops with
    | nil => intro t f l _ h; simp [run, step, h]
    | cons op ops ih =>
      intro t f l ho h
      show (run float impl comp (step float impl comp t op).1 (ops ++ [.exit])).1.flag = f ∧ (run float impl comp (step float impl comp t op).1 (ops ++ [.exit])).1.saved = l
      refine ih _ f l (fun o hm => ho o (List.mem_cons_of_mem _ hm)) ?_
      rcases ho op List.mem_cons_self with ⟨c, rfl⟩ | ⟨k, a, rfl⟩
      · exact h
      · unfold step
        dsimp only
        split
        · exact h
        · split <;> exact h
  exact gen ops { s with flag := b, saved := s.flag :: s.saved } s.flag s.saved hops rfl

/-! ## Deviations -/

/-- **C149, deviation.** A number of bits given by position reaches the function as it is given, not as a float. -/
theorem position_not_converted (float : V → Option V) (impl comp : Nat → Args V → R) (s : St) (k : Nat) (pos : List V) (h : s.flag = false) :
    (step float impl comp s (.call k ⟨pos, []⟩)).2 = [some (impl k ⟨pos, []⟩)] := by
  simp [step, convert, h]

/-! ## Concrete cases -/

/-- Values are numbers; as floats they are larger by 100, and 7 is no number. -/
def exFloat (n : Nat) : Option Nat := if n = 7 then none else some (n + 100)

example : Given exFloat [("x", 1), ("num_bits", 4)] [("x", 1), ("num_bits", 104)] := .other _ _ _ _ (by decide) (.bits _ _ _ _ rfl .nil)
example : (run exFloat (fun k a => (k, a)) (fun k a => (k, a)) ⟨false, [], []⟩ [.call 0 ⟨[], [("num_bits", 4)]⟩, .enter true, .call 0 ⟨[], []⟩, .call 1 ⟨[], []⟩, .call 0 ⟨[], []⟩, .exit]).1.compiled = [1, 0] := by
  decide

end FF.Compile
