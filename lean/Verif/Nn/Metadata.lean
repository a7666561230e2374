import Verif.Util.Dict
import Mathlib.Data.List.Induction

/-! # Metadata of quantizers (C87)

Models `QuantizerMetadata.is_extension` (`nn/quantizer.py`) and `QuantizedModule.__setattr__`, `register_quantizer`, `__init_quantization__`
(`nn/quantized_module.py`). -/

namespace FF.Metadata

/-! ### Model -/

/-- `QuantizerMetadata` (`nn/quantizer.py` 137-182): the set `_tags` and the dict `_kwargs`, in which `shape` always has an entry. Tags are numbers (C39 is
about their hierarchy), as are the values of attributes; `none` is `None`. -/
structure Meta where
  tags : List ℕ
  attrs : List (String × Option ℕ)
  deriving DecidableEq

/-- The loop of `is_extension` (`nn/quantizer.py` 235-239); an error is the `KeyError` of `other._kwargs[key]`. -/
def compare (b : Meta) : List (String × Option ℕ) → Except String Bool
  | [] => .ok true
  | (k, v) :: l =>
    if k = "shape" ∧ v = none then compare b l
    else match Dict.get b.attrs k with
      | none => .error k
      | some v' => if v' ≠ v then .ok false else compare b l

/-- `a.is_extension(b)` (`nn/quantizer.py` 216-241). -/
def isExtension (a b : Meta) : Except String Bool :=
  if a.tags.all (b.tags.contains ·) then compare b a.attrs else .ok false

/-- Metadata are objects: quantizers and modules refer to them. Modules, quantizers and metadata are numbered. -/
structure State where
  /-- The metadata objects. -/
  info : ℕ → Meta
  next : ℕ
  /-- `quantizer.quant_metadata`. -/
  own : ℕ → Option ℕ
  /-- `module._quantizer_metadata`; `none` before `__init_quantization__`. -/
  stored : ℕ → Option (String → Option ℕ)
  /-- The quantizer in a module under a name. -/
  attr : ℕ → String → Option ℕ
  /-- The warnings about metadata so far. -/
  warned : List (ℕ × String)

inductive Out
  | done
  | attributeError
  | keyError (k : String)
  deriving DecidableEq

/-- `QuantizerMetadata()`. -/
def blank : Meta := ⟨[], [("shape", none)]⟩

def put {α β : Type} [DecidableEq α] (f : α → β) (a : α) (b : β) : α → β := fun x => if x = a then b else f x

/-- `__init_quantization__` of a module (`nn/quantized_module.py` 168-174). -/
def start (m : ℕ) (s : State) : State := { s with stored := put s.stored m (some fun _ => none) }

/-- `QuantizerStub(...)` or another quantizer with metadata of its own (`nn/quantizer.py` 484-512). -/
def stub (q : ℕ) (d : Meta) (s : State) : State := { s with info := put s.info s.next d, next := s.next + 1, own := put s.own q (some s.next) }

/-- `quantizer.quant_metadata.add_tag(tag)` (`nn/quantizer.py` 190-197), for a quantizer with metadata. -/
def addTag (q t : ℕ) (s : State) : State :=
  match s.own q with
  | none => s
  | some r => { s with info := put s.info r { s.info r with tags := t :: (s.info r).tags } }

/-- The part of `register_quantizer` after the module is registered (`nn/quantized_module.py` 250-288), with `d` the dict `_quantizer_metadata`. -/
def reconcile (m : ℕ) (name : String) (q : ℕ) (d : String → Option ℕ) (s : State) : Out × State :=
  match s.own q, d name with
  | some r, none => (.done, { s with stored := put s.stored m (some (put d name (some r))) })
  | none, none => (.done, { s with info := put s.info s.next blank, next := s.next + 1, own := put s.own q (some s.next),
                                   stored := put s.stored m (some (put d name (some s.next))) })
  | none, some r => (.done, { s with own := put s.own q (some r) })
  | some r', some r =>
    match isExtension (s.info r) (s.info r') with
    | .error k => (.keyError k, s)
    | .ok true => (.done, { s with own := put s.own q (some r) })
    | .ok false => (.done, { s with own := put s.own q (some r), warned := s.warned ++ [(m, name)] })

/-- `setattr(module, name, quantizer)` (`nn/quantized_module.py` 290-295): the attribute is set first. -/
def assign (m : ℕ) (name : String) (q : ℕ) (s : State) : Out × State :=
  let s := { s with attr := put s.attr m (put (s.attr m) name (some q)) }
  match s.stored m with
  | none => (.attributeError, s)
  | some d => reconcile m name q d s

/-- What a program does. -/
inductive Op
  | start (m : ℕ)
  | stub (q : ℕ) (d : Meta)
  | addTag (q t : ℕ)
  | assign (m : ℕ) (name : String) (q : ℕ)

def exec : Op → State → Out × State
  | .start m, s => (.done, start m s)
  | .stub q d, s => (.done, stub q d s)
  | .addTag q t, s => (.done, addTag q t s)
  | .assign m name q, s => assign m name q s

/-- A program, which goes on after exceptions; with the outcomes. -/
def run : List Op → State → List Out × State
  | [], s => ([], s)
  | o :: l, s => ((exec o s).1 :: (run l (exec o s).2).1, (run l (exec o s).2).2)

/-- Before anything was done. -/
def init : State := ⟨fun _ => blank, 0, fun _ => none, fun _ => none, fun _ _ => none, []⟩

/-! ### Specification -/

/-- `b` extends `a`: it has all tags of `a`, and the attributes of `a` with the same values; an unset shape counts as none. -/
def Extends (a b : Meta) : Prop :=
  (∀ t, t ∈ a.tags → t ∈ b.tags) ∧ ∀ k v, (k, v) ∈ a.attrs → ¬ (k = "shape" ∧ v = none) → Dict.get b.attrs k = some v

/-- The metadata that a module holds for a name. -/
def held (s : State) (m : ℕ) (name : String) : Option ℕ :=
  match s.stored m with
  | none => none
  | some d => d name

/-- Every quantizer is put in one place, is a quantizer of its own before, and modules are initialized before. -/
def Unshared (l : List Op) : Prop :=
  (∀ m n q m' n', .assign m n q ∈ l → .assign m' n' q ∈ l → m' = m ∧ n' = n) ∧
  (∀ l₁ l₂ m n q, l = l₁ ++ .assign m n q :: l₂ → ∀ d, .stub q d ∉ l₂) ∧
  (∀ l₁ l₂ m n q, l = l₁ ++ .assign m n q :: l₂ → .start m ∉ l₂)

/-! ### Lemmas -/

@[simp] theorem put_self {α β : Type} [DecidableEq α] (f : α → β) (a : α) (b : β) : put f a b a = b := by simp [put]

theorem put_ne {α β : Type} [DecidableEq α] (f : α → β) {a x : α} (b : β) (h : x ≠ a) : put f a b x = f x := by simp [put, h]

theorem compare_true {b : Meta} {l : List (String × Option ℕ)} :
    compare b l = .ok true ↔ ∀ k v, (k, v) ∈ l → ¬ (k = "shape" ∧ v = none) → Dict.get b.attrs k = some v := by
  induction l with
  | nil => simp [compare]
  | cons e l ih =>
    obtain ⟨k, v⟩ := e
    simp only [compare]
    by_cases h : k = "shape" ∧ v = none
    · rw [if_pos h, ih]
      constructor
      · intro h1 k' v' hm hn
        rcases List.mem_cons.1 hm with he | hm
        · obtain ⟨rfl, rfl⟩ := Prod.mk.injEq .. ▸ he
          exact absurd h hn
        · exact h1 k' v' hm hn
      · exact fun h1 k' v' hm hn => h1 k' v' (List.mem_cons_of_mem _ hm) hn
    · rw [if_neg h]
      cases hg : Dict.get b.attrs k with
      | none =>
        simp only [reduceCtorEq, false_iff]
        intro h1
        have := h1 k v List.mem_cons_self h
        rw [hg] at this
        simp at this
      | some v' =>
        simp only
        by_cases hv : v' = v
        · subst hv
          rw [if_neg (by simp), ih]
          constructor
          · intro h1 k2 v2 hm hn
            rcases List.mem_cons.1 hm with he | hm
            · obtain ⟨rfl, rfl⟩ := Prod.mk.injEq .. ▸ he
              exact hg
            · exact h1 k2 v2 hm hn
          · exact fun h1 k2 v2 hm hn => h1 k2 v2 (List.mem_cons_of_mem _ hm) hn
        · rw [if_pos hv]
          simp only [Except.ok.injEq, Bool.false_eq_true, false_iff]
          intro h1
          have := h1 k v List.mem_cons_self h
          rw [hg] at this
          exact hv (Option.some.inj this)

theorem compare_ok {b : Meta} {l : List (String × Option ℕ)} (h : ∀ k v, (k, v) ∈ l → ¬ (k = "shape" ∧ v = none) → Dict.get b.attrs k ≠ none) :
    ∃ r, compare b l = .ok r := by
  induction l with
  | nil => exact ⟨true, rfl⟩
  | cons e l ih =>
    obtain ⟨k, v⟩ := e
    have ih := ih fun k v hm => h k v (List.mem_cons_of_mem _ hm)
    simp only [compare]
    split
    · exact ih
    · rename_i hs
      cases hg : Dict.get b.attrs k with
      | none => exact absurd hg (h k v List.mem_cons_self hs)
      | some v' =>
        simp only
        split
        · exact ⟨false, rfl⟩
        · exact ih

theorem isExtension_true {a b : Meta} : isExtension a b = .ok true ↔ Extends a b := by
  unfold isExtension Extends
  by_cases h : a.tags.all (b.tags.contains ·) = true
  · rw [if_pos h, compare_true]
    simp only [List.all_eq_true, List.contains_iff_mem] at h
    exact ⟨fun h1 => ⟨h, h1⟩, fun h1 => h1.2⟩
  · rw [if_neg h]
    simp only [Except.ok.injEq, Bool.false_eq_true, false_iff]
    intro h1
    exact h (by simpa [List.all_eq_true] using h1.1)

/-- What putting a quantizer under a name does to the dict of the module. -/
theorem assign_held {m : ℕ} {name : String} {q : ℕ} {s : State} {m' : ℕ} {n' : String} (h : held s m' n' ≠ none) : held (assign m name q s).2 m' n' = held s m' n' := by
  unfold assign
  simp only
  split
  · rfl
  · rename_i d hd
    have key : ∀ r, d name = none → held { s with stored := put s.stored m (some (put d name (some r))) } m' n' = held s m' n' := by
      intro r hn
      simp only [held]
      by_cases hm : m' = m
      · subst hm
        rw [put_self]
        simp only [held, hd] at h ⊢
        rw [put_ne]
        rintro rfl
        exact h hn
      · rw [put_ne _ _ hm]
    unfold reconcile
    split
    · rename_i hn
      exact key _ hn
    · rename_i hn
      exact key _ hn
    · rfl
    · split <;> rfl

/-- After success the quantizer has the metadata of the module. -/
theorem assign_done {m : ℕ} {name : String} {q : ℕ} {s : State} (h : (assign m name q s).1 = .done) :
    ∃ r, held (assign m name q s).2 m name = some r ∧ (assign m name q s).2.own q = some r ∧ (∀ r', held s m name = some r' → r = r') ∧
      (held s m name = none → ∀ r', s.own q = some r' → r = r') ∧ (held s m name = none → s.own q = none → r = s.next ∧ (assign m name q s).2.info r = blank) := by
  unfold assign at h ⊢
  simp only at h ⊢
  split at h
  · simp at h
  · rename_i d hd
    have hh : held s m name = d name := by simp only [held, hd]
    rw [hh]
    unfold reconcile at h ⊢
    cases ho : s.own q with
    | some r' =>
      cases hn : d name with
      | none =>
        exact ⟨r', by simp [held], ho, by simp, by simp, by simp⟩
      | some r =>
        simp only [ho, hn] at h ⊢
        have hs : held s m name = some r := by rw [hh, hn]
        cases he : isExtension (s.info r) (s.info r') with
        | error k =>
          rw [he] at h
          simp at h
        | ok b =>
          cases b
          · exact ⟨r, hs, by simp, by simp, by simp, by simp⟩
          · exact ⟨r, hs, by simp, by simp, by simp, by simp⟩
    | none =>
      cases hn : d name with
      | none =>
        exact ⟨s.next, by simp [held], by simp, by simp, by simp, by simp⟩
      | some r =>
        have hs : held s m name = some r := by rw [hh, hn]
        exact ⟨r, hs, by simp, by simp, by simp, by simp⟩

theorem assign_attr {m : ℕ} {name : String} {q : ℕ} {s : State} : (assign m name q s).2.attr = put s.attr m (put (s.attr m) name (some q)) := by
  unfold assign
  simp only
  split
  · rfl
  · unfold reconcile
    split
    · rfl
    · rfl
    · rfl
    · split <;> rfl

theorem assign_own {m : ℕ} {name : String} {q q' : ℕ} {s : State} (h : q' ≠ q) : (assign m name q s).2.own q' = s.own q' := by
  unfold assign
  simp only
  split
  · rfl
  · unfold reconcile
    split
    · rfl
    · exact put_ne _ _ h
    · exact put_ne _ _ h
    · split
      · rfl
      · exact put_ne _ _ h
      · exact put_ne _ _ h

theorem run_append (l₁ l₂ : List Op) (s : State) : (run (l₁ ++ l₂) s).2 = (run l₂ (run l₁ s).2).2 := by
  induction l₁ generalizing s with
  | nil => rfl
  | cons o l ih => simp only [List.cons_append, run]; exact ih _

theorem run_append_out (l₁ l₂ : List Op) (s : State) : (run (l₁ ++ l₂) s).1 = (run l₁ s).1 ++ (run l₂ (run l₁ s).2).1 := by
  induction l₁ generalizing s with
  | nil => rfl
  | cons o l ih => simp only [List.cons_append, run, ih]

/-! ### Properties -/

/-- **C87.** The check of metadata against metadata says yes exactly if the second extends the first. -/
theorem extension_recognized (a b : Meta) : isExtension a b = .ok true ↔ Extends a b := isExtension_true

/-- **C87 (partial).** It says no if not.

Missing: attributes that the second lacks, see `missing_attribute_raises`. -/
theorem extension_denied_partial (a b : Meta) (hk : ∀ k v, (k, v) ∈ a.attrs → ¬ (k = "shape" ∧ v = none) → Dict.get b.attrs k ≠ none) (h : ¬ Extends a b) :
    isExtension a b = .ok false := by
  have : ∃ r, isExtension a b = .ok r := by
    unfold isExtension
    split
    · exact compare_ok hk
    · exact ⟨false, rfl⟩
  obtain ⟨r, hr⟩ := this
  cases r with
  | false => exact hr
  | true => exact absurd (isExtension_true.1 hr) h

/-- **C87.** A quantizer that is put in a module has the metadata that the module holds for the name afterwards: what the module held before; if nothing, what
the quantizer brought; if nothing either, blank metadata of its own. -/
theorem assigned_quantizer (m : ℕ) (name : String) (q : ℕ) (s : State) (h : (assign m name q s).1 = .done) :
    (assign m name q s).2.attr m name = some q ∧ ∃ r, held (assign m name q s).2 m name = some r ∧ (assign m name q s).2.own q = some r ∧
      (∀ r', held s m name = some r' → r = r') ∧ (held s m name = none → ∀ r', s.own q = some r' → r = r') ∧
      (held s m name = none → s.own q = none → r = s.next ∧ (assign m name q s).2.info r = blank) := by
  refine ⟨?_, assign_done h⟩
  rw [assign_attr]
  simp

/-- **C87.** A warning is given exactly if the module holds metadata for the name that those of the quantizer do not extend, and no other quantizer, name or
module is affected. -/
theorem warned_iff (m : ℕ) (name : String) (q : ℕ) (s : State) (h : (assign m name q s).1 = .done) :
    ((assign m name q s).2.warned ≠ s.warned ↔ ∃ r r', held s m name = some r ∧ s.own q = some r' ∧ ¬ Extends (s.info r) (s.info r')) ∧
      (∀ q', q' ≠ q → (assign m name q s).2.own q' = s.own q') ∧ (∀ m' n', (m', n') ≠ (m, name) → held (assign m name q s).2 m' n' = held s m' n') ∧
      ∀ m' n', (m', n') ≠ (m, name) → (assign m name q s).2.attr m' n' = s.attr m' n' := by
  refine ⟨?_, fun q' hq => assign_own hq, ?_, ?_⟩
  · unfold assign at h ⊢
    simp only at h ⊢
    split at h
    · simp at h
    · rename_i d hd
      have hh : held s m name = d name := by simp only [held, hd]
      simp only [hh]
      unfold reconcile at h ⊢
      cases ho : s.own q with
      | none => cases d name <;> simp
      | some r' =>
        cases hn : d name with
        | none => simp
        | some r =>
          simp only [ho, hn] at h ⊢
          have ht := @isExtension_true (s.info r) (s.info r')
          cases he : isExtension (s.info r) (s.info r') with
          | error k =>
            rw [he] at h
            simp at h
          | ok b =>
            rw [he] at ht
            cases b
            · simp only [Except.ok.injEq, Bool.false_eq_true, false_iff] at ht
              simp [ht]
            · simp only [true_iff] at ht
              simp [ht]
  · intro m' n' hne
    unfold assign
    simp only
    split
    · rfl
    · rename_i d hd
      have key : ∀ r, held { s with stored := put s.stored m (some (put d name (some r))) } m' n' = held s m' n' := by
        intro r
        simp only [held]
        by_cases hm : m' = m
        · subst hm
          have : n' ≠ name := by
            rintro rfl
            exact hne rfl
          rw [put_self, hd]
          exact put_ne _ _ this
        · rw [put_ne _ _ hm]
      unfold reconcile
      split
      · exact key _
      · exact key _
      · rfl
      · split <;> rfl
  · intro m' n' hne
    rw [assign_attr]
    by_cases hm : m' = m
    · subst hm
      have : n' ≠ name := by
        rintro rfl
        exact hne rfl
      rw [put_self, put_ne _ _ this]
    · rw [put_ne _ _ hm]

/-- **C87.** The metadata that a module holds for a name stay, whatever is assigned later, until the module is initialized for quantization again. -/
theorem held_for_good (l : List Op) (s : State) (m : ℕ) (name : String) (r : ℕ) (hl : .start m ∉ l) (h : held s m name = some r) :
    held (run l s).2 m name = some r := by
  induction l generalizing s with
  | nil => exact h
  | cons o l ih =>
    simp only [List.mem_cons, not_or] at hl
    refine ih _ hl.2 ?_
    cases o with
    | start m' =>
      have : m ≠ m' := fun e => hl.1 (by rw [e])
      simpa [exec, start, held, put_ne _ _ this] using h
    | stub q d => exact h
    | addTag q t =>
      simp only [exec, addTag]
      split <;> exact h
    | assign m' n' q =>
      simp only [exec]
      rw [assign_held (by simp [h]), h]

/-- **C87 (partial).** After any program, the quantizer under a name has the metadata that the module holds for the name.

Missing: quantizers in two places, see `shared_quantizer`, and programs that go on after an assignment that raised. -/
theorem consistent_partial (l : List Op) (hu : Unshared l) (hok : ∀ o ∈ (run l init).1, o = .done) (m : ℕ) (name : String) (q : ℕ)
    (h : (run l init).2.attr m name = some q) : ∃ r, held (run l init).2 m name = some r ∧ (run l init).2.own q = some r := by
  -- by induction from the end: what was assigned is in the program
  have key : ∀ (l₁ l₂ : List Op), l = l₁ ++ l₂ → ∀ m n q, (run l₁ init).2.attr m n = some q →
      .assign m n q ∈ l₁ ∧ ∃ r, held (run l₁ init).2 m n = some r ∧ (run l₁ init).2.own q = some r := by
    intro l₁
    induction l₁ using List.reverseRecOn with
    | nil => intro l₂ _ m n q h; simp [run, init] at h
    | append_singleton l₁ o ih =>
      intro l₂ he m n q h
      have he' : l = l₁ ++ o :: l₂ := by rw [he, List.append_assoc]; rfl
      have hrun : (run (l₁ ++ [o]) init).2 = (exec o (run l₁ init).2).2 := by
        rw [run_append]
        rfl
      rw [hrun] at h ⊢
      have hout : (exec o (run l₁ init).2).1 = .done := by
        refine hok _ ?_
        rw [he', run_append_out]
        simp [run]
      generalize hs : (run l₁ init).2 = s at *
      cases o with
      | start m' =>
        obtain ⟨h1, r, h2, h3⟩ := ih _ he' m n q h
        refine ⟨List.mem_append_left _ h1, r, ?_, h3⟩
        have : m ≠ m' := by
          rintro rfl
          obtain ⟨a, b, hab⟩ := List.append_of_mem h1
          exact hu.2.2 a (b ++ .start m :: l₂) m n q (by rw [he', hab]; simp) (by simp)
        simpa [exec, start, held, put_ne _ _ this] using h2
      | stub q' d =>
        obtain ⟨h1, r, h2, h3⟩ := ih _ he' m n q h
        refine ⟨List.mem_append_left _ h1, r, h2, ?_⟩
        have : q ≠ q' := by
          rintro rfl
          obtain ⟨a, b, hab⟩ := List.append_of_mem h1
          exact hu.2.1 a (b ++ .stub q d :: l₂) m n q (by rw [he', hab]; simp) d (by simp)
        simpa [exec, stub, put_ne _ _ this] using h3
      | addTag q' t =>
        have ha : (exec (.addTag q' t) s).2.attr = s.attr ∧ (exec (.addTag q' t) s).2.own = s.own ∧ (exec (.addTag q' t) s).2.stored = s.stored := by
          simp only [exec, addTag]
          split <;> exact ⟨rfl, rfl, rfl⟩
        rw [ha.1] at h
        obtain ⟨h1, r, h2, h3⟩ := ih _ he' m n q h
        refine ⟨List.mem_append_left _ h1, r, ?_, ?_⟩
        · unfold held at h2 ⊢
          rw [ha.2.2]
          exact h2
        · rw [ha.2.1]
          exact h3
      | assign m' n' q' =>
        simp only [exec] at h hout ⊢
        by_cases hmn : (m, n) = (m', n')
        · obtain ⟨rfl, rfl⟩ := Prod.mk.injEq .. ▸ hmn
          rw [assign_attr] at h
          simp only [put_self, Option.some.injEq] at h
          subst h
          obtain ⟨r, h1, h2, _⟩ := assign_done hout
          exact ⟨by simp, r, h1, h2⟩
        · have w := warned_iff m' n' q' s hout
          rw [w.2.2.2 m n hmn] at h
          obtain ⟨h1, r, h2, h3⟩ := ih _ he' m n q h
          refine ⟨List.mem_append_left _ h1, r, by rw [w.2.2.1 m n hmn]; exact h2, ?_⟩
          rw [assign_own]
          · exact h3
          · rintro rfl
            have := hu.1 m n q m' n' (by rw [he']; exact List.mem_append_left _ h1) (by rw [he']; simp)
            exact hmn (by rw [this.1, this.2])
  exact (key l [] (by simp) m name q h).2

/-! ### Deviations -/

/-- **C87, deviation.** Metadata that lack an attribute are no extension, but the check raises instead of saying so. -/
theorem missing_attribute_raises :
    ¬ Extends ⟨[], [("channel", some 1), ("shape", none)]⟩ blank ∧ isExtension ⟨[], [("channel", some 1), ("shape", none)]⟩ blank = .error "channel" := by
  refine ⟨fun h => ?_, by decide +kernel⟩
  have := h.2 "channel" (some 1) (by simp) (by simp)
  simp [blank, Dict.get] at this

/-- **C87, deviation.** So an assignment to a name whose metadata have such an attribute raises when the new quantizer is already in place: it is used from
then on, with metadata that are not those of the module. -/
theorem raises_after_assignment :
    (run [.start 0, .stub 1 ⟨[], [("channel", some 1), ("shape", none)]⟩, .assign 0 "w" 1, .stub 2 blank, .assign 0 "w" 2] init).1.getLast? = some (.keyError "channel") ∧
    (run [.start 0, .stub 1 ⟨[], [("channel", some 1), ("shape", none)]⟩, .assign 0 "w" 1, .stub 2 blank, .assign 0 "w" 2] init).2.attr 0 "w" = some 2 ∧
    held (run [.start 0, .stub 1 ⟨[], [("channel", some 1), ("shape", none)]⟩, .assign 0 "w" 1, .stub 2 blank, .assign 0 "w" 2] init).2 0 "w" = some 0 ∧
    (run [.start 0, .stub 1 ⟨[], [("channel", some 1), ("shape", none)]⟩, .assign 0 "w" 1, .stub 2 blank, .assign 0 "w" 2] init).2.own 2 = some 1 := by
  decide +kernel

/-- **C87, deviation.** A quantizer that is put in a second place takes the metadata of that place, so that the first module holds other metadata than its
quantizer has. The code warns of this if the metadata differ. -/
theorem shared_quantizer :
    held (run [.start 0, .stub 1 ⟨[7], [("shape", none)]⟩, .assign 0 "w" 1, .stub 2 ⟨[8], [("shape", none)]⟩, .assign 0 "b" 2, .assign 0 "b" 1] init).2 0 "w" = some 0 ∧
    (run [.start 0, .stub 1 ⟨[7], [("shape", none)]⟩, .assign 0 "w" 1, .stub 2 ⟨[8], [("shape", none)]⟩, .assign 0 "b" 2, .assign 0 "b" 1] init).2.own 1 = some 1 ∧
    (run [.start 0, .stub 1 ⟨[7], [("shape", none)]⟩, .assign 0 "w" 1, .stub 2 ⟨[8], [("shape", none)]⟩, .assign 0 "b" 2, .assign 0 "b" 1] init).2.warned = [(0, "b")] := by
  decide +kernel

/-- **C87, deviation.** An assignment before the module is initialized for quantization raises, but the attribute is set. -/
theorem assigned_too_early :
    (run [.stub 1 blank, .assign 0 "w" 1] init).1 = [.done, .attributeError] ∧ (run [.stub 1 blank, .assign 0 "w" 1] init).2.attr 0 "w" = some 1 := by
  decide +kernel

/-! ### Concrete cases -/

/-- A stub for a weight, replaced by a quantizer without metadata; a stub for an input. -/
def toyProgram : List Op := [.start 0, .stub 1 ⟨[7], [("shape", some 3)]⟩, .assign 0 "w" 1, .assign 0 "w" 2, .stub 3 ⟨[8], [("shape", none)]⟩, .assign 0 "i" 3, .addTag 2 9]

example : (run toyProgram init).1 = [.done, .done, .done, .done, .done, .done, .done] ∧ (run toyProgram init).2.own 2 = some 0 ∧
    (run toyProgram init).2.info 0 = ⟨[9, 7], [("shape", some 3)]⟩ ∧ held (run toyProgram init).2 0 "i" = some 1 ∧ (run toyProgram init).2.warned = [] := by decide +kernel

example : Unshared [.start 0, .stub 1 blank, .assign 0 "w" 1, .assign 0 "w" 2] := by
  refine ⟨?_, ?_, ?_⟩
  · intro m n q m' n' h h'
    simp at h h'
    rcases h with ⟨rfl, rfl, rfl⟩ | ⟨rfl, rfl, rfl⟩ <;> rcases h' with ⟨rfl, rfl, h⟩ | ⟨rfl, rfl, h⟩ <;> simp
  · intro l₁ l₂ m n q h d
    rcases l₁ with _ | ⟨a, _ | ⟨b, _ | ⟨c, _ | ⟨e, l₁⟩⟩⟩⟩ <;> simp at h
    · obtain ⟨-, -, -, rfl⟩ := h; simp
    · obtain ⟨-, -, -, -, rfl⟩ := h; simp
  · intro l₁ l₂ m n q h
    rcases l₁ with _ | ⟨a, _ | ⟨b, _ | ⟨c, _ | ⟨e, l₁⟩⟩⟩⟩ <;> simp at h
    · obtain ⟨-, -, -, rfl⟩ := h; simp
    · obtain ⟨-, -, -, -, rfl⟩ := h; simp

example : Extends ⟨[1], [("shape", none), ("a", some 2)]⟩ ⟨[2, 1], [("b", none), ("a", some 2), ("shape", some 4)]⟩ :=
  isExtension_true.1 (by decide +kernel)

example : isExtension ⟨[1], [("shape", some 3)]⟩ ⟨[1], [("shape", some 4)]⟩ = .ok false := by decide +kernel

end FF.Metadata
