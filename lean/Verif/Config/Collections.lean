/-!
# Collections of quantizers

Models `QuantizerCollection` (`src/fastforward/quantization/quant_init.py:118-167`) with what it inherits from `MPathCollection`
(`src/fastforward/mpath/_search.py:45-205`): creation, slices, `append`, set operations, `apply` and `modules`.

Simplifications: a result is its module, with name and place left out; sets have some order without duplicates; what `apply` does to the model is left out.
-/

namespace FF.Collections

/-! ## Model -/

/-- What `append` may be given: a search result, or a module itself. -/
inductive Elem (M : Type) where
  | result (m : M)
  | bare (m : M)
  deriving DecidableEq, Repr

inductive Err where
  | valueError
  | attributeError
  deriving DecidableEq, Repr

variable {M : Type} [DecidableEq M]

/-- `__init__` (quant_init.py:130-135): `r.module` fails for what is not a result. -/
def create (isQ : M → Bool) : List (Elem M) → Except Err (List (Elem M))
  | [] => .ok []
  | .bare _ :: _ => .error .attributeError
  | .result m :: l => match create isQ l with
    | .ok r => .ok (if isQ m then .result m :: r else r)
    | .error e => .error e

/-- `append` (quant_init.py:137-149, _search.py:75-81): the test is made on the item. -/
def append (isQ : M → Bool) (l : List (Elem M)) : Elem M → Except Err (List (Elem M))
  | .result _ => .error .valueError
  | .bare m => if isQ m then .ok (l ++ [.bare m]) else .error .valueError

/-- `apply` (_search.py:92-117), with what the function returns for each module. -/
def apply (f : M → Option M) : List (Elem M) → Except Err (List (Elem M))
  | [] => .ok []
  | .bare _ :: _ => .error .attributeError
  | .result m :: l => match apply f l with
    | .ok r => .ok (.result ((f m).getD m) :: r)
    | .error e => .error e

/-- `modules` (_search.py:132-143). -/
def modules : List (Elem M) → Except Err (List M)
  | [] => .ok []
  | .bare _ :: _ => .error .attributeError
  | .result m :: l => match modules l with
    | .ok r => .ok (m :: r)
    | .error e => .error e

/-- What users do with a collection; `other` are the results of another collection. -/
inductive Op (M : Type) where
  | slice (start len : Nat)
  | append (e : Elem M)
  | union (other : List (Elem M))
  | inter (other : List (Elem M))
  | diff (other : List (Elem M))
  | apply (f : M → Option M)

/-- One operation (_search.py:65-70, 165-200). -/
def step (isQ : M → Bool) (l : List (Elem M)) : Op M → Except Err (List (Elem M))
  | .slice s n => create isQ ((l.drop s).take n)
  | .append e => append isQ l e
  | .union o => create isQ (l ++ o.filter fun x => !l.contains x)
  | .inter o => create isQ (l.filter o.contains)
  | .diff o => create isQ (l.filter fun x => !o.contains x)
  | .apply f => apply f l

/-- A history, from search results. -/
def run (isQ : M → Bool) (found : List M) : List (Op M) → Except Err (List (Elem M))
  | [] => create isQ (found.map .result)
  | op :: ops => match run isQ found ops with
    | .ok l => step isQ l op
    | .error e => .error e

/-! ## Specification -/

/-- Only results, and only of quantizers. -/
def OnlyQuantizers (isQ : M → Bool) (l : List (Elem M)) : Prop := ∀ e ∈ l, ∃ m, e = .result m ∧ isQ m = true

/-- The operation adds no bare modules, and functions return quantizers. -/
def Proper (isQ : M → Bool) : Op M → Prop
  | .append e => ∃ m, e = .result m
  | .apply f => ∀ m n, f m = some n → isQ n = true
  | _ => True

/-! ## Lemmas -/

omit [DecidableEq M] in
theorem create_only {isQ : M → Bool} : ∀ {l r : List (Elem M)}, create isQ l = .ok r → OnlyQuantizers isQ r
  | [], r, h => by
    injection h with h
    subst h
    intro e he
    cases he
  | .bare _ :: _, r, h => by cases h
  | .result m :: l, r, h => by
    unfold create at h
    split at h
    · rename_i r' hr'
      injection h with h
      subst h
      intro e he
      split at he
      · rename_i hm
        rcases List.mem_cons.1 he with rfl | he
        · exact ⟨m, rfl, hm⟩
        · exact create_only hr' e he
      · exact create_only hr' e he
    · cases h

omit [DecidableEq M] in
theorem create_id {isQ : M → Bool} : ∀ {l : List (Elem M)}, OnlyQuantizers isQ l → create isQ l = .ok l
  | [], _ => rfl
  | .bare _ :: _, h => by
    obtain ⟨m, e, -⟩ := h _ List.mem_cons_self
    cases e
  | .result m :: l, h => by
    obtain ⟨n, e, hq⟩ := h _ List.mem_cons_self
    cases e
    simp [create, create_id fun x hx => h x (List.mem_cons_of_mem _ hx), hq]

omit [DecidableEq M] in
theorem create_results (isQ : M → Bool) : ∀ found : List M, create isQ (found.map .result) = .ok ((found.filter isQ).map .result)
  | [] => rfl
  | m :: l => by
    rw [List.map_cons, create, create_results isQ l]
    cases h : isQ m <;> simp [h]

omit [DecidableEq M] in
theorem apply_only {isQ : M → Bool} {f : M → Option M} (hf : ∀ m n, f m = some n → isQ n = true) : ∀ {l r : List (Elem M)}, OnlyQuantizers isQ l → apply f l = .ok r →
    OnlyQuantizers isQ r
  | [], r, _, h => by
    injection h with h
    subst h
    intro e he
    cases he
  | .bare _ :: _, r, _, h => by cases h
  | .result m :: l, r, hl, h => by
    unfold apply at h
    split at h
    · rename_i r' hr'
      injection h with h
      subst h
      intro e he
      rcases List.mem_cons.1 he with rfl | he
      · refine ⟨_, rfl, ?_⟩
        cases hm : f m with
        | none =>
          obtain ⟨n, e, hq⟩ := hl _ List.mem_cons_self
          cases e
          exact hq
        | some n => exact hf m n hm
      · exact apply_only hf (fun x hx => hl x (List.mem_cons_of_mem _ hx)) hr' e he
    · cases h

omit [DecidableEq M] in
theorem modules_only {isQ : M → Bool} : ∀ {l : List (Elem M)}, OnlyQuantizers isQ l → ∃ ms, modules l = .ok ms ∧ l = ms.map .result ∧ ∀ m ∈ ms, isQ m = true
  | [], _ => ⟨[], rfl, rfl, by simp⟩
  | .bare _ :: _, h => by
    obtain ⟨m, e, -⟩ := h _ List.mem_cons_self
    cases e
  | .result m :: l, h => by
    obtain ⟨ms, e, hl, hq⟩ := modules_only fun x hx => h x (List.mem_cons_of_mem _ hx)
    obtain ⟨n, e', hn⟩ := h _ List.mem_cons_self
    cases e'
    refine ⟨m :: ms, by simp [modules, e], by rw [hl]; rfl, fun x hx => ?_⟩
    rcases List.mem_cons.1 hx with rfl | hx
    · exact hn
    · exact hq x hx

theorem run_only {isQ : M → Bool} {found : List M} : ∀ {ops : List (Op M)} {l : List (Elem M)}, (∀ op ∈ ops, Proper isQ op) → run isQ found ops = .ok l → OnlyQuantizers isQ l
  | [], l, _, h => create_only h
  | op :: ops, l, hp, h => by
    unfold run at h
    split at h
    · rename_i l' hl'
      have ih := run_only (fun o ho => hp o (List.mem_cons_of_mem _ ho)) hl'
      have hop := hp op List.mem_cons_self
      cases op with
      | slice s n => exact create_only h
      | append e =>
        obtain ⟨m, rfl⟩ := hop
        cases h
      | union o => exact create_only h
      | inter o => exact create_only h
      | diff o => exact create_only h
      | apply f => exact apply_only hop ih h
    · cases h

/-! ## Properties -/

/-- **C146.** A new collection has exactly the quantizers among the search results, in order. -/
theorem created (isQ : M → Bool) (found : List M) : run isQ found [] = .ok ((found.filter isQ).map .result) := create_results isQ found

/-- **C146 (partial).** After any history that does not fail, the modules of a collection are all quantizers.

Missing: bare modules given to `append` (`append_bare`), and functions that return other modules (`apply_other`). -/
theorem only_quantizers_partial (isQ : M → Bool) (found : List M) (ops : List (Op M)) (l : List (Elem M)) (hp : ∀ op ∈ ops, Proper isQ op) (h : run isQ found ops = .ok l) :
    ∃ ms, modules l = .ok ms ∧ ∀ m ∈ ms, isQ m = true := by
  obtain ⟨ms, h1, -, h2⟩ := modules_only (run_only hp h)
  exact ⟨ms, h1, h2⟩

/-- **C146 (partial).** A slice has exactly the elements at its places, and union, intersection and difference have exactly the elements that are in one or the other, in
both, and in the first only.

Missing: as above. -/
theorem selected_partial (isQ : M → Bool) (found : List M) (ops : List (Op M)) (l o : List (Elem M)) (hp : ∀ op ∈ ops, Proper isQ op) (h : run isQ found ops = .ok l)
    (ho : OnlyQuantizers isQ o) :
    (∀ s n, step isQ l (.slice s n) = .ok ((l.drop s).take n)) ∧
    (∃ u, step isQ l (.union o) = .ok u ∧ ∀ e, e ∈ u ↔ e ∈ l ∨ e ∈ o) ∧ (∃ i, step isQ l (.inter o) = .ok i ∧ ∀ e, e ∈ i ↔ e ∈ l ∧ e ∈ o) ∧
    ∃ d, step isQ l (.diff o) = .ok d ∧ ∀ e, e ∈ d ↔ e ∈ l ∧ e ∉ o := by
  have hl := run_only hp h
  refine ⟨fun s n => create_id fun e he => hl e (List.drop_subset s l (List.take_subset n _ he)), ⟨_, create_id fun e he => ?_, fun e => ?_⟩,
    ⟨_, create_id fun e he => hl e (List.mem_filter.1 he).1, fun e => ?_⟩, ⟨_, create_id fun e he => hl e (List.mem_filter.1 he).1, fun e => ?_⟩⟩
  · rcases List.mem_append.1 he with he | he
    · exact hl e he
    · exact ho e (List.mem_filter.1 he).1
  · by_cases he : e ∈ l <;> simp [he]
  · simp
  · simp

/-- **C146.** `append` never adds something that is not a quantizer. -/
theorem append_refuses_others (isQ : M → Bool) (l : List (Elem M)) (m : M) (h : isQ m = false) : step isQ l (.append (.result m)) = .error .valueError ∧
    step isQ l (.append (.bare m)) = .error .valueError := by
  simp [step, append, h]

/-! ## Deviations -/

/-- **C146, deviation.** `append` refuses the search results of quantizers too, that is, all search results. -/
theorem append_refuses_all (isQ : M → Bool) (l : List (Elem M)) (m : M) : step isQ l (.append (.result m)) = .error .valueError := rfl

/-- **C146, deviation.** `append` accepts a quantizer that is no search result, after which listing the modules, slices that contain it and `apply` fail. -/
theorem append_bare (isQ : M → Bool) (l : List (Elem M)) (hl : OnlyQuantizers isQ l) (m : M) (h : isQ m = true) (f : M → Option M) : ∃ l', step isQ l (.append (.bare m)) = .ok l' ∧
    modules l' = .error .attributeError ∧ step isQ l' (.slice 0 l'.length) = .error .attributeError ∧ step isQ l' (.apply f) = .error .attributeError := by
  refine ⟨l ++ [Elem.bare m], by simp [step, append, h], ?_⟩
  have h3 : ∀ l : List (Elem M), OnlyQuantizers isQ l → modules (l ++ [.bare m]) = .error .attributeError ∧ create isQ (l ++ [.bare m]) = .error .attributeError ∧
      apply f (l ++ [.bare m]) = .error .attributeError := by
    intro l
    induction l with
    | nil => intro _; exact ⟨rfl, rfl, rfl⟩
    | cons e l ih =>
      intro hl
      obtain ⟨i1, i2, i3⟩ := ih fun x hx => hl x (List.mem_cons_of_mem _ hx)
      obtain ⟨n, rfl, -⟩ := hl _ List.mem_cons_self
      simp [modules, create, apply, i1, i2, i3]
  obtain ⟨i1, i2, i3⟩ := h3 l hl
  refine ⟨i1, ?_, i3⟩
  have : step isQ (l ++ [Elem.bare m]) (.slice 0 (l ++ [Elem.bare m]).length) = create isQ (l ++ [Elem.bare m]) := by
    rw [step, List.drop_zero, List.take_length]
  rw [this, i2]

/-- **C146, deviation.** `apply` with a function that returns another module makes a collection with that module; in the next slice it is left out, so that a slice of
one element is empty. -/
theorem apply_other (isQ : M → Bool) (q m : M) (hm : isQ m = false) :
    step isQ [.result q] (.apply fun _ => some m) = .ok [.result m] ∧ step isQ [.result m] (.slice 0 1) = .ok [] := by
  simp [step, apply, create, hm]

/-! ## Concrete cases -/

/-- Modules by number; even ones are quantizers. -/
def even (n : Nat) : Bool := n % 2 == 0

example : (∀ op ∈ [Op.slice 1 2, .union [.result 8], .apply fun n => if n = 2 then some 10 else none], Proper even op) ∧
    run even [1, 2, 3, 4] [Op.slice 1 2, .union [.result 8], .apply fun n => if n = 2 then some 10 else none] = .ok [.result 4, .result 8] := by
  refine ⟨?_, rfl⟩
  intro op hop
  simp only [List.mem_cons, List.not_mem_nil, or_false] at hop
  rcases hop with rfl | rfl | rfl
  · trivial
  · trivial
  · intro m n h
    dsimp only at h
    split at h
    · cases h; rfl
    · cases h

end FF.Collections
