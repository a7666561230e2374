import Mathlib.Data.List.Induction

/-! # `annotate_operator_metadata`: tagging quantizers with the operators around them (C89)

Models `quantization/quantizer_annotations.py`: `TraceTensor.__torch_function__`, `quantizer_override`, `annotate_operator_metadata`; and what
`overrides.disable_quantization` does to it. -/

namespace FF.OpTags

/-! ### Model -/

/-- What a forward pass does, one value after the other: value `i` is the result of instruction `i`. Operators are numbered, as are quantizers. -/
inductive Instr
  /-- The sample input. -/
  | input
  /-- A parameter, or another ordinary tensor. -/
  | param
  /-- An operator on earlier values. Simplification: with a new tensor as result, not one of the arguments. -/
  | op (f : ℕ) (args : List ℕ)
  /-- A quantizer on an earlier value. -/
  | quant (q x : ℕ)
  deriving DecidableEq

/-- A tensor: whether it is a `TraceTensor`, `previous_function` and `previous_quantizer` (16-30). -/
structure Obj where
  trace : Bool
  fn : Option ℕ
  q : Option ℕ
  deriving DecidableEq

inductive Tag
  | before (q f : ℕ)
  | after (q f : ℕ)
  deriving DecidableEq

/-- The tensors, the tensor that each value so far is, and the tags added so far. -/
structure State where
  objs : ℕ → Obj
  env : List ℕ
  tags : List Tag

/-- The tensor that a value is. -/
def State.obj (s : State) (x : ℕ) : ℕ := s.env[x]?.getD 0

/-- A new tensor. -/
def State.push (s : State) (o : Obj) : State :=
  { s with objs := fun x => if x = s.env.length then o else s.objs x, env := s.env ++ [s.env.length] }

/-- `_annotate_input` of an argument (41-45). Simplification: every quantizer has metadata, as those in a `QuantizedModule` do (C87). -/
def inputTag (f : ℕ) (o : Obj) : List Tag :=
  match o.trace, o.q with
  | true, some q => [.before q f]
  | _, _ => []

/-- The tag of `quantizer_override` (83-88). -/
def outputTag (q : ℕ) (o : Obj) : List Tag :=
  match o.trace, o.fn with
  | true, some f => [.after q f]
  | _, _ => []

/-- One instruction. `__torch_function__` (32-60) is called if some argument is a `TraceTensor`. A quantizer with `quantizer_override` (63-95) gives its input:
stubs do, and wraps it unless it is a `TraceTensor`. Other quantizers than stubs are disabled by an override that was registered later and does not call this
one (`annotate_operator_metadata` 120-126, `overrides.DisableQuantizationOverride.__call__`). -/
def exec (stub : ℕ → Bool) (i : Instr) (s : State) : State :=
  match i with
  | .input => s.push ⟨true, none, none⟩
  | .param => s.push ⟨false, none, none⟩
  | .op f args =>
    if args.any (fun x => (s.objs (s.obj x)).trace) then
      { s with tags := s.tags ++ args.flatMap fun x => inputTag f (s.objs (s.obj x)) }.push ⟨true, some f, none⟩
    else s.push ⟨false, none, none⟩
  | .quant q x =>
    if stub q then
      let s := { s with tags := s.tags ++ outputTag q (s.objs (s.obj x)) }
      if (s.objs (s.obj x)).trace then
        { s with objs := fun y => if y = s.obj x then { s.objs (s.obj x) with q := some q } else s.objs y, env := s.env ++ [s.obj x] }
      else s.push ⟨true, none, some q⟩
    else { s with env := s.env ++ [s.obj x] }

/-- The tags that `annotate_operator_metadata` adds in a forward pass. -/
def run (stub : ℕ → Bool) (P : List Instr) : State := P.foldl (fun s i => exec stub i s) ⟨fun _ => ⟨false, none, none⟩, [], []⟩

/-! ### Specification -/

/-- An operator is applied to a result of the quantizer. -/
def Before (P : List Instr) (q f : ℕ) : Prop := ∃ (i : ℕ) (args : List ℕ) (v x : ℕ), P[i]? = some (Instr.op f args) ∧ v ∈ args ∧ P[v]? = some (Instr.quant q x)

/-- The value comes from an operator, possibly through quantizers. -/
inductive Origin (P : List Instr) : ℕ → ℕ → Prop
  | op {v f : ℕ} {args : List ℕ} : P[v]? = some (Instr.op f args) → Origin P v f
  | quant {v q x f : ℕ} : P[v]? = some (Instr.quant q x) → Origin P x f → Origin P v f

/-- The quantizer is applied to a result of an operator. -/
def After (P : List Instr) (q f : ℕ) : Prop := ∃ (i x : ℕ), P[i]? = some (Instr.quant q x) ∧ Origin P x f

/-- The value that was quantized, through any number of quantizers: quantizers give their input, other than parameters. -/
def root (P : List Instr) (v : ℕ) : ℕ :=
  match P[v]? with
  | some (Instr.quant _ x) => if _h : x < v ∧ P[x]? ≠ some Instr.param then root P x else v
  | _ => v
termination_by v
decreasing_by exact _h.1

/-- Programs use earlier values. -/
def WellFormed (P : List Instr) : Prop :=
  (∀ (i f : ℕ) (args : List ℕ), P[i]? = some (Instr.op f args) → ∀ v ∈ args, v < i) ∧ ∀ (i q x : ℕ), P[i]? = some (Instr.quant q x) → x < i

/-- Every operator has an argument other than parameters, and no operator is applied to a value that has been quantized again since it was computed. -/
structure Simple (P : List Instr) : Prop where
  traced : ∀ (i f : ℕ) (args : List ℕ), P[i]? = some (Instr.op f args) → ∃ v ∈ args, P[v]? ≠ some Instr.param
  current : ∀ (i f : ℕ) (args : List ℕ), P[i]? = some (Instr.op f args) → ∀ v ∈ args, ∀ w, v < w → w < i → root P w ≠ root P v

/-! ### Lemmas -/

theorem root_le (P : List Instr) (v : ℕ) : root P v ≤ v := by
  induction v using Nat.strongRecOn with
  | _ v ih =>
    rw [root]
    split
    · split
      · rename_i h
        exact Nat.le_trans (ih _ h.1) (Nat.le_of_lt h.1)
      · exact Nat.le_refl _
    · exact Nat.le_refl _

theorem root_snoc {P : List Instr} {i : Instr} (v : ℕ) (hv : v < P.length) : root (P ++ [i]) v = root P v := by
  induction v using Nat.strongRecOn with
  | _ v ih =>
    rw [root, root, List.getElem?_append_left hv]
    split
    · rename_i q x _
      by_cases h : x < v
      · rw [List.getElem?_append_left (Nat.lt_trans h hv)]
        by_cases h2 : P[x]? ≠ some Instr.param
        · rw [dif_pos ⟨h, h2⟩, dif_pos ⟨h, h2⟩, ih x h (Nat.lt_trans h hv)]
        · rw [dif_neg (fun e => h2 e.2), dif_neg (fun e => h2 e.2)]
      · rw [dif_neg (fun e => h e.1), dif_neg (fun e => h e.1)]
    · rfl

theorem origin_snoc {P : List Instr} {i : Instr} (hw : WellFormed P) {v f : ℕ} (hv : v < P.length) : Origin (P ++ [i]) v f ↔ Origin P v f := by
  constructor
  · intro h
    induction h with
    | op h => rw [List.getElem?_append_left hv] at h; exact .op h
    | quant h _ ih =>
      rw [List.getElem?_append_left hv] at h
      exact .quant h (ih (Nat.lt_trans (hw.2 _ _ _ h) hv))
  · intro h
    induction h with
    | op h => exact .op (by rw [List.getElem?_append_left hv]; exact h)
    | quant h _ ih => exact .quant (by rw [List.getElem?_append_left hv]; exact h) (ih (Nat.lt_trans (hw.2 _ _ _ h) hv))

theorem wf_init {P : List Instr} {i : Instr} (h : WellFormed (P ++ [i])) : WellFormed P := by
  refine ⟨fun j f args hj => ?_, fun j q x hj => ?_⟩
  · have : j < P.length := (List.getElem?_eq_some_iff.1 hj).1
    exact h.1 j f args (by rw [List.getElem?_append_left this]; exact hj)
  · have : j < P.length := (List.getElem?_eq_some_iff.1 hj).1
    exact h.2 j q x (by rw [List.getElem?_append_left this]; exact hj)

theorem simple_init {P : List Instr} {i : Instr} (hw : WellFormed (P ++ [i])) (h : Simple (P ++ [i])) : Simple P := by
  refine ⟨fun j f args hj => ?_, fun j f args hj v hv w h1 h2 => ?_⟩
  · have hl : j < P.length := (List.getElem?_eq_some_iff.1 hj).1
    have hj' : (P ++ [i])[j]? = some (Instr.op f args) := by rw [List.getElem?_append_left hl]; exact hj
    obtain ⟨v, hv, hp⟩ := h.traced j f args hj'
    have := hw.1 j f args hj' v hv
    rw [List.getElem?_append_left (Nat.lt_trans this hl)] at hp
    exact ⟨v, hv, hp⟩
  · have hl : j < P.length := (List.getElem?_eq_some_iff.1 hj).1
    have := h.current j f args (by rw [List.getElem?_append_left hl]; exact hj) v hv w h1 h2
    rwa [root_snoc w (by omega), root_snoc v (by omega)] at this

structure Inv (P : List Instr) (s : State) : Prop where
  len : s.env.length = P.length
  env : ∀ v, v < P.length → s.obj v = root P v
  trace : ∀ v, v < P.length → ((s.objs (root P v)).trace = true ↔ P[v]? ≠ some Instr.param)
  fn : ∀ v, v < P.length → ∀ f, (s.objs (root P v)).fn = some f ↔ Origin P v f
  q : ∀ v, v < P.length → (∀ w, v < w → w < P.length → root P w ≠ root P v) → ∀ q, (s.objs (root P v)).q = some q ↔ ∃ x, P[v]? = some (Instr.quant q x)
  before : ∀ q f, .before q f ∈ s.tags ↔ Before P q f
  after : ∀ q f, .after q f ∈ s.tags ↔ After P q f

theorem last_elem (P : List Instr) (i : Instr) : (P ++ [i])[P.length]? = some i := by simp

theorem elem_cases {P : List Instr} {i j : Instr} {n : ℕ} (h : (P ++ [i])[n]? = some j) : (n < P.length ∧ P[n]? = some j) ∨ (n = P.length ∧ i = j) := by
  by_cases hn : n < P.length
  · rw [List.getElem?_append_left hn] at h
    exact Or.inl ⟨hn, h⟩
  · have : n < (P ++ [i]).length := (List.getElem?_eq_some_iff.1 h).1
    have : n = P.length := by simp at this; omega
    subst this
    rw [last_elem] at h
    exact Or.inr ⟨rfl, Option.some.inj h⟩

/-- A new tensor as the next value. -/
theorem push_obj_lt {s : State} {o : Obj} {v : ℕ} (hv : v < s.env.length) : (s.push o).obj v = s.obj v := by
  simp only [State.obj, State.push]
  rw [List.getElem?_append_left hv]

theorem push_obj_last {s : State} {o : Obj} : (s.push o).obj s.env.length = s.env.length := by
  simp [State.obj, State.push]

/-- The invariant after an instruction with a new tensor as its value. -/
theorem inv_push {P : List Instr} {i : Instr} {s : State} {o : Obj} {t : List Tag} (hw : WellFormed (P ++ [i])) (hi : Inv P s)
    (hroot : root (P ++ [i]) P.length = P.length)
    (htrace : o.trace = true ↔ i ≠ .param) (hfn : ∀ f, o.fn = some f ↔ Origin (P ++ [i]) P.length f) (hq : ∀ q, o.q = some q ↔ ∃ x, i = .quant q x)
    (hb : ∀ q f, .before q f ∈ s.tags ++ t ↔ Before (P ++ [i]) q f) (ha : ∀ q f, .after q f ∈ s.tags ++ t ↔ After (P ++ [i]) q f) :
    Inv (P ++ [i]) ({ s with tags := s.tags ++ t }.push o) := by
  have hw' := wf_init hw
  have hlen : ({ s with tags := s.tags ++ t } : State).env.length = P.length := hi.len
  have hold : ∀ v, v < P.length → ({ s with tags := s.tags ++ t }.push o).objs (root (P ++ [i]) v) = s.objs (root P v) := by
    intro v hv
    rw [root_snoc v hv]
    have := root_le P v
    simp only [State.push]
    rw [if_neg (by rw [hi.len]; omega)]
  have hnew : ({ s with tags := s.tags ++ t }.push o).objs (root (P ++ [i]) P.length) = o := by
    rw [hroot]
    simp [State.push, hi.len]
  have hcase : ∀ v, v < (P ++ [i]).length → v < P.length ∨ v = P.length := by
    intro v hv
    simp at hv
    omega
  refine ⟨by simp [State.push, hi.len], ?_, ?_, ?_, ?_, hb, ha⟩
  · intro v hv
    rcases hcase v hv with h | rfl
    · rw [push_obj_lt (by rw [hlen]; exact h), root_snoc v h]
      exact hi.env v h
    · rw [hroot, ← hlen, push_obj_last]
  · intro v hv
    rcases hcase v hv with h | rfl
    · rw [hold v h, List.getElem?_append_left h]
      exact hi.trace v h
    · rw [hnew, last_elem, htrace]
      simp
  · intro v hv f
    rcases hcase v hv with h | rfl
    · rw [hold v h, origin_snoc hw' h]
      exact hi.fn v h f
    · rw [hnew]
      exact hfn f
  · intro v hv hlast q
    rcases hcase v hv with h | rfl
    · rw [hold v h, List.getElem?_append_left h]
      refine hi.q v h (fun w h1 h2 => ?_) q
      have := hlast w h1 (by simp; omega)
      rwa [root_snoc w h2, root_snoc v h] at this
    · rw [hnew, last_elem, hq]
      simp

theorem before_snoc {P : List Instr} {i : Instr} (hw : WellFormed (P ++ [i])) (hno : ∀ f args, i ≠ .op f args) (q f : ℕ) : Before (P ++ [i]) q f ↔ Before P q f := by
  constructor
  · rintro ⟨j, args, v, x, hj, hv, hx⟩
    have hlt := hw.1 j f args hj v hv
    rcases elem_cases hj with ⟨h, h'⟩ | ⟨_, h'⟩
    · rw [List.getElem?_append_left (Nat.lt_trans hlt h)] at hx
      exact ⟨j, args, v, x, h', hv, hx⟩
    · exact absurd h' (hno f args)
  · rintro ⟨j, args, v, x, hj, hv, hx⟩
    have h1 : j < P.length := (List.getElem?_eq_some_iff.1 hj).1
    have h2 : v < P.length := (List.getElem?_eq_some_iff.1 hx).1
    exact ⟨j, args, v, x, by rw [List.getElem?_append_left h1]; exact hj, hv, by rw [List.getElem?_append_left h2]; exact hx⟩

theorem after_snoc {P : List Instr} {i : Instr} (hw : WellFormed (P ++ [i])) (hno : ∀ q x, i ≠ .quant q x) (q f : ℕ) : After (P ++ [i]) q f ↔ After P q f := by
  have hw' := wf_init hw
  constructor
  · rintro ⟨j, x, hj, hx⟩
    rcases elem_cases hj with ⟨h, h'⟩ | ⟨_, h'⟩
    · exact ⟨j, x, h', (origin_snoc hw' (Nat.lt_trans (hw'.2 j q x h') h)).1 hx⟩
    · exact absurd h' (hno q x)
  · rintro ⟨j, x, hj, hx⟩
    have h1 : j < P.length := (List.getElem?_eq_some_iff.1 hj).1
    exact ⟨j, x, by rw [List.getElem?_append_left h1]; exact hj, (origin_snoc hw' (Nat.lt_trans (hw'.2 j q x hj) h1)).2 hx⟩

theorem mem_inputTag {f q f' : ℕ} {o : Obj} : .before q f' ∈ inputTag f o ↔ o.trace = true ∧ o.q = some q ∧ f' = f := by
  unfold inputTag
  obtain ⟨t, g, q'⟩ := o
  cases t <;> cases q' <;> simp [eq_comm]

theorem after_inputTag {f q f' : ℕ} {o : Obj} : .after q f' ∉ inputTag f o := by
  unfold inputTag
  obtain ⟨t, g, q'⟩ := o
  cases t <;> cases q' <;> simp

theorem mem_outputTag {q q' f : ℕ} {o : Obj} : .after q' f ∈ outputTag q o ↔ o.trace = true ∧ o.fn = some f ∧ q' = q := by
  unfold outputTag
  obtain ⟨t, g, _⟩ := o
  cases t <;> cases g <;> simp [eq_comm, and_comm]

theorem before_outputTag {q q' f : ℕ} {o : Obj} : .before q' f ∉ outputTag q o := by
  unfold outputTag
  obtain ⟨t, g, _⟩ := o
  cases t <;> cases g <;> simp

theorem origin_param {P : List Instr} {v f : ℕ} (h : P[v]? = some Instr.param) : ¬ Origin P v f := by
  intro ho
  cases ho with
  | op h' => rw [h] at h'; simp at h'
  | quant h' _ => rw [h] at h'; simp at h'

theorem run_inv {stub : ℕ → Bool} (hstub : ∀ q, stub q = true) (P : List Instr) (hw : WellFormed P) (hs : Simple P) : Inv P (run stub P) := by
  induction P using List.reverseRecOn with
  | nil =>
    refine ⟨rfl, ?_, ?_, ?_, ?_, ?_, ?_⟩ <;> intros <;> simp_all [run, Before, After]
  | append_singleton P i ih =>
    have hw' := wf_init hw
    have hi := ih hw' (simple_init hw hs)
    have hrun : run stub (P ++ [i]) = exec stub i (run stub P) := by simp [run, List.foldl_append]
    rw [hrun]
    generalize run stub P = s at hi
    have hnil : s = { s with tags := s.tags ++ [] } := by simp
    cases i with
    | input =>
      simp only [exec]
      rw [hnil]
      refine inv_push hw hi ?_ (by simp) ?_ (by simp) ?_ ?_
      · rw [root, last_elem]
      · intro f
        simp only [reduceCtorEq, false_iff]
        intro h
        cases h with
        | op h => rw [last_elem] at h; simp at h
        | quant h _ => rw [last_elem] at h; simp at h
      · intro q f
        rw [List.append_nil, hi.before, before_snoc hw (by simp)]
      · intro q f
        rw [List.append_nil, hi.after, after_snoc hw (by simp)]
    | param =>
      simp only [exec]
      rw [hnil]
      refine inv_push hw hi ?_ (by simp) ?_ (by simp) ?_ ?_
      · rw [root, last_elem]
      · intro f
        simp only [reduceCtorEq, false_iff]
        exact origin_param (last_elem _ _)
      · intro q f
        rw [List.append_nil, hi.before, before_snoc hw (by simp)]
      · intro q f
        rw [List.append_nil, hi.after, after_snoc hw (by simp)]
    | op f args =>
      have hlt := hw.1 P.length f args (last_elem _ _)
      simp only [exec]
      have hany : args.any (fun x => (s.objs (s.obj x)).trace) = true := by
        obtain ⟨v, hv, hp⟩ := hs.traced P.length f args (last_elem _ _)
        rw [List.any_eq_true]
        refine ⟨v, hv, ?_⟩
        rw [hi.env v (hlt v hv)]
        rw [List.getElem?_append_left (hlt v hv)] at hp
        exact (hi.trace v (hlt v hv)).2 hp
      rw [if_pos hany]
      refine inv_push hw hi ?_ (by simp) ?_ (by simp) ?_ ?_
      · rw [root, last_elem]
      · intro g
        simp only [Option.some.injEq]
        constructor
        · rintro rfl
          exact .op (last_elem _ _)
        · intro h
          cases h with
          | op h => rw [last_elem] at h; simp at h; exact h.1
          | quant h _ => rw [last_elem] at h; simp at h
      · intro q g
        rw [List.mem_append, hi.before, List.mem_flatMap]
        constructor
        · rintro (⟨j, as, v, x, hj, hv, hx⟩ | ⟨v, hv, hm⟩)
          · have h1 : j < P.length := (List.getElem?_eq_some_iff.1 hj).1
            have h2 : v < P.length := (List.getElem?_eq_some_iff.1 hx).1
            exact ⟨j, as, v, x, by rw [List.getElem?_append_left h1]; exact hj, hv, by rw [List.getElem?_append_left h2]; exact hx⟩
          · obtain ⟨_, hq, rfl⟩ := mem_inputTag.1 hm
            rw [hi.env v (hlt v hv)] at hq
            obtain ⟨x, hx⟩ := (hi.q v (hlt v hv) (fun w h1 h2 => by
              have := hs.current P.length g args (last_elem _ _) v hv w h1 h2
              rwa [root_snoc w h2, root_snoc v (hlt v hv)] at this) q).1 hq
            exact ⟨P.length, args, v, x, last_elem _ _, hv, by rw [List.getElem?_append_left (hlt v hv)]; exact hx⟩
        · rintro ⟨j, as, v, x, hj, hv, hx⟩
          rcases elem_cases hj with ⟨h, h'⟩ | ⟨rfl, h'⟩
          · have := hw.1 j g as hj v hv
            rw [List.getElem?_append_left (Nat.lt_trans this h)] at hx
            exact Or.inl ⟨j, as, v, x, h', hv, hx⟩
          · simp only [Instr.op.injEq] at h'
            obtain ⟨rfl, rfl⟩ := h'
            rw [List.getElem?_append_left (hlt v hv)] at hx
            refine Or.inr ⟨v, hv, mem_inputTag.2 ⟨?_, ?_, rfl⟩⟩
            · rw [hi.env v (hlt v hv)]
              exact (hi.trace v (hlt v hv)).2 (by rw [hx]; simp)
            · rw [hi.env v (hlt v hv)]
              exact (hi.q v (hlt v hv) (fun w h1 h2 => by
                have := hs.current P.length f args (last_elem _ _) v hv w h1 h2
                rwa [root_snoc w h2, root_snoc v (hlt v hv)] at this) q).2 ⟨x, hx⟩
      · intro q g
        rw [List.mem_append, hi.after, after_snoc hw (by simp), List.mem_flatMap]
        constructor
        · rintro (h | ⟨v, hv, hm⟩)
          · exact h
          · exact absurd hm after_inputTag
        · exact Or.inl
    | quant q x =>
      have hx := hw.2 P.length q x (last_elem _ _)
      simp only [exec, hstub q, if_true]
      have hobj : s.obj x = root P x := hi.env x hx
      have horigin : ∀ f, Origin (P ++ [.quant q x]) P.length f ↔ Origin P x f := by
        intro f
        constructor
        · intro h
          cases h with
          | op h => rw [last_elem] at h; simp at h
          | quant h h2 =>
            rw [last_elem] at h
            simp only [Option.some.injEq, Instr.quant.injEq] at h
            obtain ⟨rfl, rfl⟩ := h
            exact (origin_snoc hw' hx).1 h2
        · intro h
          exact .quant (last_elem _ _) ((origin_snoc hw' hx).2 h)
      have hb : ∀ q' f, .before q' f ∈ s.tags ++ outputTag q (s.objs (s.obj x)) ↔ Before (P ++ [.quant q x]) q' f := by
        intro q' f
        rw [List.mem_append, hi.before, before_snoc hw (by simp)]
        constructor
        · rintro (h | h)
          · exact h
          · exact absurd h before_outputTag
        · exact Or.inl
      have ha : ∀ q' f, .after q' f ∈ s.tags ++ outputTag q (s.objs (s.obj x)) ↔ After (P ++ [.quant q x]) q' f := by
        intro q' f
        rw [List.mem_append, hi.after, mem_outputTag, hobj, hi.trace x hx, hi.fn x hx]
        constructor
        · rintro (⟨j, y, hj, hy⟩ | ⟨_, ho, rfl⟩)
          · have h1 : j < P.length := (List.getElem?_eq_some_iff.1 hj).1
            exact ⟨j, y, by rw [List.getElem?_append_left h1]; exact hj, (origin_snoc hw' (Nat.lt_trans (hw'.2 j q' y hj) h1)).2 hy⟩
          · exact ⟨P.length, x, last_elem _ _, (origin_snoc hw' hx).2 ho⟩
        · rintro ⟨j, y, hj, hy⟩
          rcases elem_cases hj with ⟨h, h'⟩ | ⟨rfl, h'⟩
          · exact Or.inl ⟨j, y, h', (origin_snoc hw' (Nat.lt_trans (hw'.2 j q' y h') h)).1 hy⟩
          · simp only [Instr.quant.injEq] at h'
            obtain ⟨rfl, rfl⟩ := h'
            have ho := (origin_snoc hw' hx).1 hy
            exact Or.inr ⟨fun hp => origin_param hp ho, ho, rfl⟩
      by_cases hp : P[x]? = some Instr.param
      · have ht : (s.objs (s.obj x)).trace = false := by
          rw [hobj]
          have := (hi.trace x hx).not.2 (by simp [hp])
          simpa using this
        have hroot : root (P ++ [.quant q x]) P.length = P.length := by
          rw [root, last_elem]
          simp only
          rw [dif_neg]
          rw [List.getElem?_append_left hx]
          exact fun h => h.2 hp
        rw [if_neg (by show ¬ (s.objs (s.obj x)).trace = true; simp [ht])]
        refine inv_push hw hi hroot (by simp) ?_ (by simp) hb ha
        intro f
        rw [horigin]
        simp only [reduceCtorEq, false_iff]
        exact origin_param hp
      · have ht : (s.objs (s.obj x)).trace = true := by
          rw [hobj]
          exact (hi.trace x hx).2 hp
        have hroot : root (P ++ [.quant q x]) P.length = root P x := by
          rw [root, last_elem]
          simp only
          rw [dif_pos ⟨hx, by rw [List.getElem?_append_left hx]; exact hp⟩, root_snoc x hx]
        have hc : (s.objs (({ s with tags := s.tags ++ outputTag q (s.objs (s.obj x)) } : State).obj x)).trace = true := ht
        rw [if_pos hc]
        have hcase : ∀ v, v < (P ++ [Instr.quant q x]).length → v < P.length ∨ v = P.length := by
          intro v hv
          simp at hv
          omega
        show Inv (P ++ [.quant q x]) ⟨fun y => if y = s.obj x then { s.objs (s.obj x) with q := some q } else s.objs y, s.env ++ [s.obj x], s.tags ++ outputTag q (s.objs (s.obj x))⟩
        rw [hobj] at ht ⊢
        rw [hobj] at hb ha
        refine ⟨by simp [hi.len], ?_, ?_, ?_, ?_, hb, ha⟩
        · intro v hv
          rcases hcase v hv with h | rfl
          · have := hi.env v h
            rw [root_snoc v h, ← this]
            simp only [State.obj]
            rw [List.getElem?_append_left (by rw [hi.len]; exact h)]
          · rw [hroot, ← hi.len]
            simp [State.obj]
        · intro v hv
          rcases hcase v hv with h | rfl
          · rw [root_snoc v h, List.getElem?_append_left h]
            simp only
            split
            · rename_i he
              rw [← hi.trace v h, he]
            · exact hi.trace v h
          · rw [hroot, last_elem]
            simp [ht]
        · intro v hv f
          rcases hcase v hv with h | rfl
          · rw [root_snoc v h, origin_snoc hw' h]
            simp only
            split
            · rename_i he
              rw [← hi.fn v h, he]
            · exact hi.fn v h f
          · rw [hroot, horigin]
            simp only [if_true]
            exact hi.fn x hx f
        · intro v hv hlast q'
          rcases hcase v hv with h | rfl
          · have hne := hlast P.length h (by simp)
            rw [root_snoc v h, List.getElem?_append_left h]
            rw [hroot, root_snoc v h] at hne
            simp only [Ne.symm hne, if_false]
            refine hi.q v h (fun w h1 h2 => ?_) q'
            have := hlast w h1 (by simp; omega)
            rwa [root_snoc w h2, root_snoc v h] at this
          · rw [hroot, last_elem]
            simp

/-! ### Properties -/

/-- **C89 (partial).** The tags added are those of the operators around the quantizers: "before" the operators that are applied to a result of the quantizer,
"after" those whose result, possibly quantized before, the quantizer is applied to.

Missing: quantizers other than stubs; operators on parameters only; values that are used again after they were quantized; see the deviations. -/
theorem tags_exact_partial (stub : ℕ → Bool) (P : List Instr) (hstub : ∀ q, stub q = true) (hw : WellFormed P) (hs : Simple P) (q f : ℕ) :
    (.before q f ∈ (run stub P).tags ↔ Before P q f) ∧ (.after q f ∈ (run stub P).tags ↔ After P q f) :=
  ⟨(run_inv hstub P hw hs).before q f, (run_inv hstub P hw hs).after q f⟩

theorem run_snoc (stub : ℕ → Bool) (P : List Instr) (i : Instr) : run stub (P ++ [i]) = exec stub i (run stub P) := by
  simp [run, List.foldl_append]

/-- **C89.** In every forward pass, a quantizer only gets tags of operators of the pass, and only quantizers of the pass get tags. -/
theorem tags_sound (stub : ℕ → Bool) (P : List Instr) (q f : ℕ) (h : .before q f ∈ (run stub P).tags ∨ .after q f ∈ (run stub P).tags) :
    (∃ args, .op f args ∈ P) ∧ ∃ x, .quant q x ∈ P := by
  have key : (∀ o f, ((run stub P).objs o).fn = some f → ∃ args, .op f args ∈ P) ∧ (∀ o q, ((run stub P).objs o).q = some q → ∃ x, .quant q x ∈ P) ∧
      ∀ q f, (.before q f ∈ (run stub P).tags ∨ .after q f ∈ (run stub P).tags) → (∃ args, .op f args ∈ P) ∧ ∃ x, .quant q x ∈ P := by
    clear h q f
    induction P using List.reverseRecOn with
    | nil => simp [run]
    | append_singleton P i ih =>
      rw [run_snoc]
      generalize run stub P = s at ih
      obtain ⟨i1, i2, i3⟩ := ih
      have j1 : ∀ o f, (s.objs o).fn = some f → ∃ args, .op f args ∈ P ++ [i] := fun o f h => (i1 o f h).imp fun _ h => List.mem_append_left _ h
      have j2 : ∀ o q, (s.objs o).q = some q → ∃ x, .quant q x ∈ P ++ [i] := fun o q h => (i2 o q h).imp fun _ h => List.mem_append_left _ h
      have j3 : ∀ q f, (.before q f ∈ s.tags ∨ .after q f ∈ s.tags) → (∃ args, .op f args ∈ P ++ [i]) ∧ ∃ x, .quant q x ∈ P ++ [i] := fun q f h =>
        ⟨(i3 q f h).1.imp fun _ h => List.mem_append_left _ h, (i3 q f h).2.imp fun _ h => List.mem_append_left _ h⟩
      have push : ∀ (o : Obj) (t : List Tag), (∀ f, o.fn = some f → ∃ args, .op f args ∈ P ++ [i]) → (∀ q, o.q = some q → ∃ x, .quant q x ∈ P ++ [i]) →
          (∀ q f, (.before q f ∈ s.tags ++ t ∨ .after q f ∈ s.tags ++ t) → (∃ args, .op f args ∈ P ++ [i]) ∧ ∃ x, .quant q x ∈ P ++ [i]) →
          (∀ o' f, (({ s with tags := s.tags ++ t }.push o).objs o').fn = some f → ∃ args, .op f args ∈ P ++ [i]) ∧
          (∀ o' q, (({ s with tags := s.tags ++ t }.push o).objs o').q = some q → ∃ x, .quant q x ∈ P ++ [i]) ∧
          ∀ q f, (.before q f ∈ ({ s with tags := s.tags ++ t }.push o).tags ∨ .after q f ∈ ({ s with tags := s.tags ++ t }.push o).tags) →
            (∃ args, .op f args ∈ P ++ [i]) ∧ ∃ x, .quant q x ∈ P ++ [i] := by
        intro o t h1 h2 h3
        refine ⟨fun o' f => ?_, fun o' q => ?_, h3⟩
        · simp only [State.push]
          split
          · exact h1 f
          · exact j1 o' f
        · simp only [State.push]
          split
          · exact h2 q
          · exact j2 o' q
      have hnil : s = { s with tags := s.tags ++ [] } := by simp
      cases i with
      | input => simp only [exec]; rw [hnil]; exact push _ [] (by simp) (by simp) (by simpa using j3)
      | param => simp only [exec]; rw [hnil]; exact push _ [] (by simp) (by simp) (by simpa using j3)
      | op f args =>
        simp only [exec]
        split
        · refine push _ _ (fun g hg => ?_) (by simp) (fun q g hm => ?_)
          · simp only [Option.some.injEq] at hg
            exact ⟨args, by simp [hg]⟩
          · simp only [List.mem_append, List.mem_flatMap] at hm
            rcases hm with (h | ⟨v, _, h⟩) | (h | ⟨v, _, h⟩)
            · exact j3 q g (Or.inl h)
            · obtain ⟨_, hq, rfl⟩ := mem_inputTag.1 h
              exact ⟨⟨args, by simp⟩, j2 _ q hq⟩
            · exact j3 q g (Or.inr h)
            · exact absurd h after_inputTag
        · rw [hnil]
          exact push _ [] (by simp) (by simp) (by simpa using j3)
      | quant q x =>
        have htags : ∀ q' f, (.before q' f ∈ s.tags ++ outputTag q (s.objs (s.obj x)) ∨ .after q' f ∈ s.tags ++ outputTag q (s.objs (s.obj x))) →
            (∃ args, .op f args ∈ P ++ [.quant q x]) ∧ ∃ y, .quant q' y ∈ P ++ [.quant q x] := by
          intro q' f hm
          simp only [List.mem_append] at hm
          rcases hm with (h | h) | (h | h)
          · exact j3 q' f (Or.inl h)
          · exact absurd h before_outputTag
          · exact j3 q' f (Or.inr h)
          · obtain ⟨_, hf, rfl⟩ := mem_outputTag.1 h
            exact ⟨j1 _ f hf, x, by simp⟩
        simp only [exec]
        split
        · split
          · refine ⟨fun o f => ?_, fun o q' => ?_, htags⟩
            · simp only
              split
              · exact j1 _ f
              · exact j1 o f
            · simp only
              split
              · intro h
                simp only [Option.some.injEq] at h
                exact ⟨x, by simp [h]⟩
              · exact j2 o q'
          · exact push _ _ (by simp) (fun q' h => by simp only [Option.some.injEq] at h; exact ⟨x, by simp [h]⟩) htags
        · exact ⟨j1, j2, j3⟩
  exact key.2.2 q f h

/-! ### Deviations -/

/-- **C89, deviation.** Quantizers other than stubs get no tags, in any forward pass: they are disabled for the pass by an override that is registered after
the one that adds the tags. -/
theorem real_quantizers_untagged (stub : ℕ → Bool) (P : List Instr) (q : ℕ) (hq : stub q = false) (f : ℕ) :
    .before q f ∉ (run stub P).tags ∧ .after q f ∉ (run stub P).tags := by
  have key : (∀ o, ((run stub P).objs o).q ≠ some q) ∧ ∀ f, .before q f ∉ (run stub P).tags ∧ .after q f ∉ (run stub P).tags := by
    induction P using List.reverseRecOn with
    | nil => simp [run]
    | append_singleton P i ih =>
      rw [run_snoc]
      generalize run stub P = s at ih
      obtain ⟨i1, i2⟩ := ih
      cases i with
      | input => exact ⟨fun o => by simp only [exec, State.push]; split <;> simp [i1], i2⟩
      | param => exact ⟨fun o => by simp only [exec, State.push]; split <;> simp [i1], i2⟩
      | op f args =>
        simp only [exec]
        split
        · refine ⟨fun o => by simp only [State.push]; split <;> simp [i1], fun g => ⟨fun h => ?_, fun h => ?_⟩⟩
          · simp only [State.push, List.mem_append, List.mem_flatMap] at h
            rcases h with h | ⟨v, _, h⟩
            · exact (i2 g).1 h
            · exact i1 _ (mem_inputTag.1 h).2.1
          · simp only [State.push, List.mem_append, List.mem_flatMap] at h
            rcases h with h | ⟨v, _, h⟩
            · exact (i2 g).2 h
            · exact after_inputTag h
        · exact ⟨fun o => by simp only [State.push]; split <;> simp [i1], i2⟩
      | quant q' x =>
        simp only [exec]
        by_cases hs : stub q' = true
        · have hne : q ≠ q' := by
            rintro rfl
            rw [hq] at hs
            simp at hs
          have ht : ∀ f, .before q f ∉ s.tags ++ outputTag q' (s.objs (s.obj x)) ∧ .after q f ∉ s.tags ++ outputTag q' (s.objs (s.obj x)) := by
            intro f
            simp only [List.mem_append, not_or]
            exact ⟨⟨(i2 f).1, before_outputTag⟩, (i2 f).2, fun h => hne (mem_outputTag.1 h).2.2⟩
          rw [if_pos hs]
          split
          · refine ⟨fun o => ?_, ht⟩
            simp only
            split
            · simpa using Ne.symm hne
            · exact i1 o
          · refine ⟨fun o => ?_, ht⟩
            simp only [State.push]
            split
            · simpa using Ne.symm hne
            · exact i1 o
        · rw [if_neg hs]
          exact ⟨i1, i2⟩
  exact key.2 f

/-- **C89, deviation.** A quantizer marks its input, not only its result: an operator on the value that was quantized counts as one on the result. Here 7 is
applied to the input and not to a result of quantizer 0, as in a residual connection. -/
theorem residual_mistagged : .before 0 7 ∈ (run (fun _ => true) [.input, .quant 0 0, .op 6 [1], .op 7 [0, 2]]).tags ∧
    ¬ Before [.input, .quant 0 0, .op 6 [1], .op 7 [0, 2]] 0 7 := by
  refine ⟨by decide +kernel, ?_⟩
  rintro ⟨i, args, v, x, hi, hv, hx⟩
  match i, hi with
  | 0, hi => simp at hi
  | 1, hi => simp at hi
  | 2, hi => simp at hi
  | 3, hi =>
    simp at hi
    subst hi
    simp at hv
    rcases hv with rfl | rfl <;> simp at hx
  | i + 4, hi => simp at hi

/-- **C89, deviation.** If a value is quantized twice before it is used, only the last quantizer gets the tag: quantizer 0 misses operator 6. -/
theorem quantized_twice : .before 0 6 ∉ (run (fun _ => true) [.input, .quant 0 0, .quant 1 0, .op 6 [1], .op 7 [2]]).tags ∧
    Before [.input, .quant 0 0, .quant 1 0, .op 6 [1], .op 7 [2]] 0 6 :=
  ⟨by decide +kernel, 3, [1], 1, 0, rfl, by simp, rfl⟩

/-- **C89, deviation.** An operator on parameters only, such as a transformation of the weights, is not traced: the quantizer after it has no tag. -/
theorem parameter_operator_untagged : .after 0 6 ∉ (run (fun _ => true) [.param, .op 6 [0], .quant 0 1]).tags ∧ After [.param, .op 6 [0], .quant 0 1] 0 6 :=
  ⟨by decide +kernel, 2, 1, rfl, .op (args := [0]) rfl⟩

/-! ### Concrete cases -/

/-- A linear layer with three quantizers and one after it, and an activation. -/
def layer : List Instr := [.input, .quant 0 0, .param, .quant 1 2, .param, .quant 2 4, .op 6 [1, 3, 5], .quant 3 6, .op 7 [7]]

example : (run (fun _ => true) layer).tags = [.before 0 6, .before 1 6, .before 2 6, .after 3 6, .before 3 7] := by decide +kernel

theorem layer_wf : WellFormed layer := by
  refine ⟨?_, ?_⟩ <;> intro i a b h <;>
    (rcases i with _ | _ | _ | _ | _ | _ | _ | _ | _ | i <;> simp [layer] at h <;> obtain ⟨rfl, rfl⟩ := h <;> simp)

/-- The roots of the values: each quantizer of the layer has a value of its own. -/
theorem layer_root {v : ℕ} (hv : v < 9) : root layer v = [0, 0, 2, 3, 4, 5, 6, 6, 8][v]?.getD 0 := by
  rcases v with _ | _ | _ | _ | _ | _ | _ | _ | _ | v <;> first | omega | simp [root, layer]

theorem layer_simple : Simple layer := by
  refine ⟨?_, ?_⟩
  · intro i a b h
    rcases i with _ | _ | _ | _ | _ | _ | _ | _ | _ | i <;> simp [layer] at h <;> obtain ⟨rfl, rfl⟩ := h <;> simp [layer]
  · intro i a b h v hv w h1 h2
    have hi : i < 9 := (List.getElem?_eq_some_iff.1 h).1
    rw [layer_root (by omega : w < 9), layer_root (by omega : v < 9)]
    rcases i with _ | _ | _ | _ | _ | _ | _ | _ | _ | i <;> simp [layer] at h <;> obtain ⟨rfl, rfl⟩ := h
    · simp at hv
      rcases hv with rfl | rfl | rfl <;> rcases w with _ | _ | _ | _ | _ | _ | w <;> first | omega | simp
    · simp at hv
      omega

example : .before 1 6 ∈ (run (fun _ => true) layer).tags ∧ .after 3 6 ∈ (run (fun _ => true) layer).tags ∧ .before 0 7 ∉ (run (fun _ => true) layer).tags := by
  refine ⟨((tags_exact_partial _ layer (fun _ => rfl) layer_wf layer_simple 1 6).1).2 ⟨6, [1, 3, 5], 3, 2, rfl, by simp, rfl⟩,
    ((tags_exact_partial _ layer (fun _ => rfl) layer_wf layer_simple 3 6).2).2 ⟨7, 6, rfl, .op (args := [1, 3, 5]) rfl⟩, by decide +kernel⟩

end FF.OpTags
