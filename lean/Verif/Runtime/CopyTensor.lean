/-!
# Copying and moving quantized tensors

Models `clone`, `detach`, `to`, `contiguous`, `__deepcopy__` and `raw_data` of `QuantizedTensor` (`src/fastforward/quantized_tensor.py:330-429, 513-520`), with
`clone_parameters`, `detach_parameters`, `contiguous_parameters`, `to` and `attach` of `QuantizationContext` (`src/fastforward/quantization/function.py:110-160`).

Simplifications: tensors that share memory have the same elements, there are no views of parts; the parameters of a quantized tensor are different tensors;
`to` is modelled without a type, with which it dequantizes.
-/

namespace FF.CopyTensor

/-! ## Model -/

/-- How a tensor takes part in autograd: not, as a leaf, or as a result. -/
inductive Grad where
  | none
  | leaf
  | node
  deriving DecidableEq, Repr

variable {C D K : Type} [DecidableEq D]

/-- The contents of memory, and the next free place. -/
structure Mem (C : Type) where
  data : Nat → C
  next : Nat

/-- A tensor: its memory, device, whether it is contiguous, and its part in autograd. -/
structure Tensor (D : Type) where
  store : Nat
  dev : D
  contig : Bool
  grad : Grad
  deriving DecidableEq, Repr

/-- A parameter: a tensor or anything else. -/
inductive Val (D K : Type) where
  | tensor (t : Tensor D)
  | const (k : K)
  deriving DecidableEq, Repr

/-- A quantized tensor: its data and its parameters. -/
structure QTensor (D K : Type) where
  raw : Tensor D
  params : List (String × Val D K)
  deriving DecidableEq, Repr

/-- Writing to memory in place. -/
def Mem.write (m : Mem C) (s : Nat) (c : C) : Mem C := { m with data := fun x => if x = s then c else m.data x }

/-- New memory with a copy. -/
def Mem.copy (m : Mem C) (s : Nat) : Mem C := ⟨fun x => if x = m.next then m.data s else m.data x, m.next + 1⟩

/-- A result of an operation on a tensor takes part in autograd iff the tensor does. -/
def Grad.result : Grad → Grad
  | .none => .none
  | _ => .node

/-- The operations. -/
inductive Op (D : Type) where
  | clone
  | detach
  | to (d : D)
  | contiguous
  deriving DecidableEq

/-- The operation on a plain tensor, as torch does it. -/
def onTensor (op : Op D) (m : Mem C) (t : Tensor D) : Tensor D × Mem C :=
  match op with
  | .clone => ({ t with store := m.next, grad := t.grad.result }, m.copy t.store)
  | .detach => ({ t with grad := .none }, m)
  | .to d => if t.dev = d then (t, m) else ({ t with store := m.next, dev := d, grad := t.grad.result }, m.copy t.store)
  | .contiguous => if t.contig then (t, m) else ({ t with store := m.next, contig := true, grad := t.grad.result }, m.copy t.store)

/-- `QuantizationParameters._apply` with `maybe_tensor_apply` (function.py:33-39, common.py:22-37). -/
def onParams (f : Mem C → Tensor D → Tensor D × Mem C) : Mem C → List (String × Val D K) → List (String × Val D K) × Mem C
  | m, [] => ([], m)
  | m, (n, .tensor t) :: ps =>
    let r := f m t
    let s := onParams f r.2 ps
    ((n, .tensor r.1) :: s.1, s.2)
  | m, (n, .const k) :: ps =>
    let s := onParams f m ps
    ((n, .const k) :: s.1, s.2)

/-- The data and the parameters of the result (quantized_tensor.py:353-358, 402-405, 413-416, 515-516). -/
def onQuantized (op : Op D) (m : Mem C) (q : QTensor D K) : QTensor D K × Mem C :=
  let r := onParams (onTensor op) m q.params
  let s := onTensor op r.2 q.raw
  (⟨s.1, r.1⟩, s.2)

/-- What is returned: a quantized tensor, or real values. -/
inductive Out (D K A : Type) where
  | quantized (q : QTensor D K)
  | real (a : A)

/-- The elements of the data, and the parameters with the elements of tensors. -/
def view (m : Mem C) (q : QTensor D K) : C × List (String × (C ⊕ K)) :=
  (m.data q.raw.store, q.params.map fun p => (p.1, match p.2 with | .tensor t => .inl (m.data t.store) | .const k => .inr k))

/-- The methods; `attach` dequantizes in export mode (function.py:149-158), `to` makes a quantized tensor without it (quantized_tensor.py:358). -/
def method {A : Type} (deq : C × List (String × (C ⊕ K)) → A) (exporting : Bool) (op : Op D) (m : Mem C) (q : QTensor D K) : Out D K A × Mem C :=
  let r := onQuantized op m q
  match op with
  | .to _ => (.quantized r.1, r.2)
  | _ => (if exporting then .real (deq (view r.2 r.1)) else .quantized r.1, r.2)

/-- `copy.deepcopy` of a tensor that takes part in autograd as `g`; a new tensor of the same kind. -/
def deepTensor (m : Mem C) (t : Tensor D) : Tensor D × Mem C := ({ t with store := m.next }, m.copy t.store)

/-- Tensors of a quantized tensor. -/
def tensors (q : QTensor D K) : List (Tensor D) := q.raw :: q.params.filterMap fun p => match p.2 with | .tensor t => some t | .const _ => none

/-- `__deepcopy__` (quantized_tensor.py:360-367); torch refuses to copy parameters that are results (`none`: an exception). -/
def deepCopy (m : Mem C) (q : QTensor D K) : Option (QTensor D K × Mem C) :=
  if (tensors q).any fun t => decide (t.grad = .node) then none
  else
    let r := onParams deepTensor m q.params
    let s := deepTensor r.2 { q.raw with grad := .none }
    some (⟨s.1, r.1⟩, s.2)

/-- Objects of Python by number; `raw_data` makes a new object at each use (quantized_tensor.py:419-426), `contiguous` of torch returns the object if the tensor is
contiguous, and a new one if not. The test of `contiguous` (quantized_tensor.py:515-518): whether `self` is returned, with `sameContext` if the context is the same. -/
def returnsSelf (next : Nat) (contig sameContext : Bool) : Bool :=
  let raw := next
  let next := next + 1
  let (made, next) := if contig then (raw, next) else (next, next + 1)
  let raw' := next
  made == raw' && sameContext

/-! ## Specification -/

/-- All memory that the tensor uses. -/
def stores (q : QTensor D K) : List Nat := (tensors q).map (·.store)

/-- It is allocated. -/
def Valid (m : Mem C) (q : QTensor D K) : Prop := ∀ s ∈ stores q, s < m.next

/-! ## Lemmas -/

/-- An operation on a tensor that leaves old memory and has the elements of its input. -/
def Faithful (f : Mem C → Tensor D → Tensor D × Mem C) : Prop := ∀ m t, t.store < m.next →
  (f m t).2.data (f m t).1.store = m.data t.store ∧ m.next ≤ (f m t).2.next ∧ (f m t).1.store < (f m t).2.next ∧ ∀ s, s < m.next → (f m t).2.data s = m.data s

/-- An operation on a tensor whose result is in new memory. -/
def Fresh (f : Mem C → Tensor D → Tensor D × Mem C) : Prop := ∀ m t, m.next ≤ (f m t).1.store

omit [DecidableEq D] in
theorem copy_facts (m : Mem C) (s : Nat) : (m.copy s).data m.next = m.data s ∧ m.next ≤ (m.copy s).next ∧ m.next < (m.copy s).next ∧
    ∀ x, x < m.next → (m.copy s).data x = m.data x := by
  refine ⟨by simp [Mem.copy], Nat.le_succ _, Nat.lt_succ_self _, fun x hx => ?_⟩
  simp only [Mem.copy]
  rw [if_neg (by omega)]

theorem onTensor_faithful (op : Op D) : Faithful (C := C) (onTensor op) := by
  intro m t ht
  have hc := copy_facts m t.store
  cases op with
  | clone => exact hc
  | detach => exact ⟨rfl, Nat.le_refl _, ht, fun _ _ => rfl⟩
  | to d =>
    simp only [onTensor]
    split
    · exact ⟨rfl, Nat.le_refl _, ht, fun _ _ => rfl⟩
    · exact hc
  | contiguous =>
    simp only [onTensor]
    split
    · exact ⟨rfl, Nat.le_refl _, ht, fun _ _ => rfl⟩
    · exact hc

omit [DecidableEq D] in
theorem deepTensor_faithful : Faithful (C := C) (D := D) deepTensor := fun m t _ => copy_facts m t.store

/-- The elements of a parameter. -/
def elems (m : Mem C) (p : String × Val D K) : String × (C ⊕ K) := (p.1, match p.2 with | .tensor t => .inl (m.data t.store) | .const k => .inr k)

/-- The tensor among the parameters. -/
def asTensor (p : String × Val D K) : Option (Tensor D) := match p.2 with | .tensor t => some t | .const _ => none

omit [DecidableEq D] in
theorem elems_congr {m m' : Mem C} : ∀ ps : List (String × Val D K), (∀ t ∈ ps.filterMap asTensor, m'.data t.store = m.data t.store) → ps.map (elems m') = ps.map (elems m)
  | [], _ => rfl
  | (n, .const k) :: ps, h => by
    rw [List.map_cons, List.map_cons, elems_congr ps fun t ht => h t (by simpa [asTensor] using ht)]
    rfl
  | (n, .tensor t) :: ps, h => by
    rw [List.map_cons, List.map_cons, elems_congr ps fun u hu => h u (by simp only [List.filterMap_cons, asTensor]; exact List.mem_cons_of_mem _ hu)]
    have := h t (by simp [asTensor])
    simp [elems, this]

omit [DecidableEq D] in
theorem onParams_facts {f : Mem C → Tensor D → Tensor D × Mem C} (hf : Faithful f) : ∀ (ps : List (String × Val D K)) (m : Mem C), (∀ t ∈ ps.filterMap asTensor, t.store < m.next) →
    (onParams f m ps).1.map (elems (onParams f m ps).2) = ps.map (elems m) ∧ m.next ≤ (onParams f m ps).2.next ∧
    (∀ t ∈ (onParams f m ps).1.filterMap asTensor, t.store < (onParams f m ps).2.next) ∧ ∀ s, s < m.next → (onParams f m ps).2.data s = m.data s
  | [], m, _ => ⟨rfl, Nat.le_refl _, by simp [onParams], fun _ _ => rfl⟩
  | (n, .const k) :: ps, m, h => by
    obtain ⟨h1, h2, h3, h4⟩ := onParams_facts hf ps m fun t ht => h t (by simpa [asTensor] using ht)
    refine ⟨by simp only [onParams, List.map_cons, h1]; rfl, h2, fun t ht => h3 t ?_, h4⟩
    simpa [onParams, asTensor] using ht
  | (n, .tensor t) :: ps, m, h => by
    obtain ⟨f1, f2, f3, f4⟩ := hf m t (h t (by simp [asTensor]))
    have hps : ∀ u ∈ ps.filterMap asTensor, u.store < m.next := fun u hu => h u (by simp only [List.filterMap_cons, asTensor]; exact List.mem_cons_of_mem _ hu)
    obtain ⟨h1, h2, h3, h4⟩ := onParams_facts hf ps (f m t).2 fun u hu => Nat.lt_of_lt_of_le (hps u hu) f2
    refine ⟨?_, Nat.le_trans f2 h2, ?_, fun s hs => (h4 s (Nat.lt_of_lt_of_le hs f2)).trans (f4 s hs)⟩
    · simp only [onParams, List.map_cons, h1]
      rw [elems_congr ps fun u hu => f4 u.store (hps u hu)]
      simp [elems, h4 _ f3, f1]
    · intro u hu
      simp only [onParams, List.filterMap_cons, asTensor] at hu
      rcases List.mem_cons.1 hu with rfl | hu
      · exact Nat.lt_of_lt_of_le f3 h2
      · exact h3 u hu

omit [DecidableEq D] in
theorem onParams_fresh {f : Mem C → Tensor D → Tensor D × Mem C} (hf : Faithful f) (hn : Fresh f) : ∀ (ps : List (String × Val D K)) (m : Mem C),
    (∀ t ∈ ps.filterMap asTensor, t.store < m.next) → ∀ t ∈ (onParams f m ps).1.filterMap asTensor, m.next ≤ t.store
  | [], m, _ => by simp [onParams]
  | (n, .const k) :: ps, m, h => by
    intro t ht
    exact onParams_fresh hf hn ps m (fun t ht => h t (by simpa [asTensor] using ht)) t (by simpa [onParams, asTensor] using ht)
  | (n, .tensor t) :: ps, m, h => by
    have f2 := (hf m t (h t (by simp [asTensor]))).2.1
    have hps : ∀ u ∈ ps.filterMap asTensor, u.store < m.next := fun u hu => h u (by simp only [List.filterMap_cons, asTensor]; exact List.mem_cons_of_mem _ hu)
    intro u hu
    simp only [onParams, List.filterMap_cons, asTensor] at hu
    rcases List.mem_cons.1 hu with rfl | hu
    · exact hn m t
    · exact Nat.le_trans f2 (onParams_fresh hf hn ps _ (fun u hu => Nat.lt_of_lt_of_le (hps u hu) f2) u hu)

omit [DecidableEq D] in
/-- What holds of every result holds of every tensor among the parameters. -/
theorem onParams_all {f : Mem C → Tensor D → Tensor D × Mem C} {P : Tensor D → Prop} (hf : ∀ m t, P (f m t).1) : ∀ (ps : List (String × Val D K)) (m : Mem C),
    ∀ t ∈ (onParams f m ps).1.filterMap asTensor, P t
  | [], m => by simp [onParams]
  | (n, .const k) :: ps, m => by
    intro t ht
    exact onParams_all hf ps m t (by simpa [onParams, asTensor] using ht)
  | (n, .tensor t) :: ps, m => by
    intro u hu
    simp only [onParams, List.filterMap_cons, asTensor] at hu
    rcases List.mem_cons.1 hu with rfl | hu
    · exact hf m t
    · exact onParams_all hf ps _ u hu

omit [DecidableEq D] in
theorem tensors_eq (q : QTensor D K) : tensors q = q.raw :: q.params.filterMap asTensor := rfl

omit [DecidableEq D] in
theorem view_eq (m : Mem C) (q : QTensor D K) : view m q = (m.data q.raw.store, q.params.map (elems m)) := rfl

omit [DecidableEq D] in
theorem valid_iff {m : Mem C} {q : QTensor D K} : Valid m q ↔ q.raw.store < m.next ∧ ∀ t ∈ q.params.filterMap asTensor, t.store < m.next := by
  unfold Valid stores
  rw [tensors_eq]
  constructor
  · intro h
    exact ⟨h _ List.mem_cons_self, fun t ht => h _ (List.mem_map.2 ⟨t, List.mem_cons_of_mem _ ht, rfl⟩)⟩
  · rintro ⟨h1, h2⟩ s hs
    obtain ⟨t, ht, rfl⟩ := List.mem_map.1 hs
    rcases List.mem_cons.1 ht with rfl | ht
    · exact h1
    · exact h2 t ht

omit [DecidableEq D] in
/-- Both parts together. -/
theorem both_facts {f g : Mem C → Tensor D → Tensor D × Mem C} (hf : Faithful f) (hg : Faithful g) (m : Mem C) (q : QTensor D K) (raw : Tensor D) (hr : raw.store = q.raw.store)
    (hv : Valid m q) :
    let r := onParams f m q.params
    let s := g r.2 raw
    view s.2 (⟨s.1, r.1⟩ : QTensor D K) = view m q ∧ view s.2 q = view m q ∧ Valid s.2 (⟨s.1, r.1⟩ : QTensor D K) ∧ Valid s.2 q ∧ m.next ≤ r.2.next := by
  intro r s
  obtain ⟨v1, v2⟩ := valid_iff.1 hv
  obtain ⟨h1, h2, h3, h4⟩ := onParams_facts hf q.params m v2
  obtain ⟨g1, g2, g3, g4⟩ := hg r.2 raw (by rw [hr]; exact Nat.lt_of_lt_of_le v1 h2)
  have hold : ∀ x, x < m.next → s.2.data x = m.data x := fun x hx => (g4 x (Nat.lt_of_lt_of_le hx h2)).trans (h4 x hx)
  have hle : m.next ≤ s.2.next := Nat.le_trans h2 g2
  refine ⟨?_, ?_, ?_, ?_, h2⟩
  · rw [view_eq, view_eq]
    simp only
    rw [g1, hr, h4 _ v1, elems_congr r.1 fun t ht => g4 t.store (h3 t ht), h1]
  · rw [view_eq, view_eq, hold _ v1, elems_congr q.params fun t ht => hold t.store (v2 t ht)]
  · exact valid_iff.2 ⟨g3, fun t ht => Nat.lt_of_lt_of_le (h3 t ht) g2⟩
  · exact valid_iff.2 ⟨Nat.lt_of_lt_of_le v1 hle, fun t ht => Nat.lt_of_lt_of_le (v2 t ht) hle⟩

omit [DecidableEq D] in
theorem write_other {m : Mem C} {q : QTensor D K} {s : Nat} {c : C} (h : s ∉ stores q) : view (m.write s c) q = view m q := by
  have hne : ∀ t ∈ tensors q, (m.write s c).data t.store = m.data t.store := by
    intro t ht
    simp only [Mem.write]
    rw [if_neg]
    rintro rfl
    exact h (List.mem_map.2 ⟨t, ht, rfl⟩)
  rw [view_eq, view_eq, hne q.raw (by rw [tensors_eq]; exact List.mem_cons_self),
    elems_congr q.params fun t ht => hne t (by rw [tensors_eq]; exact List.mem_cons_of_mem _ ht)]

/-! ## Properties -/

/-- **C144.** Cloning, detaching, moving and making contiguous keep the data and every parameter, and so the dequantized value; and they do not change the
original. -/
theorem same_value (op : Op D) (m : Mem C) (q : QTensor D K) (hv : Valid m q) :
    view (onQuantized op m q).2 (onQuantized op m q).1 = view m q ∧ view (onQuantized op m q).2 q = view m q ∧
    Valid (onQuantized op m q).2 (onQuantized op m q).1 ∧ Valid (onQuantized op m q).2 q :=
  have h := both_facts (onTensor_faithful op) (onTensor_faithful op) m q q.raw rfl hv
  ⟨h.1, h.2.1, h.2.2.1, h.2.2.2.1⟩

/-- **C144.** A clone shares nothing with the original: writing in place to the data or a parameter of either does not change the other. -/
theorem clone_independent (m : Mem C) (q : QTensor D K) (hv : Valid m q) (s : Nat) (c : C) :
    let r := onQuantized .clone m q
    (s ∈ stores q → view (r.2.write s c) r.1 = view m q) ∧ (s ∈ stores r.1 → view (r.2.write s c) q = view m q) := by
  intro r
  obtain ⟨e1, e2, -, -⟩ := same_value .clone m q hv
  have hnew : ∀ x ∈ stores r.1, m.next ≤ x := by
    intro x hx
    obtain ⟨t, ht, rfl⟩ := List.mem_map.1 hx
    rw [tensors_eq] at ht
    rcases List.mem_cons.1 ht with rfl | ht
    · exact (both_facts (onTensor_faithful .clone) (onTensor_faithful .clone) m q q.raw rfl hv).2.2.2.2
    · exact onParams_fresh (onTensor_faithful .clone) (fun _ _ => Nat.le_refl _) q.params m (valid_iff.1 hv).2 t ht
  constructor
  · intro hs
    rw [write_other fun h => absurd (hv s hs) (Nat.not_lt.2 (hnew s h))]
    exact e1
  · intro hs
    rw [write_other fun h => absurd (hv s h) (Nat.not_lt.2 (hnew s hs))]
    exact e2

/-- **C144.** A detached tensor shares data and all parameters with the original, and none of them takes part in autograd. -/
theorem detach_shares (m : Mem C) (q : QTensor D K) :
    let r := onQuantized .detach m q
    stores r.1 = stores q ∧ r.2 = m ∧ ∀ t ∈ tensors r.1, t.grad = .none := by
  intro r
  have hp : ∀ (ps : List (String × Val D K)), ((onParams (onTensor .detach) m ps).1.filterMap asTensor).map (·.store) = (ps.filterMap asTensor).map (·.store) ∧
      (onParams (onTensor .detach) m ps).2 = m := by
    intro ps
    induction ps with
    | nil => exact ⟨rfl, rfl⟩
    | cons p ps ih =>
      obtain ⟨n, v⟩ := p
      cases v with
      | tensor t =>
        refine ⟨?_, ih.2⟩
        simp only [onParams, onTensor, List.filterMap_cons, asTensor, List.map_cons]
        rw [← ih.1]
      | const k =>
        refine ⟨?_, ih.2⟩
        exact ih.1
  refine ⟨?_, (hp q.params).2, ?_⟩
  · have := (hp q.params).1
    unfold stores
    rw [tensors_eq, tensors_eq, List.map_cons, List.map_cons]
    exact congrArg _ this
  · intro t ht
    rw [tensors_eq] at ht
    rcases List.mem_cons.1 ht with rfl | ht
    · rfl
    · exact onParams_all (P := fun t => t.grad = .none) (fun _ _ => rfl) q.params m t ht

/-- **C144.** Moving moves the data and every parameter to the device. -/
theorem all_moved (m : Mem C) (q : QTensor D K) (d : D) : ∀ t ∈ tensors (onQuantized (.to d) m q).1, t.dev = d := by
  have h1 : ∀ (m : Mem C) (t : Tensor D), (onTensor (.to d) m t).1.dev = d := by
    intro m t
    simp only [onTensor]
    split
    · assumption
    · rfl
  intro t ht
  rw [tensors_eq] at ht
  rcases List.mem_cons.1 ht with rfl | ht
  · exact h1 _ _
  · exact onParams_all (P := fun t => t.dev = d) h1 q.params m t ht

/-- **C144.** Making contiguous makes the data and every parameter contiguous. -/
theorem all_contiguous (m : Mem C) (q : QTensor D K) : ∀ t ∈ tensors (onQuantized .contiguous m q).1, t.contig = true := by
  have h1 : ∀ (m : Mem C) (t : Tensor D), (onTensor .contiguous m t).1.contig = true := by
    intro m t
    simp only [onTensor]
    split
    · assumption
    · rfl
  intro t ht
  rw [tensors_eq] at ht
  rcases List.mem_cons.1 ht with rfl | ht
  · exact h1 _ _
  · exact onParams_all (P := fun t => t.contig = true) h1 q.params m t ht

omit [DecidableEq D] in
/-- **C144.** A deep copy is refused iff the data or a parameter is a result of autograd; else it has the same value and shares nothing with the original. -/
theorem deep_copy (m : Mem C) (q : QTensor D K) (hv : Valid m q) : (deepCopy m q = none ↔ ∃ t ∈ tensors q, t.grad = .node) ∧
    ∀ q' m', deepCopy m q = some (q', m') → view m' q' = view m q ∧ ∀ (s : Nat) (c : C),
      (s ∈ stores q → view (m'.write s c) q' = view m q) ∧ (s ∈ stores q' → view (m'.write s c) q = view m q) := by
  refine ⟨?_, ?_⟩
  · unfold deepCopy
    split
    · rename_i h
      simpa using h
    · rename_i h
      simp only [reduceCtorEq, false_iff]
      rintro ⟨t, ht, hg⟩
      exact h (List.any_eq_true.2 ⟨t, ht, by simpa using hg⟩)
  · intro q' m' h
    unfold deepCopy at h
    split at h
    · cases h
    · injection h with h
      injection h with h1 h2
      subst h1 h2
      obtain ⟨e1, e2, -, -, hle⟩ := both_facts deepTensor_faithful deepTensor_faithful m q { q.raw with grad := .none } rfl hv
      have hnew : ∀ x ∈ stores (⟨(deepTensor (onParams deepTensor m q.params).2 { q.raw with grad := .none }).1, (onParams deepTensor m q.params).1⟩ : QTensor D K), m.next ≤ x := by
        intro x hx
        obtain ⟨t, ht, rfl⟩ := List.mem_map.1 hx
        rw [tensors_eq] at ht
        rcases List.mem_cons.1 ht with rfl | ht
        · exact hle
        · exact onParams_fresh deepTensor_faithful (fun _ _ => Nat.le_refl _) q.params m (valid_iff.1 hv).2 t ht
      refine ⟨e1, fun s c => ⟨fun hs => ?_, fun hs => ?_⟩⟩
      · rw [write_other fun h => absurd (hv s hs) (Nat.not_lt.2 (hnew s h))]
        exact e1
      · rw [write_other fun h => absurd (hv s h) (Nat.not_lt.2 (hnew s hs))]
        exact e2

/-- **C144 (partial).** The methods return quantized tensors.

Missing: export mode (`real_in_export`). -/
theorem quantized_partial {A : Type} (deq : C × List (String × (C ⊕ K)) → A) (op : Op D) (m : Mem C) (q : QTensor D K) :
    method deq false op m q = (.quantized (onQuantized op m q).1, (onQuantized op m q).2) := by
  cases op <;> rfl

/-! ## Deviations -/

/-- **C144, deviation.** In export mode clones, detached and contiguous tensors are not quantized, but real values; those moved to a device stay quantized. -/
theorem real_in_export {A : Type} (deq : C × List (String × (C ⊕ K)) → A) (op : Op D) (m : Mem C) (q : QTensor D K) (hv : Valid m q) :
    (∃ d, op = .to d ∧ (method deq true op m q).1 = .quantized (onQuantized op m q).1) ∨ (method deq true op m q).1 = .real (deq (view m q)) := by
  have h := (same_value op m q hv).1
  cases op with
  | to d => exact .inl ⟨d, rfl, rfl⟩
  | clone => exact .inr (by simp only [method, if_true, h])
  | detach => exact .inr (by simp only [method, if_true, h])
  | contiguous => exact .inr (by simp only [method, if_true, h])

omit [DecidableEq D] in
/-- **C144, deviation.** A deep copy of a quantized tensor that requires a gradient does not require one, unlike that of a plain tensor; its parameters do. -/
theorem deep_forgets_gradient (m : Mem C) (q q' : QTensor D K) (m' : Mem C) (h : deepCopy m q = some (q', m')) : q'.raw.grad = .none := by
  unfold deepCopy at h
  split at h
  · cases h
  · injection h with h
    injection h with h1 h2
    subst h1
    rfl

/-- **C144, deviation.** `contiguous` never returns the tensor itself, as it does for plain tensors that are contiguous, although it tests for that: `raw_data` is a
new object at each use. -/
theorem contiguous_never_self (next : Nat) (contig sameContext : Bool) : returnsSelf next contig sameContext = false := by
  unfold returnsSelf
  cases contig <;> simp

/-! ## Concrete cases -/

/-- Data in memory 0, a scale that is a parameter to learn in memory 1, and a number of bits. -/
def sample : QTensor Bool Nat := ⟨⟨0, false, false, .node⟩, [("scale", .tensor ⟨1, false, true, .leaf⟩), ("num_bits", .const 8)]⟩

def memory : Mem Nat := ⟨fun s => if s = 0 then 42 else 7, 2⟩

example : Valid memory sample := by simp [Valid, stores, tensors, sample, memory]

example : view memory sample = (42, [("scale", .inl 7), ("num_bits", .inr 8)]) ∧
    (onQuantized .clone memory sample).1 = ⟨⟨3, false, false, .node⟩, [("scale", .tensor ⟨2, false, true, .node⟩), ("num_bits", .const 8)]⟩ ∧
    (onQuantized .contiguous memory sample).1 = ⟨⟨2, false, true, .node⟩, [("scale", .tensor ⟨1, false, true, .leaf⟩), ("num_bits", .const 8)]⟩ ∧
    (deepCopy memory sample).isNone ∧ (deepCopy memory { sample with raw := ⟨0, false, false, .leaf⟩ }).isSome := by decide

end FF.CopyTensor
