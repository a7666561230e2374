import Verif.Orch.Module

/-!
# The inputs of a graph module call (C83)

Models `_sanitize_inputs` of `/repo/src/fastforward/_orchestration/graph_module.py` (247-297), its use in `forward` (734), and
`ActivationDataset.from_value` (`instruction_engine.py:84-100`) on Python values.
-/

namespace FF.Orch

variable {V W : Type}

/-! ### Model -/

/-- What the code asks of Python values. -/
structure Py (V : Type) where
  /-- `isinstance(v, torch.Tensor)`. -/
  isTensor : V → Bool
  /-- `list(v)`; `none` if `v` is not iterable. -/
  iter : V → Option (List V)
  /-- `isinstance(v, Mapping)`. -/
  isMapping : V → Bool
  /-- `name in v`, for mappings. -/
  has : V → String → Bool
  /-- `v[name]`; `none` if it raises. -/
  get : V → String → Option V
  /-- `len(v)` of a list or tuple; `none` for other values. -/
  seqLen : V → Option ℕ
  /-- `v[i]`; `none` if it raises. -/
  nth : V → ℕ → Option V
  /-- `getattr(v, name)`; `none` if there is no such attribute. -/
  attr : V → String → Option V
  /-- The elements of a list, data loader or activation dataset; `none` for other values. -/
  listed : V → Option (List V)

/-- `from_value` (84-100). -/
def Py.raw (py : Py V) (v : V) : RawInput V :=
  match py.listed v with
  | some vs => .batches vs
  | none => .single v

/-- The values that are passed on to the engine. -/
structure Passed (V : Type) where
  args : List (RawInput V) := []
  kwargs : List (String × RawInput V) := []

/-- `return args, kwargs`. -/
def Py.passOn (py : Py V) (args : List V) (kwargs : List (String × V)) : Passed V where
  args := args.map py.raw
  kwargs := kwargs.map fun p => (p.1, py.raw p.2)

/-- `[part(b) for b in batches]`. -/
def column (part : V → Option V) (batches : List V) : Except EErr (RawInput V) :=
  match batches.mapM part with
  | some vs => .ok (.batches vs)
  | none => .error .lookupError

/-- `{name: [part(b, name) for b in batches] for name in names}`. -/
def columns (part : String × ℕ → V → Option V) (batches : List V) : List (String × ℕ) → Except EErr (List (String × RawInput V))
  | [] => .ok []
  | n :: ns =>
    match column (part n) batches with
    | .error e => .error e
    | .ok c => (columns part batches ns).map ((n.1, c) :: ·)

/-- The end of `_sanitize_inputs` (282-297) for batches `first, *rest`. -/
def Py.project (py : Py V) (names : List String) (first : V) (rest : List V) : Except EErr (Passed V) :=
  if py.isMapping first && names.all (py.has first ·) then (columns (fun n b => py.get b n.1) (first :: rest) names.zipIdx).map fun kw => ⟨[], kw⟩
  else if py.seqLen first = some names.length then (columns (fun n b => py.nth b n.2) (first :: rest) names.zipIdx).map fun kw => ⟨[], kw⟩
  else if !py.isTensor first && names.all fun n => (py.attr first n).isSome then
    (columns (fun n b => py.attr b n.1) (first :: rest) names.zipIdx).map fun kw => ⟨[], kw⟩
  else .ok ⟨[.batches (first :: rest)], []⟩

/-- `_sanitize_inputs` (247-297). -/
def Py.sanitize (py : Py V) (names : List String) (args : List V) (kwargs : List (String × V)) : Except EErr (Passed V) :=
  match args, kwargs with
  | [v], [] =>
    if py.isTensor v then .ok (py.passOn [v] [])
    else match py.iter v with
      | none => .ok (py.passOn [v] [])
      | some [] => .ok (py.passOn [v] [])
      | some (first :: rest) => py.project names first rest
  | args, kwargs => .ok (py.passOn args kwargs)

/-- `forward` (718-761). -/
def GM.forward (py : Py V) (sem : Sem V W) (m : GM) (w : W) (args : List V) (kwargs : List (String × V)) : W × Except EErr (Result V) :=
  match py.sanitize m.graph.inputs args kwargs with
  | .error e => (w, .error e)
  | .ok p => m.call sem w p.args p.kwargs

/-! ### Specification -/

/-- The ways in which a batch can hold one value for each input. -/
inductive Shape where
  | mapping
  | sequence
  | record

/-- Batch `b` holds value `v` for input `n`, which is number `i`. -/
def Holds (py : Py V) : Shape → V → ℕ → String → V → Prop
  | .mapping, b, _, n, v => py.get b n = some v
  | .sequence, b, i, _, v => py.nth b i = some v
  | .record, b, _, n, v => py.attr b n = some v

/-- The shape of a batch, for inputs `names`. -/
def HasShape (py : Py V) (names : List String) : Shape → V → Prop
  | .mapping, b => py.isMapping b = true ∧ ∀ n ∈ names, py.has b n = true
  | .sequence, b => py.isMapping b = false ∧ py.seqLen b = some names.length
  | .record, b => py.isMapping b = false ∧ py.isTensor b = false ∧ ∀ n ∈ names, (py.attr b n).isSome

/-- A batch with none of the shapes: the value of one input. -/
structure NoShape (py : Py V) (names : List String) (b : V) : Prop where
  mapping : py.isMapping b = false ∨ ∃ n ∈ names, py.has b n = false
  sequence : py.seqLen b ≠ some names.length
  record : py.isTensor b = true ∨ ∃ n ∈ names, py.attr b n = none

/-- Python: mappings have the keys they say, sequences the positions up to their length. -/
structure Py.Sane (py : Py V) : Prop where
  get : ∀ b n, py.isMapping b = true → py.has b n = true → (py.get b n).isSome
  nth : ∀ b k i, py.seqLen b = some k → i < k → (py.nth b i).isSome

/-- `vs` are the values that the batches hold for input `n`, in order. -/
def Column (py : Py V) (s : Shape) (i : ℕ) (n : String) (batches vs : List V) : Prop := List.Forall₂ (fun b v => Holds py s b i n v) batches vs

/-! ### Lemmas -/

theorem mapM_some {α β : Type} {f : α → Option β} {l : List α} (h : ∀ a ∈ l, (f a).isSome) : ∃ r, l.mapM f = some r ∧ List.Forall₂ (fun a b => f a = some b) l r := by
  induction l with
  | nil => exact ⟨[], rfl, .nil⟩
  | cons a l ih =>
    obtain ⟨b, hb⟩ := Option.isSome_iff_exists.1 (h a (by simp))
    obtain ⟨r, h1, h2⟩ := ih fun x hx => h x (by simp [hx])
    exact ⟨b :: r, by simp [List.mapM_cons, hb, h1], .cons hb h2⟩

theorem columns_ok {part : String × ℕ → V → Option V} {batches : List V} {ns : List (String × ℕ)}
    (h : ∀ n ∈ ns, ∀ b ∈ batches, (part n b).isSome) :
    ∃ kw, columns part batches ns = .ok kw ∧
      List.Forall₂ (fun (n : String × ℕ) (p : String × RawInput V) => p.1 = n.1 ∧ ∃ vs, p.2 = .batches vs ∧ List.Forall₂ (fun b v => part n b = some v) batches vs) ns kw := by
  induction ns with
  | nil => exact ⟨[], rfl, .nil⟩
  | cons n ns ih =>
    obtain ⟨vs, h1, h2⟩ := mapM_some (f := part n) (l := batches) (h n (by simp))
    obtain ⟨kw, h3, h4⟩ := ih fun n' hn' => h n' (by simp [hn'])
    refine ⟨(n.1, .batches vs) :: kw, ?_, .cons ⟨rfl, vs, rfl, h2⟩ h4⟩
    simp only [columns, column, h1, h3, Except.map]

theorem project_shape {py : Py V} (hp : py.Sane) {names : List String} {first : V} {rest : List V} (s : Shape)
    (h : ∀ b ∈ first :: rest, HasShape py names s b) (hseq : s = .record → py.seqLen first ≠ some names.length) :
    ∃ kw, py.project names first rest = .ok ⟨[], kw⟩ ∧ List.Forall₂ (fun (n : String × ℕ) (p : String × RawInput V) =>
      p.1 = n.1 ∧ ∃ vs, p.2 = .batches vs ∧ Column py s n.2 n.1 (first :: rest) vs) names.zipIdx kw := by
  have hidx : ∀ n ∈ names.zipIdx, n.1 ∈ names ∧ n.2 < names.length := by
    intro n hn
    rw [List.mem_zipIdx_iff_getElem?] at hn
    exact ⟨List.mem_of_getElem? hn, (List.getElem?_eq_some_iff.1 hn).1⟩
  have hf := h first (by simp)
  cases s with
  | mapping =>
    obtain ⟨kw, h1, h2⟩ := columns_ok (part := fun n b => py.get b n.1) (batches := first :: rest) (ns := names.zipIdx)
      fun n hn b hb => hp.get b n.1 (h b hb).1 ((h b hb).2 n.1 (hidx n hn).1)
    refine ⟨kw, ?_, h2⟩
    have hc : (py.isMapping first && names.all (py.has first ·)) = true := by
      rw [hf.1, Bool.true_and, List.all_eq_true]
      exact hf.2
    unfold Py.project
    rw [if_pos hc, h1]
    rfl
  | sequence =>
    obtain ⟨kw, h1, h2⟩ := columns_ok (part := fun n b => py.nth b n.2) (batches := first :: rest) (ns := names.zipIdx)
      fun n hn b hb => hp.nth b _ n.2 (h b hb).2 (hidx n hn).2
    refine ⟨kw, ?_, h2⟩
    unfold Py.project
    rw [if_neg (by rw [hf.1]; simp), if_pos hf.2, h1]
    rfl
  | record =>
    obtain ⟨kw, h1, h2⟩ := columns_ok (part := fun n b => py.attr b n.1) (batches := first :: rest) (ns := names.zipIdx)
      fun n hn b hb => (h b hb).2.2 n.1 (hidx n hn).1
    refine ⟨kw, ?_, h2⟩
    have hc : (!py.isTensor first && names.all fun n => (py.attr first n).isSome) = true := by
      rw [hf.2.1, Bool.not_false, Bool.true_and, List.all_eq_true]
      exact hf.2.2
    unfold Py.project
    rw [if_neg (by rw [hf.1]; simp), if_neg (hseq rfl), if_pos hc, h1]
    rfl

theorem project_noShape {py : Py V} {names : List String} {first : V} {rest : List V} (h : NoShape py names first) :
    py.project names first rest = .ok ⟨[.batches (first :: rest)], []⟩ := by
  unfold Py.project
  rw [if_neg, if_neg h.sequence, if_neg]
  · rcases h.record with h | ⟨n, hn, h⟩
    · simp [h]
    · intro hc
      simp only [Bool.and_eq_true, List.all_eq_true] at hc
      have := hc.2 n hn
      rw [h] at this
      simp at this
  · rcases h.mapping with h | ⟨n, hn, h⟩
    · simp [h]
    · intro hc
      simp only [Bool.and_eq_true, List.all_eq_true] at hc
      have := hc.2 n hn
      rw [h] at this
      simp at this

theorem call_position_keyword (sem : Sem V W) (m : GM) (w : W) (x : String) (hx : m.graph.inputs = [x]) (u : RawInput V) :
    m.call sem w [u] [] = m.call sem w [] [(x, u)] := by
  have h : ∀ cs, prepareRegister m.graph.inputs [u] [] cs = prepareRegister m.graph.inputs [] [(x, u)] cs := by
    intro cs
    unfold prepareRegister
    have : bindInputs m.graph.inputs [u] [] = bindInputs m.graph.inputs [] [(x, u)] := by
      rw [hx]
      simp [bindInputs, bindStep]
    rw [this]
  unfold GM.call
  simp only [h]

/-! ### Properties -/

/-- **C83 (partial).** Calling a graph with one iterable of batches, each a mapping, a sequence or a record that holds a value for every input, is
calling it with one list for each input: the values that the batches hold for it, in order.

Missing: records that are tuples too, with as many fields as there are inputs, which are read by position (`named_tuple_by_position`). -/
theorem call_per_input_partial (py : Py V) (hp : py.Sane) (sem : Sem V W) (m : GM) (w : W) (v first : V) (rest : List V) (hv : py.isTensor v = false)
    (hi : py.iter v = some (first :: rest)) (s : Shape) (hs : ∀ b ∈ first :: rest, HasShape py m.graph.inputs s b)
    (hseq : s = .record → py.seqLen first ≠ some m.graph.inputs.length) :
    ∃ kw, m.forward py sem w [v] [] = m.call sem w [] kw ∧ kw.map (·.1) = m.graph.inputs ∧
      ∀ (i : ℕ) n u, kw[i]? = some (n, u) → ∃ vs, u = .batches vs ∧ Column py s i n (first :: rest) vs := by
  obtain ⟨kw, h1, h2⟩ := project_shape hp s hs hseq
  refine ⟨kw, ?_, ?_, ?_⟩
  · simp only [GM.forward, Py.sanitize, hv, hi, h1, Bool.false_eq_true, if_false]
  · apply List.ext_getElem?
    intro i
    rw [List.forall₂_iff_get] at h2
    by_cases hlt : i < kw.length
    · have hlt' : i < m.graph.inputs.zipIdx.length := by omega
      have := (h2.2 i hlt' hlt).1
      simp only [List.get_eq_getElem, List.getElem_zipIdx] at this
      have hlt2 : i < m.graph.inputs.length := by simpa using hlt'
      rw [List.getElem?_map, List.getElem?_eq_getElem hlt, List.getElem?_eq_getElem hlt2, Option.map_some, this]
    · have hlt2 : ¬ i < m.graph.inputs.length := by
        have := h2.1
        simp at this
        omega
      rw [List.getElem?_eq_none (by simpa using hlt), List.getElem?_eq_none (by omega)]
  · intro i n u hiu
    obtain ⟨hlt, he⟩ := List.getElem?_eq_some_iff.1 hiu
    rw [List.forall₂_iff_get] at h2
    have hlt' : i < m.graph.inputs.zipIdx.length := by omega
    obtain ⟨q1, vs, q2, q3⟩ := h2.2 i hlt' hlt
    simp only [List.get_eq_getElem, List.getElem_zipIdx, he] at q1 q2 q3
    exact ⟨vs, q2, by rw [q1]; simpa using q3⟩

/-- **C83.** Other calls pass their arguments on as they are: several or no positional arguments, keyword arguments, a tensor, and something that
cannot be iterated or is empty. -/
theorem call_passes_on (py : Py V) (sem : Sem V W) (m : GM) (w : W) (args : List V) (kwargs : List (String × V))
    (h : args.length ≠ 1 ∨ kwargs ≠ [] ∨ ∀ v ∈ args, py.isTensor v = true ∨ py.iter v = none ∨ py.iter v = some []) :
    m.forward py sem w args kwargs = m.call sem w (args.map py.raw) (kwargs.map fun p => (p.1, py.raw p.2)) := by
  have hs : py.sanitize m.graph.inputs args kwargs = .ok (py.passOn args kwargs) := by
    match args, kwargs with
    | [], _ => rfl
    | _ :: _ :: _, _ => rfl
    | [v], _ :: _ => rfl
    | [v], [] =>
      simp only [List.length_singleton, ne_eq, not_true_eq_false, List.mem_singleton, forall_eq, false_or] at h
      simp only [Py.sanitize]
      rcases h with h | h | h
      · rw [if_pos h]
      · rw [h]
        split <;> rfl
      · rw [h]
        split <;> rfl
  simp only [GM.forward, hs]
  rfl

/-- **C83.** One iterable of other values is a list of batches for one input. -/
theorem call_batches (py : Py V) (sem : Sem V W) (m : GM) (w : W) (v first : V) (rest : List V) (hv : py.isTensor v = false)
    (hi : py.iter v = some (first :: rest)) (hs : NoShape py m.graph.inputs first) :
    m.forward py sem w [v] [] = m.call sem w [.batches (first :: rest)] [] := by
  simp only [GM.forward, Py.sanitize, hv, hi, Bool.false_eq_true, if_false, project_noShape hs]

/-- **C83 (partial).** For a graph with one input it makes no difference whether a value is passed by position or by keyword, for tensors, values that
cannot be iterated, and lists of batches that are values of the input.

Missing: other values that can be iterated, as tuples and mappings, for which it does (`iterable_argument_split`). -/
theorem position_or_keyword_partial (py : Py V) (sem : Sem V W) (m : GM) (w : W) (x : String) (hx : m.graph.inputs = [x]) (v : V)
    (h : py.isTensor v = true ∨ py.iter v = none ∨ py.iter v = some [] ∨
      (py.listed v = py.iter v ∧ ∀ b bs, py.iter v = some (b :: bs) → NoShape py [x] b)) :
    m.forward py sem w [v] [] = m.forward py sem w [] [(x, v)] := by
  have hk : m.forward py sem w [] [(x, v)] = m.call sem w [] [(x, py.raw v)] := call_passes_on py sem m w [] [(x, v)] (Or.inl (by simp))
  rw [hk, ← call_position_keyword sem m w x hx]
  by_cases ht : py.isTensor v = true
  · exact call_passes_on py sem m w [v] [] (Or.inr (Or.inr (by simp [ht])))
  · have ht' : py.isTensor v = false := by simpa using ht
    cases hi : py.iter v with
    | none => exact call_passes_on py sem m w [v] [] (Or.inr (Or.inr (by simp [hi])))
    | some l =>
      cases l with
      | nil => exact call_passes_on py sem m w [v] [] (Or.inr (Or.inr (by simp [hi])))
      | cons b bs =>
        rcases h with h | h | h | ⟨h1, h2⟩
        · exact absurd h ht
        · rw [hi] at h
          simp at h
        · rw [hi] at h
          simp at h
        · rw [call_batches py sem m w v b bs ht' hi (hx ▸ h2 b bs hi)]
          simp only [Py.raw, h1, hi]

/-! ### Deviations -/

/-- **C83, deviation.** A value that can be iterated but is no list, as a tuple of tensors or a mapping, is taken apart when it is passed by position to a
graph with one input: its elements (the keys of a mapping) become batches. Passed by keyword it is one value. -/
theorem iterable_argument_split (py : Py V) (sem : Sem V W) (m : GM) (w : W) (x : String) (v first : V) (rest : List V)
    (hv : py.isTensor v = false) (hl : py.listed v = none) (hi : py.iter v = some (first :: rest)) (hs : NoShape py m.graph.inputs first) :
    m.forward py sem w [v] [] = m.call sem w [.batches (first :: rest)] [] ∧ m.forward py sem w [] [(x, v)] = m.call sem w [] [(x, .single v)] := by
  refine ⟨call_batches py sem m w v first rest hv hi hs, ?_⟩
  rw [call_passes_on py sem m w [] [(x, v)] (Or.inl (by simp))]
  simp [Py.raw, hl]

/-- **C83, deviation.** Batches that are named tuples with as many fields as the graph has inputs are read by position, whatever their fields are named:
a batch whose fields are the inputs in another order is bound to the wrong inputs. -/
theorem named_tuple_by_position (py : Py V) (sem : Sem V W) (m : GM) (w : W) (v b p q : V) (hx : m.graph.inputs = ["x", "y"])
    (hv : py.isTensor v = false) (hi : py.iter v = some [b]) (hm : py.isMapping b = false) (hs : py.seqLen b = some 2) (h0 : py.nth b 0 = some p)
    (h1 : py.nth b 1 = some q) (_hy : py.attr b "y" = some p) (_hx : py.attr b "x" = some q) :
    m.forward py sem w [v] [] = m.call sem w [] [("x", .batches [p]), ("y", .batches [q])] := by
  simp [GM.forward, Py.sanitize, hv, hi, Py.project, hm, hs, hx, columns, column, List.mapM_cons, h0, h1, Except.map, List.zipIdx]

/-- **C83, deviation.** A graph without inputs accepts an iterable of values that are no tensors, and ignores it, instead of refusing the call. -/
theorem argument_without_input (py : Py V) (sem : Sem V W) (m : GM) (w : W) (hx : m.graph.inputs = []) (v first : V) (rest : List V)
    (hv : py.isTensor v = false) (hi : py.iter v = some (first :: rest)) (hf : py.isTensor first = false) :
    m.forward py sem w [v] [] = m.forward py sem w [] [] := by
  have h1 : py.project [] first rest = .ok ⟨[], []⟩ := by
    unfold Py.project
    split
    · rfl
    · split
      · rfl
      · rw [if_pos (by simp [hf])]
        rfl
  simp only [GM.forward, Py.sanitize, hv, hi, hx, h1, Bool.false_eq_true, if_false]
  rfl

/-- **C83, deviation.** Only the first batch is checked: later sequences with more values than inputs are accepted and the surplus is ignored. -/
theorem surplus_values_ignored (py : Py V) (sem : Sem V W) (m : GM) (w : W) (v first b b' : V) (k : ℕ) (hv : py.isTensor v = false) (v' : V)
    (hv' : py.isTensor v' = false) (hi : py.iter v = some [first, b]) (hi' : py.iter v' = some [first, b']) (hm : py.isMapping first = false)
    (hs : py.seqLen first = some m.graph.inputs.length) (_hb : py.seqLen b = some (m.graph.inputs.length + k))
    (hsame : ∀ i < m.graph.inputs.length, py.nth b i = py.nth b' i) :
    m.forward py sem w [v] [] = m.forward py sem w [v'] [] := by
  have hcol : ∀ ns : List (String × ℕ), (∀ n ∈ ns, n.2 < m.graph.inputs.length) →
      columns (fun n b => py.nth b n.2) [first, b] ns = columns (fun n b => py.nth b n.2) [first, b'] ns := by
    intro ns
    induction ns with
    | nil => exact fun _ => rfl
    | cons n ns ih =>
      intro h
      unfold columns
      rw [ih fun n' hn' => h n' (by simp [hn'])]
      have : column (fun b => py.nth b n.2) [first, b] = column (fun b => py.nth b n.2) [first, b'] := by
        simp only [column, List.mapM_cons, hsame n.2 (h n (by simp))]
      rw [this]
  have hidx : ∀ n ∈ m.graph.inputs.zipIdx, n.2 < m.graph.inputs.length := by
    intro n hn
    rw [List.mem_zipIdx_iff_getElem?] at hn
    exact (List.getElem?_eq_some_iff.1 hn).1
  have h1 : py.project m.graph.inputs first [b] = py.project m.graph.inputs first [b'] := by
    unfold Py.project
    simp only [hm, Bool.false_and, Bool.false_eq_true, if_false, hs, if_true, hcol _ hidx]
  simp only [GM.forward, Py.sanitize, hv, hv', hi, hi', h1, Bool.false_eq_true, if_false]

/-! ### Concrete cases -/

/-- Python values: tensors, lists, tuples, dictionaries, named tuples and objects with attributes. -/
inductive PV where
  | tensor (n : ℤ)
  | str (s : String)
  | list (l : List PV)
  | tup (l : List PV)
  | dict (l : List (String × PV))
  | named (l : List (String × PV))
  | obj (l : List (String × PV))

def pv : Py PV where
  isTensor v := match v with | .tensor _ => true | _ => false
  iter v := match v with
    | .list l => some l
    | .tup l => some l
    | .dict l => some (l.map fun p => .str p.1)
    | .named l => some (l.map (·.2))
    | _ => none
  isMapping v := match v with | .dict _ => true | _ => false
  has v n := match v with | .dict l => (l.lookup n).isSome | _ => false
  get v n := match v with | .dict l => l.lookup n | _ => none
  seqLen v := match v with
    | .list l => some l.length
    | .tup l => some l.length
    | .named l => some l.length
    | _ => none
  nth v i := match v with
    | .list l => l[i]?
    | .tup l => l[i]?
    | .named l => l[i]?.map (·.2)
    | _ => none
  attr v n := match v with
    | .named l => l.lookup n
    | .obj l => l.lookup n
    | _ => none
  listed v := match v with | .list l => some l | _ => none

theorem pv_sane : pv.Sane where
  get b n h1 h2 := by
    cases b <;> first | (simp [pv] at h1; done) | exact h2
  nth b k i h hi := by
    cases b with
    | list l =>
      simp only [pv, Option.some.injEq] at h
      simp [pv, h, hi]
    | tup l =>
      simp only [pv, Option.some.injEq] at h
      simp [pv, h, hi]
    | named l =>
      simp only [pv, Option.some.injEq] at h
      simp [pv, h, hi]
    | _ => simp [pv] at h

/-- A module returns the tuple of its arguments. -/
def tupleSem : Sem PV Unit where
  constVal _ := .tup []
  item _ _ := none
  getattr _ _ := none
  call _ _ _ args kw := some (.tup (args ++ kw.map (·.2)))
  optimize w _ _ _ := some w
  move _ v := v
  moveModule w _ _ := w

def two : GM := GM.steps {} ([.addInput "x", .addInput "y", .addNode (callNode 0 [.input "x", .input "y"]), .addOutput [.node 0]] : List (Use PV))
def oneInput : GM := GM.steps {} ([.addInput "x", .addNode (callNode 0 [.input "x"]), .addOutput [.node 0]] : List (Use PV))

/-- Two batches as dictionaries, with another key, and as tuples. -/
example : two.forward pv tupleSem () [.list [.dict [("y", .tensor 2), ("x", .tensor 1)], .dict [("x", .tensor 3), ("z", .tensor 5), ("y", .tensor 4)]]] [] =
    ((), .ok (.all [(0, [[.tup [.tensor 1, .tensor 2]], [.tup [.tensor 3, .tensor 4]]])])) := by rfl

example : two.forward pv tupleSem () [.list [.tup [.tensor 1, .tensor 2], .tup [.tensor 3, .tensor 4]]] [] =
    ((), .ok (.all [(0, [[.tup [.tensor 1, .tensor 2]], [.tup [.tensor 3, .tensor 4]]])])) := by rfl

example : ∀ b ∈ [PV.tup [.tensor 1, .tensor 2], .tup [.tensor 3, .tensor 4]], HasShape pv two.graph.inputs .sequence b := by
  intro b hb
  simp only [List.mem_cons, List.not_mem_nil, or_false] at hb
  rcases hb with rfl | rfl <;> exact ⟨rfl, rfl⟩

/-- A tuple by position is two batches, by keyword one value. -/
example : oneInput.forward pv tupleSem () [.tup [.tensor 1, .tensor 2]] [] = ((), .ok (.all [(0, [[.tup [.tensor 1]], [.tup [.tensor 2]]])])) ∧
    oneInput.forward pv tupleSem () [] [("x", .tup [.tensor 1, .tensor 2])] = ((), .ok (.one [.tup [.tup [.tensor 1, .tensor 2]]])) := ⟨rfl, rfl⟩

/-- A dictionary by position becomes its keys. -/
example : oneInput.forward pv tupleSem () [.dict [("a", .tensor 1)]] [] = ((), .ok (.one [.tup [.str "a"]])) := by rfl

example : NoShape pv oneInput.graph.inputs (.tensor 1) := ⟨Or.inl rfl, by simp [pv], Or.inl rfl⟩

/-- Objects with an attribute for each input, read by name. -/
example : two.forward pv tupleSem () [.list [.obj [("y", .tensor 2), ("x", .tensor 1)]]] [] = ((), .ok (.one [.tup [.tensor 1, .tensor 2]])) := by rfl

example : HasShape pv two.graph.inputs .record (.obj [("y", .tensor 2), ("x", .tensor 1)]) := by
  refine ⟨rfl, rfl, ?_⟩
  intro n hn
  have : n = "x" ∨ n = "y" := by simpa [show two.graph.inputs = ["x", "y"] from rfl] using hn
  rcases this with rfl | rfl <;> rfl

/-- The same fields in a named tuple, read by position: `x` is given the field `y`. -/
example : two.forward pv tupleSem () [.list [.named [("y", .tensor 2), ("x", .tensor 1)]]] [] = ((), .ok (.one [.tup [.tensor 2, .tensor 1]])) := by rfl

/-- The surplus of the second batch is dropped. -/
example : two.forward pv tupleSem () [.list [.tup [.tensor 1, .tensor 2], .tup [.tensor 3, .tensor 4, .tensor 5]]] [] =
    ((), .ok (.all [(0, [[.tup [.tensor 1, .tensor 2]], [.tup [.tensor 3, .tensor 4]]])])) := by rfl

end FF.Orch
