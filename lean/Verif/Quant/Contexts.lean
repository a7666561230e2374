/-!
# Quantization contexts

Models `QuantizationContext` and `QuantizationParameters` (`quantization/function.py:23-154`): contexts derived from contexts, and which of them share a parameters object, over
histories that also assign to parameters.  Parameters objects are mutable dataclasses, contexts are frozen.

Simplifications: a parameters object has the fields of its dataclass, in order, and nothing else; an assignment to another attribute changes no field.  Values are opaque.
-/

namespace FF.Contexts

/-! ## Model -/

variable {V F : Type}

/-- The fields of a dataclass instance: `nocopy_asdict`, `dataclasses.py:9-15`. -/
abbrev Fields (V : Type) := List (String × V)

/-- `obj.name`. -/
def get : Fields V → String → Option V
  | [], _ => none
  | (k, v) :: d, n => if k = n then some v else get d n

/-- Parameters objects and contexts in the order in which they are made; a context refers to its parameters object (`function.py:78-87`). -/
structure State (V F : Type) where
  params : List (Fields V) := []
  ctxs : List (F × Nat) := []

/-- What is done with contexts.  `new` makes a parameters object and a context for it, as affine quantization does (`affine/function.py:124-139`).
`adopt` makes a context for the parameters object of context `i`, as functions from `create_quantization_function` do that are given the same parameters again
(`function.py:196-201`), or a call of `QuantizationContext`. -/
inductive Op (V F : Type) where
  | new (fn : F) (fields : Fields V)
  | change (i : Nat) (fn : Option F) (changes : Fields V)
  | convert (i : Nat) (f : V → V)
  | contiguous (i : Nat)
  | assign (i : Nat) (name : String) (v : V)
  | adopt (fn : F) (i : Nat)

/-- `dataclasses.replace(self, **changes)` (`function.py:30-32`): a `TypeError` (`none`) for names that are no fields. -/
def replace (d changes : Fields V) : Option (Fields V) :=
  if changes.all (fun c => d.any (fun e => e.1 == c.1)) then some (d.map fun e => (e.1, (get changes e.1).getD e.2)) else none

/-- A new context with a new parameters object. -/
def State.add (s : State V F) (fn : F) (d : Fields V) : State V F × Option Nat :=
  (⟨s.params ++ [d], s.ctxs ++ [(fn, s.params.length)]⟩, some s.ctxs.length)

/-- One operation: the state after it, and the context that is returned (`none`: nothing, or an exception).  `contig v` says whether `v` is contiguous (or no tensor) and
`make v` is its contiguous copy.  `change`: `with_changes` (89-108).  `convert`: `_apply` (34-40, 110-116), by `clone_parameters`, `detach_parameters` and `to` (118-132, 147-154).
`contiguous`: `contiguous_parameters` (134-145). -/
def step (contig : V → Bool) (make : V → V) (s : State V F) : Op V F → State V F × Option Nat
  | .new fn d => s.add fn d
  | .change i fn changes =>
    match s.ctxs[i]? with
    | none => (s, none)
    | some (fn0, p) =>
      match (s.params[p]?).bind (replace · changes) with
      | none => (s, none)
      | some d => s.add (fn.getD fn0) d
  | .convert i f =>
    match s.ctxs[i]? with
    | none => (s, none)
    | some (fn0, p) =>
      match s.params[p]? with
      | none => (s, none)
      | some d => s.add fn0 (d.map fun e => (e.1, f e.2))
  | .contiguous i =>
    match s.ctxs[i]? with
    | none => (s, none)
    | some (fn0, p) =>
      match s.params[p]? with
      | none => (s, none)
      | some d => if d.all (fun e => contig e.2) then (s, some i) else s.add fn0 (d.map fun e => (e.1, if contig e.2 then e.2 else make e.2))
  | .adopt fn i =>
    match s.ctxs[i]? with
    | none => (s, none)
    | some (_, p) => (⟨s.params, s.ctxs ++ [(fn, p)]⟩, some s.ctxs.length)
  | .assign i n v =>
    match s.ctxs[i]? with
    | none => (s, none)
    | some (_, p) => (⟨s.params.modify p (fun d => d.map fun e => if e.1 = n then (e.1, v) else e), s.ctxs⟩, none)

/-- A history. -/
def run (contig : V → Bool) (make : V → V) (ops : List (Op V F)) : State V F := ops.foldl (fun s o => (step contig make s o).1) {}

/-- What a user sees of context `i`: its function and parameters. -/
def State.read (s : State V F) (i : Nat) : Option (F × Fields V) :=
  match s.ctxs[i]? with
  | none => none
  | some (fn, p) => (s.params[p]?).map (fn, ·)

/-! ## Specification -/

/-- The value of parameter `n` after a change: the one given for it, or else the one it had, `v`. -/
inductive After (changes : Fields V) (n : String) (v : V) : V → Prop where
  | changed {w} : (n, w) ∈ changes → After changes n v w
  | kept : (∀ w, (n, w) ∉ changes) → After changes n v v

/-! ## Lemmas -/

/-- Each context has a parameters object. -/
def Placed (s : State V F) : Prop := ∀ (i : Nat) (c : F × Nat), s.ctxs[i]? = some c → c.2 < s.params.length

theorem append_some {α : Type} {l : List α} {x y : α} {i : Nat} (h : (l ++ [x])[i]? = some y) : l[i]? = some y ∨ (i = l.length ∧ y = x) := by
  rw [List.getElem?_append] at h
  split at h
  · exact .inl h
  · rename_i hi
    have h0 : i - l.length = 0 := by
      rcases Nat.eq_zero_or_pos (i - l.length) with h' | h'
      · exact h'
      · rw [List.getElem?_eq_none (by simp; omega)] at h; cases h
    rw [h0] at h
    simp at h
    exact .inr ⟨by omega, h.symm⟩

theorem placed_add {s : State V F} (h : Placed s) (fn : F) (d : Fields V) : Placed (s.add fn d).1 := by
  intro i c hc
  show c.2 < (s.params ++ [d]).length
  rw [List.length_append, List.length_singleton]
  rcases append_some hc with hc | ⟨_, rfl⟩
  · have := h i c hc; omega
  · exact Nat.lt_succ_self _

theorem placed_step {contig : V → Bool} {make : V → V} {s : State V F} (h : Placed s) (o : Op V F) : Placed (step contig make s o).1 := by
  unfold step
  cases o with
  | new fn d => exact placed_add h fn d
  | assign i n v =>
    dsimp only
    split
    · exact h
    · exact fun i c hc => by simpa using h i c hc
  | adopt fn i =>
    dsimp only
    split
    · exact h
    · rename_i f p hp
      intro j c hc
      rcases append_some hc with hc | ⟨_, rfl⟩
      · exact h j c hc
      · exact h i (f, p) hp
  | _ =>
    dsimp only
    repeat' split
    all_goals first | exact h | exact placed_add h _ _

theorem placed_run (contig : V → Bool) (make : V → V) (ops : List (Op V F)) : Placed (run contig make ops) := by
  unfold run
  have : ∀ s : State V F, Placed s → Placed (ops.foldl (fun s o => (step contig make s o).1) s) := by
    induction ops with
    | nil => exact fun s h => h
    | cons o ops ih => exact fun s h => ih _ (placed_step h o)
  exact this _ fun i c hc => by simp at hc

/-- Each context has a parameters object of its own. -/
def Separate (s : State V F) : Prop :=
  (∀ (i : Nat) (c : F × Nat), s.ctxs[i]? = some c → c.2 < s.params.length) ∧ ∀ (i j : Nat) (c d : F × Nat), s.ctxs[i]? = some c → s.ctxs[j]? = some d → c.2 = d.2 → i = j

theorem separate_add {s : State V F} (h : Separate s) (fn : F) (d : Fields V) : Separate (s.add fn d).1 := by
  obtain ⟨h1, h2⟩ := h
  have key : ∀ i c, (s.ctxs ++ [(fn, s.params.length)])[i]? = some c → (s.ctxs[i]? = some c ∧ c.2 < s.params.length) ∨ (i = s.ctxs.length ∧ c.2 = s.params.length) := by
    intro i c hc
    rw [List.getElem?_append] at hc
    split at hc
    · exact .inl ⟨hc, h1 i c hc⟩
    · rename_i hi
      have : i - s.ctxs.length = 0 := by
        rcases Nat.eq_zero_or_pos (i - s.ctxs.length) with h | h
        · exact h
        · rw [List.getElem?_eq_none (by simp; omega)] at hc; cases hc
      rw [this] at hc
      simp at hc
      exact .inr ⟨by omega, by rw [← hc]⟩
  refine ⟨fun i c hc => ?_, fun i j c d hc hd e => ?_⟩
  · show c.2 < (s.params ++ [_]).length
    rw [List.length_append]
    rcases key i c hc with ⟨_, h⟩ | ⟨_, h⟩ <;> simp <;> omega
  · rcases key i c hc with ⟨hc, h⟩ | ⟨hi, h⟩ <;> rcases key j d hd with ⟨hd, h'⟩ | ⟨hj, h'⟩
    · exact h2 i j c d hc hd e
    · omega
    · omega
    · omega

theorem separate_step {contig : V → Bool} {make : V → V} {s : State V F} (h : Separate s) (o : Op V F) (ha : ∀ fn i, o ≠ .adopt fn i) : Separate (step contig make s o).1 := by
  unfold step
  cases o with
  | new fn d => exact separate_add h fn d
  | adopt fn i => exact absurd rfl (ha fn i)
  | assign i n v =>
    dsimp only
    split
    · exact h
    · exact ⟨fun i c hc => by simpa using h.1 i c hc, h.2⟩
  | _ =>
    dsimp only
    repeat' split
    all_goals first | exact h | exact separate_add h _ _

theorem separate_run (contig : V → Bool) (make : V → V) (ops : List (Op V F)) (ha : ∀ o ∈ ops, ∀ fn i, o ≠ .adopt fn i) : Separate (run contig make ops) := by
  unfold run
  have : ∀ s : State V F, Separate s → Separate (ops.foldl (fun s o => (step contig make s o).1) s) := by
    induction ops with
    | nil => exact fun s h => h
    | cons o ops ih => exact fun s h => ih (fun o ho => ha o (List.mem_cons_of_mem _ ho)) _ (separate_step h o (ha o List.mem_cons_self))
  exact this _ ⟨fun i c hc => by simp at hc, fun i j c d hc => by simp at hc⟩

theorem read_add {s : State V F} (h : Placed s) (fn : F) (d : Fields V) (j : Nat) (hj : j < s.ctxs.length) : (s.add fn d).1.read j = s.read j := by
  unfold State.read State.add
  dsimp only
  rw [List.getElem?_append_left hj]
  split
  · rfl
  · rename_i c hc
    rw [List.getElem?_append_left (h j _ hc)]

theorem read_new (s : State V F) (fn : F) (d : Fields V) : (s.add fn d).1.read s.ctxs.length = some (fn, d) := by
  unfold State.read State.add
  simp

theorem get_map (d : Fields V) (f : String → V → V) (n : String) : get (d.map fun e => (e.1, f e.1 e.2)) n = (get d n).map (f n) := by
  induction d with
  | nil => rfl
  | cons e d ih =>
    obtain ⟨k, v⟩ := e
    simp only [List.map_cons, get]
    split
    · rename_i h; subst h; rfl
    · exact ih

theorem any_iff_get (d : Fields V) (n : String) : d.any (fun e => e.1 == n) = true ↔ ∃ v, get d n = some v := by
  induction d with
  | nil => simp [get]
  | cons e d ih =>
    obtain ⟨k, v⟩ := e
    by_cases h : k = n
    · simp [get, h]
    · simp [get, h]
      simpa using ih

theorem get_mem {d : Fields V} {n : String} {v : V} (h : get d n = some v) : (n, v) ∈ d := by
  induction d with
  | nil => cases h
  | cons e d ih =>
    unfold get at h
    split at h
    · rename_i hk; cases h; subst hk; exact List.mem_cons_self
    · exact List.mem_cons_of_mem _ (ih h)

theorem get_none {d : Fields V} {n : String} (h : get d n = none) (v : V) : (n, v) ∉ d := by
  induction d with
  | nil => simp
  | cons e d ih =>
    unfold get at h
    split at h
    · cases h
    · rename_i hk
      simp only [List.mem_cons, not_or]
      refine ⟨fun e => ?_, ih h⟩
      cases e
      exact hk rfl

/-! ## Properties -/

/-- **C153.** No operation other than an assignment changes an existing context, whatever was done before. -/
theorem derivations_change_nothing (contig : V → Bool) (make : V → V) (ops : List (Op V F)) (o : Op V F) (j : Nat) (c : F × Fields V)
    (hj : (run contig make ops).read j = some c) (ho : ∀ i n v, o ≠ .assign i n v) :
    (step contig make (run contig make ops) o).1.read j = some c := by
  have h := placed_run contig make ops
  generalize run contig make ops = s at *
  have hlt : j < s.ctxs.length := by
    unfold State.read at hj
    split at hj
    · cases hj
    · rename_i hc
      exact (List.getElem?_eq_some_iff.1 hc).1
  unfold step
  cases o with
  | new fn d => rw [read_add h _ _ _ hlt]; exact hj
  | assign i n v => exact absurd rfl (ho i n v)
  | adopt fn i =>
    dsimp only
    split
    · exact hj
    · unfold State.read at hj ⊢
      dsimp only
      rw [List.getElem?_append_left hlt]
      exact hj
  | _ =>
    dsimp only
    repeat' split
    all_goals first | exact hj | (rw [read_add h _ _ _ hlt]; exact hj)

/-- **C153 (partial).** An assignment to the parameters of one context is not seen in any other, whatever contexts were derived from which.

Missing: histories in which a context was made for a parameters object that another has (`shared_parameters`). -/
theorem assignments_local_partial (contig : V → Bool) (make : V → V) (ops : List (Op V F)) (ha : ∀ o ∈ ops, ∀ fn i, o ≠ .adopt fn i) (i j : Nat) (n : String) (v : V)
    (c : F × Fields V) (hj : (run contig make ops).read j = some c) (hij : i ≠ j) :
    (step contig make (run contig make ops) (.assign i n v)).1.read j = some c := by
  have h := separate_run contig make ops ha
  generalize run contig make ops = s at *
  unfold step
  dsimp only
  split
  · exact hj
  · rename_i fn p hi
    unfold State.read at hj ⊢
    dsimp only
    split at hj
    · cases hj
    · rename_i fn' p' hc
      have hne : p ≠ p' := fun e => hij (h.2 i j _ _ hi hc e)
      rw [List.getElem?_modify_ne _ _ hne]
      exact hj

/-- **C153.** Changing parameters of a context is refused exactly if a name is not one of its parameters; otherwise a new context is returned that has the new function, if one
is given, and for each parameter the changed value, if there is one, and else the value the context had. -/
theorem changed_exactly (contig : V → Bool) (make : V → V) (ops : List (Op V F)) (i : Nat) (fn : Option F) (changes : Fields V) (fn0 : F) (d : Fields V)
    (hi : (run contig make ops).read i = some (fn0, d)) :
    let r := step contig make (run contig make ops) (.change i fn changes)
    (r.2 = none ↔ ∃ c ∈ changes, get d c.1 = none) ∧
      ∀ k, r.2 = some k → (run contig make ops).read k = none ∧ ∃ d', r.1.read k = some (match fn with | some f => f | none => fn0, d') ∧
        d'.map (·.1) = d.map (·.1) ∧ ∀ n v, get d n = some v → ∃ w, get d' n = some w ∧ After changes n v w := by
  generalize run contig make ops = s at *
  intro r
  unfold State.read at hi
  split at hi
  · cases hi
  rename_i f p hc
  obtain ⟨d0, hd0, he⟩ := Option.map_eq_some_iff.1 hi
  cases he
  have hr : r = step contig make s (.change i fn changes) := rfl
  unfold step at hr
  simp only [hc, hd0, Option.bind_some] at hr
  by_cases hall : changes.all (fun c => d.any (fun e => e.1 == c.1)) = true
  · have hrep : replace d changes = some (d.map fun e => (e.1, (get changes e.1).getD e.2)) := by simp [replace, hall]
    rw [hrep] at hr
    dsimp only at hr
    rw [hr]
    refine ⟨⟨fun h => by simp [State.add] at h, ?_⟩, fun k hk => ?_⟩
    · rintro ⟨c, hc, hg⟩
      obtain ⟨v, hv⟩ := (any_iff_get d c.1).1 (List.all_eq_true.1 hall c hc)
      rw [hg] at hv; cases hv
    · simp only [State.add, Option.some.injEq] at hk
      subst hk
      refine ⟨by simp [State.read], _, by rw [read_new]; cases fn <;> rfl, by simp [Function.comp_def], fun n v hv => ?_⟩
      rw [get_map d (fun k v => (get changes k).getD v), hv]
      refine ⟨_, rfl, ?_⟩
      cases hg : get changes n with
      | none => exact .kept (get_none hg)
      | some x => exact .changed (get_mem hg)
  · have hrep : replace d changes = none := by simp [replace, hall]
    rw [hrep] at hr
    dsimp only at hr
    rw [hr]
    refine ⟨⟨fun _ => ?_, fun _ => rfl⟩, fun k hk => by cases hk⟩
    simp only [List.all_eq_true] at hall
    refine Classical.byContradiction fun hn => hall fun c hc => ?_
    rw [any_iff_get]
    cases hg : get d c.1 with
    | none => exact absurd ⟨c, hc, hg⟩ hn
    | some v => exact ⟨v, rfl⟩

/-- **C153.** Making the parameters contiguous returns the context itself exactly if they all are; in any case the context that is returned has the same function and parameters,
each as it was if it was contiguous and as a contiguous copy if not. -/
theorem contiguous_exactly (contig : V → Bool) (make : V → V) (ops : List (Op V F)) (i : Nat) (fn0 : F) (d : Fields V)
    (hi : (run contig make ops).read i = some (fn0, d)) :
    ∃ k d', (step contig make (run contig make ops) (.contiguous i)).2 = some k ∧
      (step contig make (run contig make ops) (.contiguous i)).1.read k = some (fn0, d') ∧
      (k = i ↔ ∀ e ∈ d, contig e.2 = true) ∧ d'.map (·.1) = d.map (·.1) ∧
      ∀ n v, get d n = some v → (contig v = true → get d' n = some v) ∧ (contig v = false → get d' n = some (make v)) := by
  generalize run contig make ops = s at *
  have hi' := hi
  unfold State.read at hi
  split at hi
  · cases hi
  rename_i f p hc
  obtain ⟨d0, hd0, he⟩ := Option.map_eq_some_iff.1 hi
  cases he
  have hlt : i < s.ctxs.length := (List.getElem?_eq_some_iff.1 hc).1
  by_cases hall : d.all (fun e => contig e.2) = true
  · have hs : step contig make s (.contiguous i) = (s, some i) := by
      unfold step
      simp only [hc, hd0, hall, if_true]
    refine ⟨i, d, by rw [hs], by rw [hs]; exact hi', ⟨fun _ => List.all_eq_true.1 hall, fun _ => rfl⟩, rfl, fun n v hv => ⟨fun _ => hv, fun hf => ?_⟩⟩
    rw [List.all_eq_true.1 hall _ (get_mem hv)] at hf
    cases hf
  · have hs : step contig make s (.contiguous i) = s.add fn0 (d.map fun e => (e.1, if contig e.2 then e.2 else make e.2)) := by
      unfold step
      simp only [hc, hd0, hall]
      rfl
    refine ⟨s.ctxs.length, _, by rw [hs]; rfl, by rw [hs]; exact read_new s _ _, ⟨fun h => by omega, fun h => absurd (List.all_eq_true.2 h) hall⟩,
      by simp [Function.comp_def], fun n v hv => ?_⟩
    rw [get_map d (fun _ v => if contig v then v else make v), hv]
    constructor <;> intro h <;> simp [h]

/-- **C153.** Cloning, detaching or moving the parameters of a context returns a new context with the same function and parameters, each converted. -/
theorem converted_exactly (contig : V → Bool) (make : V → V) (ops : List (Op V F)) (i : Nat) (g : V → V) (fn0 : F) (d : Fields V)
    (hi : (run contig make ops).read i = some (fn0, d)) :
    ∃ k d', (step contig make (run contig make ops) (.convert i g)).2 = some k ∧ (run contig make ops).read k = none ∧
      (step contig make (run contig make ops) (.convert i g)).1.read k = some (fn0, d') ∧ d'.map (·.1) = d.map (·.1) ∧
      ∀ n v, get d n = some v → get d' n = some (g v) := by
  generalize run contig make ops = s at *
  unfold State.read at hi
  split at hi
  · cases hi
  rename_i f p hc
  obtain ⟨d0, hd0, he⟩ := Option.map_eq_some_iff.1 hi
  cases he
  have hs : step contig make s (.convert i g) = s.add fn0 (d.map fun e => (e.1, g e.2)) := by
    unfold step
    simp only [hc, hd0]
  refine ⟨s.ctxs.length, _, by rw [hs]; rfl, by simp [State.read], by rw [hs]; exact read_new s _ _, by simp [Function.comp_def], fun n v hv => ?_⟩
  rw [get_map d (fun _ v => g v), hv]
  rfl

/-- **C153.** After an assignment to a parameter of a context, that parameter has the assigned value, and the context has the function and the other parameters it had. -/
theorem assigned_exactly (contig : V → Bool) (make : V → V) (ops : List (Op V F)) (i : Nat) (n : String) (w : V) (fn0 : F) (d : Fields V)
    (hi : (run contig make ops).read i = some (fn0, d)) :
    ∃ d', (step contig make (run contig make ops) (.assign i n w)).1.read i = some (fn0, d') ∧ d'.map (·.1) = d.map (·.1) ∧
      (∀ v, get d n = some v → get d' n = some w) ∧ ∀ m, m ≠ n → get d' m = get d m := by
  generalize run contig make ops = s at *
  unfold State.read at hi
  split at hi
  · cases hi
  rename_i f p hc
  obtain ⟨d0, hd0, he⟩ := Option.map_eq_some_iff.1 hi
  cases he
  have hf : (fun e : String × V => if e.1 = n then (e.1, w) else e) = fun e => (e.1, if e.1 = n then w else e.2) := by
    funext e; split <;> rfl
  refine ⟨d.map fun e => (e.1, if e.1 = n then w else e.2), ?_, by simp [Function.comp_def], fun v hv => ?_, fun m hm => ?_⟩
  · unfold step State.read
    simp only [hc, List.getElem?_modify_eq, hd0, hf]
    rfl
  · rw [get_map d (fun k v => if k = n then w else v), hv]
    simp
  · rw [get_map d (fun k v => if k = n then w else v)]
    cases get d m <;> simp [hm]

/-- **C153.** A context made for the parameters object of another is a new one; it has the function it was made for and says the same parameters. -/
theorem adopted_exactly (contig : V → Bool) (make : V → V) (ops : List (Op V F)) (i : Nat) (fn fn0 : F) (d : Fields V)
    (hi : (run contig make ops).read i = some (fn0, d)) :
    ∃ k, (step contig make (run contig make ops) (.adopt fn i)).2 = some k ∧ (run contig make ops).read k = none ∧
      (step contig make (run contig make ops) (.adopt fn i)).1.read k = some (fn, d) := by
  generalize run contig make ops = s at *
  unfold State.read at hi
  split at hi
  · cases hi
  rename_i f p hc
  obtain ⟨d0, hd0, he⟩ := Option.map_eq_some_iff.1 hi
  cases he
  refine ⟨s.ctxs.length, ?_, by simp [State.read], ?_⟩
  · unfold step; simp only [hc]
  · unfold step State.read; simp [hc, hd0]

/-! ## Deviations -/

/-- **C153, deviation.** Contexts made for the same parameters object, as by two calls of a quantization function from `create_quantization_function`, share it: an assignment to
the parameters of one changes the other. -/
theorem shared_parameters (contig : V → Bool) (make : V → V) (fn fn' : F) (n : String) (v w : V) :
    (run contig make [.new fn [(n, v)], .adopt fn' 0]).read 1 = some (fn', [(n, v)]) ∧
      (run contig make [.new fn [(n, v)], .adopt fn' 0, .assign 0 n w]).read 1 = some (fn', [(n, w)]) := by
  constructor <;> simp [run, step, State.add, State.read, List.modify, List.modifyTailIdx, List.modifyTailIdx.go]

/-- **C153, deviation.** The context returned by making parameters contiguous is not always a new one: an assignment to its parameters changes the context it was made from, but
only if all parameters happened to be contiguous. -/
theorem contiguous_may_share : ∃ (ops : List (Op Int Unit)) (c : Unit × Fields Int),
    (run (fun v => decide (0 ≤ v)) (fun v => -v) ops).read 0 = some c ∧
    (run (fun v => decide (0 ≤ v)) (fun v => -v) ops).ctxs.length = 1 ∧
    (step (fun v => decide (0 ≤ v)) (fun v => -v) (run (fun v => decide (0 ≤ v)) (fun v => -v) ops) (.contiguous 0)).2 = some 0 ∧
    (run (fun v => decide (0 ≤ v)) (fun v => -v) (ops ++ [.contiguous 0, .assign 0 "scale" 5])).read 0 ≠ some c :=
  ⟨[.new () [("scale", 1)]], ((), [("scale", 1)]), by decide, by decide, by decide, by decide⟩

/-! ## Concrete cases -/

/-- A context whose scale is changed: the first keeps its scale, also after an assignment to the second. -/
example : let s := run (fun _ => true) id [.new 0 [("scale", 1), ("offset", 2)], .change 0 (some 7) [("scale", 3)], .assign 1 "offset" 9]
    s.read 0 = some (0, [("scale", 1), ("offset", 2)]) ∧ s.read 1 = some (7, [("scale", 3), ("offset", 9)]) := by decide

/-- The hypotheses of `assignments_local_partial` are met: a history without adopted parameters, and a second context derived from the first. -/
example : (∀ o ∈ ([.new 0 [("scale", 1)], .convert 0 (· + 1)] : List (Op Int Nat)), ∀ fn i, o ≠ .adopt fn i) ∧
    (run (fun _ => true) id ([.new 0 [("scale", 1)], .convert 0 (· + 1)] : List (Op Int Nat))).read 1 = some (0, [("scale", 2)]) := by
  refine ⟨by simp, by decide⟩

/-- An unknown name is refused. -/
example : (step (fun _ => true) id (run (fun _ => true) id [.new 0 [("scale", 1)]]) (.change 0 none [("scal", 2)])).2 = none := by decide

end FF.Contexts
