import Mathlib.Data.List.Basic
import Mathlib.Data.Nat.Notation

/-!
# Quantizer parameters that have no value yet

Models how parameters without a value (`UninitializedParameter`) are put aside while a model is traced
(`_placeholder_uninitialized_params` in `/repo/src/fastforward/_orchestration/trace.py`) and how they get shape and value when a state is
loaded (`Quantizer._load_state_dict_uninitialized_param_pre_hook` in `/repo/src/fastforward/nn/quantizer.py`).
-/

namespace FF.Lazy

/-! ### Model -/

/-- A tensor object; `val = none` if it has no shape and value yet. -/
structure Ten (V : Type) where
  id : ℕ
  val : Option V
  deriving DecidableEq, Repr

/-- `_parameters` or `_buffers` of a module, in order of registration; a name can be registered with `None`. -/
abbrev Slots (V : Type) := List (String × Option (Ten V))

/-- A module without its submodules; `transient` are the names of buffers that are not part of the state (`_non_persistent_buffers_set`). -/
structure Mod (V : Type) where
  params : Slots V
  buffers : Slots V
  transient : List String

variable {V : Type}

/-- `delattr` and registration under the same name: the name is at the end afterwards. -/
def put (s : Slots V) (n : String) (t : Ten V) : Slots V := s.filter (fun x => x.1 ≠ n) ++ [(n, some t)]

/-- `named_parameters(recurse=False)` and `named_buffers(recurse=False)`: each tensor once, under its first name. `seen` are the tensors
reported so far. -/
def named (seen : List ℕ) : Slots V → List (String × Ten V)
  | [] => []
  | (_, none) :: s => named seen s
  | (n, some t) :: s => if t.id ∈ seen then named seen s else (n, t) :: named (t.id :: seen) s

/-- The entries to put aside (`trace.py:44-45`, 51-52). -/
def lazyEntries (s : Slots V) : List (String × Ten V) := (named [] s).filter fun x => x.2.val.isNone

/-- Put every entry of the list in its place (47-50, 54-55). -/
def putAll (l : List (String × Ten V)) (s : Slots V) : Slots V := l.foldl (fun s x => put s x.1 x.2) s

/-- What the loop (43-55) does for one module. `ph` is the placeholder, an empty tensor. `register_buffer` makes a buffer part of the state. -/
def prepare (ph : Ten V) (m : Mod V) : Mod V :=
  ⟨putAll ((lazyEntries m.params).map fun x => (x.1, ph)) m.params, putAll ((lazyEntries m.buffers).map fun x => (x.1, ph)) m.buffers,
    m.transient.filter fun n => n ∉ (lazyEntries m.buffers).map (·.1)⟩

/-- The `finally` block (59-65) for one module; `saved` are the entries of `m` that were put aside. -/
def restore (m : Mod V) (now : Mod V) : Mod V :=
  ⟨putAll (lazyEntries m.params) now.params, putAll (lazyEntries m.buffers) now.buffers,
    now.transient.filter fun n => n ∉ (lazyEntries m.buffers).map (·.1)⟩

/-- `with _placeholder_uninitialized_params(model)` around tracing (28-65), for all modules of the model; tracing sees the prepared modules and may
fail. Tracing registers and removes nothing. The result is the modules as seen while tracing and after it. -/
def traced {E R : Type} (ph : Ten V) (ms : List (Mod V)) (body : List (Mod V) → Except E R) : Except E R × List (Mod V) × List (Mod V) :=
  (body (ms.map (prepare ph)), ms.map (prepare ph), ms.map fun m => restore m (prepare ph m))

/-- Names of states as lists of characters. -/
abbrev Key := List Char

/-- `str.removeprefix`. -/
def removePrefix (p k : Key) : Key := if p.isPrefixOf k then k.drop p.length else k

/-- A parameter while a state is loaded: none yet, memory of a shape with no particular contents (`materialize`), or a value. -/
inductive Slot (S V : Type) where
  | lazy
  | memory (s : S)
  | value (v : V)
  deriving DecidableEq, Repr

/-- The parameters of a quantizer by name; names registered with `None` are not there. -/
abbrev Params (S V : Type) := Key → Option (Slot S V)

/-- A state: `none` for an entry saved without a value. -/
abbrev StateDict (V : Type) := List (Key × Option V)

/-- One iteration of `_load_state_dict_uninitialized_param_pre_hook` (`nn/quantizer.py:454-463`). -/
def hookStep {S : Type} (shape : V → S) (pre : Key) (ps : Params S V) (e : Key × Option V) : Params S V :=
  fun n => match ps (removePrefix pre e.1), e.2 with
    | some .lazy, some v => if n = removePrefix pre e.1 then some (.memory (shape v)) else ps n
    | _, _ => ps n

def hook {S : Type} (shape : V → S) (pre : Key) (sd : StateDict V) (ps : Params S V) : Params S V := sd.foldl (hookStep shape pre) ps

def lookup (sd : StateDict V) (k : Key) : Option (Option V) := (sd.find? fun e => e.1 = k).map (·.2)

inductive LoadErr where
  | size
  | missing
  | uninitialized
  deriving DecidableEq, Repr

/-- What `torch.nn.Module._load_from_state_dict` does with one parameter after the hook: a missing entry leaves it, a shape that differs is
an error, and so is a saved entry without a value for a parameter that has a shape. -/
def loadOne {S : Type} [DecidableEq S] (shape : V → S) (sl : Slot S V) (e : Option (Option V)) : Slot S V × Option LoadErr :=
  match sl, e with
  | sl, none => (sl, some .missing)
  | .lazy, some none => (.lazy, none)
  | .lazy, some (some v) => (.value v, none)
  | .memory s, some none => (.memory s, some .uninitialized)
  | .value v, some none => (.value v, some .uninitialized)
  | .memory s, some (some v) => if shape v = s then (.value v, none) else (.memory s, some .size)
  | .value w, some (some v) => if shape v = shape w then (.value v, none) else (.value w, some .size)

/-- The part of a state that `torch.nn.Module.load_state_dict` hands to the module at `pre`. -/
def part (pre : Key) (sd : StateDict V) : StateDict V := sd.filter fun e => pre.isPrefixOf e.1

/-- Loading a state into a quantizer at `pre` (empty for the model itself, and otherwise ending in a dot): parameter `n` afterwards, and
the error reported for it. Simplified: torch also loads a tensor with one dimension into a parameter with none. -/
def load {S : Type} [DecidableEq S] (shape : V → S) (pre : Key) (sd : StateDict V) (ps : Params S V) (n : Key) :
    Option (Slot S V × Option LoadErr) :=
  (hook shape pre (part pre sd) ps n).map fun sl => loadOne shape sl (lookup (part pre sd) (pre ++ n))

/-- `has_uninitialized_params` of a linear quantizer (`nn/linear_quantizer.py:69-72`); `names` are the names of its parameters, without its
buffers. -/
def hasUninitialized {S : Type} (ps : Params S V) (names : List Key) : Bool :=
  names.any fun n => match ps n with
    | some .lazy => true
    | _ => false

/-! ### Specification -/

/-- What is registered under a name. -/
inductive At (n : String) (x : Option (Ten V)) : Slots V → Prop
  | here (s) : At n x ((n, x) :: s)
  | there (m y s) : m ≠ n → At n x s → At n x ((m, y) :: s)

/-- Names are registered once. -/
def Once (s : Slots V) : Prop := (s.map (·.1)).Nodup

/-- Everything is registered under the name it was registered under. -/
def SameSlots (s s' : Slots V) : Prop := ∀ n x, At n x s ↔ At n x s'

/-- No tensor is registered under two names. -/
def Unshared (s : Slots V) : Prop :=
  s.Pairwise fun a b => match a.2, b.2 with
    | some t, some u => t.id ≠ u.id
    | _, _ => True

/-- Some parameter has no value. -/
def HasLazy (s : Slots V) : Prop := ∃ n t, At n (some t) s ∧ t.val = none

/-! ### Lemmas -/

theorem at_mem {n : String} {x : Option (Ten V)} {s : Slots V} (h : At n x s) : (n, x) ∈ s := by
  induction h with
  | here => exact List.mem_cons_self
  | there _ _ _ _ _ ih => exact List.mem_cons_of_mem _ ih

theorem at_of_mem {n : String} {x : Option (Ten V)} {s : Slots V} (ho : Once s) (h : (n, x) ∈ s) : At n x s := by
  induction s with
  | nil => cases h
  | cons y s ih =>
    obtain ⟨m, z⟩ := y
    unfold Once at ho
    rw [List.map_cons, List.nodup_cons] at ho
    rcases List.mem_cons.1 h with h | h
    · obtain ⟨rfl, rfl⟩ := Prod.mk.inj h; exact .here _
    · refine .there _ _ _ ?_ (ih ho.2 h)
      rintro rfl
      exact ho.1 (List.mem_map.2 ⟨_, h, rfl⟩)

theorem at_iff {n : String} {x : Option (Ten V)} {s : Slots V} (ho : Once s) : At n x s ↔ (n, x) ∈ s := ⟨at_mem, at_of_mem ho⟩

theorem put_once {s : Slots V} (ho : Once s) (n : String) (t : Ten V) : Once (put s n t) := by
  unfold Once put at *
  rw [List.map_append, List.nodup_append]
  refine ⟨?_, by simp, ?_⟩
  · exact ho.sublist (List.Sublist.map _ List.filter_sublist)
  · intro a ha b hb
    simp only [List.map_cons, List.map_nil, List.mem_singleton] at hb
    obtain ⟨y, hy, rfl⟩ := List.mem_map.1 ha
    have := (List.mem_filter.1 hy).2
    rw [hb]
    simpa using this

theorem mem_put {s : Slots V} {n k : String} {t : Ten V} {x : Option (Ten V)} :
    (k, x) ∈ put s n t ↔ (k = n ∧ x = some t) ∨ (k ≠ n ∧ (k, x) ∈ s) := by
  unfold put
  rw [List.mem_append, List.mem_filter, List.mem_singleton]
  constructor
  · rintro (⟨h1, h2⟩ | h)
    · exact .inr ⟨by simpa using h2, h1⟩
    · obtain ⟨rfl, rfl⟩ := Prod.mk.inj h; exact .inl ⟨rfl, rfl⟩
  · rintro (⟨rfl, rfl⟩ | ⟨h1, h2⟩)
    · exact .inr rfl
    · exact .inl ⟨h2, by simpa using h1⟩

theorem putAll_once {l : List (String × Ten V)} {s : Slots V} (ho : Once s) : Once (putAll l s) := by
  induction l generalizing s with
  | nil => exact ho
  | cons x l ih => exact ih (put_once ho _ _)

theorem mem_putAll {l : List (String × Ten V)} (hl : (l.map (·.1)).Nodup) {s : Slots V} {k : String} {x : Option (Ten V)} :
    (k, x) ∈ putAll l s ↔ (∃ t, (k, t) ∈ l ∧ x = some t) ∨ (k ∉ l.map (·.1) ∧ (k, x) ∈ s) := by
  induction l generalizing s with
  | nil => simp [putAll]
  | cons y l ih =>
    obtain ⟨n, t⟩ := y
    rw [List.map_cons, List.nodup_cons] at hl
    show (k, x) ∈ putAll l (put s n t) ↔ _
    rw [ih hl.2, mem_put, List.map_cons, List.mem_cons]
    constructor
    · rintro (⟨u, h1, h2⟩ | ⟨h1, ⟨rfl, rfl⟩ | ⟨h2, h3⟩⟩)
      · exact .inl ⟨u, List.mem_cons_of_mem _ h1, h2⟩
      · exact .inl ⟨t, List.mem_cons_self, rfl⟩
      · exact .inr ⟨by rintro (h | h); exacts [h2 h, h1 h], h3⟩
    · rintro (⟨u, h1, h2⟩ | ⟨h1, h2⟩)
      · rcases List.mem_cons.1 h1 with h | h
        · obtain ⟨rfl, rfl⟩ := Prod.mk.inj h
          exact .inr ⟨hl.1, .inl ⟨rfl, h2⟩⟩
        · exact .inl ⟨u, h, h2⟩
      · exact .inr ⟨fun h => h1 (.inr h), .inr ⟨fun h => h1 (.inl h), h2⟩⟩

theorem named_sub (seen : List ℕ) (s : Slots V) : ∀ x ∈ named seen s, (x.1, some x.2) ∈ s := by
  induction s generalizing seen with
  | nil => intro x hx; cases hx
  | cons y s ih =>
    obtain ⟨n, o⟩ := y
    intro x hx
    cases o with
    | none => exact List.mem_cons_of_mem _ (ih _ x hx)
    | some t =>
      unfold named at hx
      by_cases ht : t.id ∈ seen
      · rw [if_pos ht] at hx; exact List.mem_cons_of_mem _ (ih _ x hx)
      · rw [if_neg ht] at hx
        rcases List.mem_cons.1 hx with rfl | hx
        · exact List.mem_cons_self
        · exact List.mem_cons_of_mem _ (ih _ x hx)

theorem named_names (seen : List ℕ) (s : Slots V) : ((named seen s).map (·.1)).Sublist (s.map (·.1)) := by
  induction s generalizing seen with
  | nil => exact List.Sublist.refl _
  | cons y s ih =>
    obtain ⟨n, o⟩ := y
    cases o with
    | none => exact (ih _).cons _
    | some t =>
      unfold named
      by_cases ht : t.id ∈ seen
      · rw [if_pos ht]; exact (ih _).cons _
      · rw [if_neg ht]; exact (ih _).cons_cons _

theorem named_all {s : Slots V} (hu : Unshared s) (seen : List ℕ) (hs : ∀ n t, (n, some t) ∈ s → t.id ∉ seen) {n : String} {t : Ten V}
    (h : (n, some t) ∈ s) : (n, t) ∈ named seen s := by
  induction s generalizing seen with
  | nil => cases h
  | cons y s ih =>
    obtain ⟨m, o⟩ := y
    unfold Unshared at hu
    rw [List.pairwise_cons] at hu
    cases o with
    | none =>
      refine ih hu.2 _ (fun n t h => hs n t (List.mem_cons_of_mem _ h)) ?_
      rcases List.mem_cons.1 h with h | h
      · simp at h
      · exact h
    | some u =>
      unfold named
      rw [if_neg (hs m u List.mem_cons_self)]
      rcases List.mem_cons.1 h with h | h
      · obtain ⟨h1, h2⟩ := Prod.mk.inj h
        rw [h1, Option.some.inj h2]; exact List.mem_cons_self
      · refine List.mem_cons_of_mem _ (ih hu.2 _ ?_ h)
        intro n' t' h' hm
        rcases List.mem_cons.1 hm with hm | hm
        · exact (hu.1 _ h') hm.symm
        · exact hs n' t' (List.mem_cons_of_mem _ h') hm

theorem lazy_nodup {s : Slots V} (ho : Once s) : ((lazyEntries s).map (·.1)).Nodup :=
  (ho.sublist (named_names [] s)).sublist (List.Sublist.map _ List.filter_sublist)

theorem lazy_sub (s : Slots V) : ∀ x ∈ lazyEntries s, (x.1, some x.2) ∈ s ∧ x.2.val = none := by
  intro x hx
  obtain ⟨h1, h2⟩ := List.mem_filter.1 hx
  exact ⟨named_sub [] s x h1, by simpa using h2⟩

theorem once_unique {s : Slots V} (ho : Once s) {n : String} {x y : Option (Ten V)} (hx : (n, x) ∈ s) (hy : (n, y) ∈ s) : x = y := by
  induction s with
  | nil => cases hx
  | cons z s ih =>
    unfold Once at ho
    rw [List.map_cons, List.nodup_cons] at ho
    rcases List.mem_cons.1 hx with rfl | hx <;> rcases List.mem_cons.1 hy with hy | hy
    · exact (Prod.mk.inj hy).2.symm
    · exact absurd (List.mem_map.2 ⟨_, hy, rfl⟩) ho.1
    · subst hy; exact absurd (List.mem_map.2 ⟨(n, x), ‹(n, x) ∈ s›, rfl⟩ : n ∈ s.map (·.1)) ho.1
    · exact ih ho.2 hx hy

theorem ph_names (ph : Ten V) (l : List (String × Ten V)) : (l.map fun x => (x.1, ph)).map (·.1) = l.map (·.1) := by
  rw [List.map_map]; rfl

theorem restore_slots (ph : Ten V) {s : Slots V} (ho : Once s) :
    SameSlots s (putAll (lazyEntries s) (putAll ((lazyEntries s).map fun x => (x.1, ph)) s)) := by
  have hn := lazy_nodup ho
  have hn' : (((lazyEntries s).map fun x => (x.1, ph)).map (·.1)).Nodup := by rw [ph_names]; exact hn
  intro n x
  rw [at_iff ho, at_iff (putAll_once (putAll_once ho)), mem_putAll hn, mem_putAll hn', ph_names]
  constructor
  · intro h
    by_cases hm : n ∈ (lazyEntries s).map (·.1)
    · obtain ⟨⟨k, t⟩, hy, rfl⟩ := List.mem_map.1 hm
      exact .inl ⟨t, hy, once_unique ho h (lazy_sub s _ hy).1⟩
    · exact .inr ⟨hm, .inr ⟨hm, h⟩⟩
  · rintro (⟨t, h1, rfl⟩ | ⟨h1, ⟨t, h2, _⟩ | ⟨_, h2⟩⟩)
    · exact (lazy_sub s _ h1).1
    · obtain ⟨y, hy, he⟩ := List.mem_map.1 h2
      exact absurd (List.mem_map.2 ⟨y, hy, (Prod.mk.inj he).1⟩) h1
    · exact h2

theorem prepared_slots {ph : Ten V} (hp : ph.val ≠ none) {s : Slots V} (ho : Once s) (hu : Unshared s) :
    ¬ HasLazy (putAll ((lazyEntries s).map fun x => (x.1, ph)) s) := by
  have hn' : (((lazyEntries s).map fun x => (x.1, ph)).map (·.1)).Nodup := by rw [ph_names]; exact lazy_nodup ho
  rintro ⟨n, t, h, hv⟩
  have h := at_mem h
  rw [mem_putAll hn', ph_names] at h
  rcases h with ⟨u, h1, h2⟩ | ⟨h1, h2⟩
  · obtain ⟨y, _, he⟩ := List.mem_map.1 h1
    rw [Option.some.inj h2, ← (Prod.mk.inj he).2] at hv
    exact hp hv
  · apply h1
    refine List.mem_map.2 ⟨(n, t), List.mem_filter.2 ⟨named_all hu [] (by simp) h2, ?_⟩, rfl⟩
    simpa using hv

section load
variable {S : Type} (shape : V → S) (pre : Key)

theorem hook_none {sd : StateDict V} {ps : Params S V} {n : Key} (h : ∀ e ∈ sd, removePrefix pre e.1 = n → e.2 = none) :
    hook shape pre sd ps n = ps n := by
  induction sd generalizing ps with
  | nil => rfl
  | cons e sd ih =>
    show hook shape pre sd (hookStep shape pre ps e) n = _
    rw [ih fun x hx => h x (List.mem_cons_of_mem _ hx)]
    unfold hookStep
    have he := h e List.mem_cons_self
    split
    · rename_i v h1 h2
      by_cases hn : n = removePrefix pre e.1
      · rw [he hn.symm] at h2; cases h2
      · rw [if_neg hn]
    · rfl

theorem hook_notLazy {sd : StateDict V} {ps : Params S V} {n : Key} (h : ps n ≠ some .lazy) : hook shape pre sd ps n = ps n := by
  induction sd generalizing ps with
  | nil => rfl
  | cons e sd ih =>
    have hstep : hookStep shape pre ps e n = ps n := by
      unfold hookStep
      split
      · rename_i v h1 h2
        by_cases hn : n = removePrefix pre e.1
        · rw [← hn] at h1; exact absurd h1 h
        · rw [if_neg hn]
      · rfl
    show hook shape pre sd (hookStep shape pre ps e) n = _
    rw [ih (by rw [hstep]; exact h), hstep]

theorem hook_first {l r : StateDict V} {ps : Params S V} {n k : Key} {v : V} (hl : ∀ e ∈ l, removePrefix pre e.1 ≠ n)
    (hk : removePrefix pre k = n) (hz : ps n = some .lazy) : hook shape pre (l ++ (k, some v) :: r) ps n = some (.memory (shape v)) := by
  induction l generalizing ps with
  | nil =>
    show hook shape pre r (hookStep shape pre ps (k, some v)) n = _
    have : hookStep shape pre ps (k, some v) n = some (.memory (shape v)) := by
      simp only [hookStep, hk, hz, if_pos]
    rw [hook_notLazy, this]
    rw [this]; simp
  | cons e l ih =>
    show hook shape pre (l ++ (k, some v) :: r) (hookStep shape pre ps e) n = _
    refine ih (fun x hx => hl x (List.mem_cons_of_mem _ hx)) ?_
    have := hl e List.mem_cons_self
    unfold hookStep
    split
    · rw [if_neg fun h => this h.symm]; exact hz
    · exact hz

end load

theorem removePrefix_append (p k : Key) : removePrefix p (p ++ k) = k := by
  unfold removePrefix
  rw [if_pos (by rw [List.isPrefixOf_iff_prefix]; exact List.prefix_append p k), List.drop_left]

theorem lookup_split {sd : StateDict V} {k : Key} {x : Option V} (h : lookup sd k = some x) :
    ∃ l r, sd = l ++ (k, x) :: r ∧ ∀ e ∈ l, e.1 ≠ k := by
  unfold lookup at h
  cases hf : sd.find? (fun e => e.1 = k) with
  | none => rw [hf] at h; cases h
  | some e =>
    rw [hf] at h
    obtain ⟨h1, l, r, h2, h3⟩ := List.find?_eq_some_iff_append.1 hf
    have hx : e = (k, x) := by
      obtain ⟨a, b⟩ := e
      have := Option.some.inj h
      simp only at this h1
      rw [this, of_decide_eq_true h1]
    refine ⟨l, r, by rw [h2, hx], fun y hy => ?_⟩
    have := h3 y hy
    simpa using this

theorem removePrefix_part {pre n : Key} {sd : StateDict V} {e : Key × Option V} (he : e ∈ part pre sd) (h : removePrefix pre e.1 = n) :
    e.1 = pre ++ n := by
  have hp := (List.mem_filter.1 he).2
  unfold removePrefix at h
  rw [if_pos hp] at h
  rw [List.isPrefixOf_iff_prefix] at hp
  obtain ⟨t, ht⟩ := hp
  rw [← ht, List.drop_left] at h
  rw [← ht, h]

theorem lookup_part (pre n : Key) (sd : StateDict V) : lookup (part pre sd) (pre ++ n) = lookup sd (pre ++ n) := by
  unfold lookup part
  congr 1
  induction sd with
  | nil => rfl
  | cons e sd ih =>
    by_cases hp : pre.isPrefixOf e.1 = true
    · rw [List.filter_cons, if_pos hp, List.find?_cons, List.find?_cons, ih]
    · rw [List.filter_cons, if_neg hp, List.find?_cons, ih]
      have : ¬ e.1 = pre ++ n := by
        intro h
        apply hp
        rw [h, List.isPrefixOf_iff_prefix]; exact List.prefix_append _ _
      rw [decide_eq_false this]

/-! ### Properties -/

/-- **C115 (partial).** After tracing, whether it failed or not, every module has under each name the parameter and the buffer it had before, and no
others. Missing: that they are in the same order, see `order_changed`, and that buffers stay out of the state, see `buffer_enters_state`. -/
theorem parameters_restored_partial {E R : Type} (ph : Ten V) (ms : List (Mod V)) (body : List (Mod V) → Except E R)
    (h : ∀ m ∈ ms, Once m.params ∧ Once m.buffers) (i : ℕ) (m m' : Mod V) (hm : ms[i]? = some m) (hm' : (traced ph ms body).2.2[i]? = some m') :
    SameSlots m.params m'.params ∧ SameSlots m.buffers m'.buffers := by
  have hmem : m ∈ ms := List.mem_of_getElem? hm
  have : m' = restore m (prepare ph m) := by
    simp only [traced, List.getElem?_map, hm, Option.map_some, Option.some.injEq] at hm'
    exact hm'.symm
  subst this
  exact ⟨restore_slots ph (h m hmem).1, restore_slots ph (h m hmem).2⟩

/-- **C115 (partial).** Which buffers are part of the state is the same after tracing as before. Missing: buffers without a value, see
`buffer_enters_state`. -/
theorem transient_kept_partial {E R : Type} (ph : Ten V) (ms : List (Mod V)) (body : List (Mod V) → Except E R) (i : ℕ) (m m' : Mod V)
    (hm : ms[i]? = some m) (hm' : (traced ph ms body).2.2[i]? = some m') (n : String)
    (h : ∀ t, (n, some t) ∈ m.buffers → t.val ≠ none) : n ∈ m.transient ↔ n ∈ m'.transient := by
  have : m' = restore m (prepare ph m) := by
    simp only [traced, List.getElem?_map, hm, Option.map_some, Option.some.injEq] at hm'
    exact hm'.symm
  subst this
  have hn : n ∉ (lazyEntries m.buffers).map (·.1) := by
    intro hmem
    obtain ⟨⟨k, t⟩, hy, rfl⟩ := List.mem_map.1 hmem
    obtain ⟨h1, h2⟩ := lazy_sub m.buffers _ hy
    exact h t h1 h2
  simp only [restore, prepare]
  rw [List.mem_filter, List.mem_filter]
  exact ⟨fun hx => ⟨⟨hx, decide_eq_true hn⟩, decide_eq_true hn⟩, fun hx => hx.1.1⟩

/-- **C115.** The same modules are there afterwards, no more and no fewer, and the outcome of tracing is passed on. -/
theorem outcome_passed_on {E R : Type} (ph : Ten V) (ms : List (Mod V)) (body : List (Mod V) → Except E R) :
    (traced ph ms body).1 = body (traced ph ms body).2.1 ∧ (traced ph ms body).2.2.length = ms.length ∧
      (traced ph ms body).2.1.length = ms.length := by
  refine ⟨rfl, ?_, ?_⟩ <;> simp [traced]

/-- **C115 (partial).** While tracing, every parameter and buffer of every module has a value. Missing: a tensor without value registered under two names of
one module, see `second_name_left`. -/
theorem all_initialized_while_tracing_partial {E R : Type} (ph : Ten V) (hp : ph.val ≠ none) (ms : List (Mod V)) (body : List (Mod V) → Except E R)
    (h : ∀ m ∈ ms, (Once m.params ∧ Unshared m.params) ∧ Once m.buffers ∧ Unshared m.buffers) :
    ∀ m' ∈ (traced ph ms body).2.1, ¬ HasLazy m'.params ∧ ¬ HasLazy m'.buffers := by
  intro m' hm'
  obtain ⟨m, hm, rfl⟩ := List.mem_map.1 hm'
  obtain ⟨⟨h1, h2⟩, h3, h4⟩ := h m hm
  exact ⟨prepared_slots hp h1 h2, prepared_slots hp h3 h4⟩

/-- **C115 (partial).** While tracing, parameters and buffers that have a value are what they were. Missing: nothing but that the order changes. -/
theorem initialized_untouched_partial {E R : Type} (ph : Ten V) (ms : List (Mod V)) (body : List (Mod V) → Except E R) (i : ℕ) (m m' : Mod V)
    (hm : ms[i]? = some m) (hm' : (traced ph ms body).2.1[i]? = some m') (h : Once m.params ∧ Once m.buffers) (n : String) (x : Option (Ten V))
    (hx : ∀ t, x = some t → t.val ≠ none) :
    (At n x m.params → At n x m'.params) ∧ (At n x m.buffers → At n x m'.buffers) := by
  have : m' = prepare ph m := by
    simp only [traced, List.getElem?_map, hm, Option.map_some, Option.some.injEq] at hm'
    exact hm'.symm
  subst this
  have key : ∀ s : Slots V, Once s → At n x s → At n x (putAll ((lazyEntries s).map fun x => (x.1, ph)) s) := by
    intro s ho ha
    have hn' : (((lazyEntries s).map fun x => (x.1, ph)).map (·.1)).Nodup := by rw [ph_names]; exact lazy_nodup ho
    rw [at_iff (putAll_once ho), mem_putAll hn', ph_names]
    refine .inr ⟨fun hmem => ?_, at_mem ha⟩
    obtain ⟨⟨k, t⟩, hy, rfl⟩ := List.mem_map.1 hmem
    obtain ⟨h1, h2⟩ := lazy_sub s _ hy
    exact hx t (once_unique ho (at_mem ha) h1) h2
  exact ⟨key _ h.1, key _ h.2⟩

section load
variable {S : Type} [DecidableEq S]

/-- **C115.** A parameter without a value gets exactly the saved value, whatever its shape and whatever else is in the state. -/
theorem lazy_gets_saved_value (shape : V → S) (pre : Key) (sd : StateDict V) (ps : Params S V) (n : Key) (hz : ps n = some .lazy) (v : V)
    (hv : lookup sd (pre ++ n) = some (some v)) : load shape pre sd ps n = some (.value v, none) := by
  rw [← lookup_part] at hv
  obtain ⟨l, r, h1, h2⟩ := lookup_split hv
  have hl : ∀ e ∈ l, removePrefix pre e.1 ≠ n := by
    intro e he heq
    exact h2 e he (removePrefix_part (h1 ▸ List.mem_append_left _ he) heq)
  unfold load
  rw [hv, h1, hook_first shape pre hl (removePrefix_append pre n) hz]
  simp [loadOne]

/-- **C115.** A parameter that is not in the state, or was saved without a value, stays without one. -/
theorem lazy_without_entry_stays (shape : V → S) (pre : Key) (sd : StateDict V) (ps : Params S V) (n : Key) (hz : ps n = some .lazy)
    (hk : ∀ e ∈ sd, e.1 = pre ++ n → e.2 = none) : ∃ err, load shape pre sd ps n = some (.lazy, err) := by
  unfold load
  rw [hook_none shape pre, hz]
  · have : lookup (part pre sd) (pre ++ n) = none ∨ lookup (part pre sd) (pre ++ n) = some none := by
      cases hl : lookup (part pre sd) (pre ++ n) with
      | none => exact .inl rfl
      | some x =>
        obtain ⟨l, r, h1, _⟩ := lookup_split hl
        right
        have hx : (pre ++ n, x) ∈ part pre sd := by rw [h1]; simp
        have : x = none := hk (pre ++ n, x) (List.mem_filter.1 hx).1 rfl
        rw [this]
    rcases this with h | h <;> rw [h]
    · exact ⟨_, rfl⟩
    · exact ⟨_, rfl⟩
  · intro e he heq
    exact hk e (List.mem_filter.1 he).1 (removePrefix_part he heq)

/-- **C115.** A parameter that has a value gets the saved value if that has its shape, and otherwise keeps its own with an error. -/
theorem value_replaced_if_shape_fits (shape : V → S) (pre : Key) (sd : StateDict V) (ps : Params S V) (n : Key) (w : V) (hz : ps n = some (.value w))
    (v : V) (hv : lookup sd (pre ++ n) = some (some v)) :
    load shape pre sd ps n = some (if shape v = shape w then (.value v, none) else (.value w, some .size)) := by
  unfold load
  rw [hook_notLazy shape pre (by rw [hz]; simp), hz, lookup_part, hv]
  rfl

/-- **C115.** Entries of other modules make no difference: two states with the same entries below `pre` load alike. -/
theorem other_entries_ignored (shape : V → S) (pre : Key) (sd sd' : StateDict V) (ps : Params S V) (n : Key)
    (h : sd.filter (fun e => decide (pre <+: e.1)) = sd'.filter fun e => decide (pre <+: e.1)) :
    load shape pre sd ps n = load shape pre sd' ps n := by
  have hp : ∀ x : StateDict V, part pre x = x.filter fun e => decide (pre <+: e.1) := by
    intro x
    unfold part
    refine List.filter_congr fun e _ => ?_
    rw [Bool.eq_iff_iff, List.isPrefixOf_iff_prefix, decide_eq_true_iff]
  unfold load
  rw [hp sd, hp sd', h]

/-- **C115.** After loading, a quantizer says that parameters are without a value if one had none before and the state has no value for it, and does not say so if the state
has a value for each of its parameters that had none. -/
theorem uninitialized_reported (shape : V → S) (pre : Key) (sd : StateDict V) (ps after : Params S V) (names : List Key)
    (ha : ∀ n, after n = (load shape pre sd ps n).map (·.1)) :
    (∀ n ∈ names, ps n = some .lazy → (∀ e ∈ sd, e.1 = pre ++ n → e.2 = none) → hasUninitialized after names = true) ∧
    ((∀ n ∈ names, ps n = some .lazy ∧ ∃ v, lookup sd (pre ++ n) = some v ∧ v.isSome) → hasUninitialized after names = false) := by
  refine ⟨fun n hn hl he => ?_, fun h => ?_⟩
  · obtain ⟨err, ho⟩ := lazy_without_entry_stays shape pre sd ps n hl he
    have : after n = some .lazy := by rw [ha, ho]; rfl
    exact List.any_eq_true.2 ⟨n, hn, by rw [this]⟩
  · refine List.any_eq_false.2 fun n hn => ?_
    obtain ⟨hl, v, hv, hs⟩ := h n hn
    obtain ⟨w, rfl⟩ := Option.isSome_iff_exists.1 hs
    have : after n = some (.value w) := by rw [ha, lazy_gets_saved_value shape pre sd ps n hl w hv]; rfl
    simp [this]

/-! ### Deviations -/

/-- **C115, deviation.** A quantizer whose scale is loaded and whose offset, a buffer, is not in the state says that all its parameters have values,
though the offset has none. -/
theorem offset_without_value_unreported (shape : V → S) (pre : Key) (ps : Params S V) (scale offset : Key) (hne : scale ≠ offset)
    (h1 : ps scale = some .lazy) (h2 : ps offset = some .lazy) (v : V) (after : Params S V)
    (ha : ∀ n, after n = (load shape pre [(pre ++ scale, some v)] ps n).map (·.1)) :
    hasUninitialized after [scale] = false ∧ after offset = some .lazy := by
  have hs := lazy_gets_saved_value shape pre [(pre ++ scale, some v)] ps scale h1 v (by simp [lookup])
  obtain ⟨err, ho⟩ := lazy_without_entry_stays shape pre [(pre ++ scale, some v)] ps offset h2 (by
    intro e he heq
    rw [List.mem_singleton] at he
    rw [he] at heq
    exact absurd (List.append_cancel_left heq) hne)
  refine ⟨?_, ?_⟩
  · have : after scale = some (.value v) := by rw [ha, hs]; rfl
    simp [hasUninitialized, this]
  · rw [ha, ho]; rfl

end load

/-- **C115, deviation.** Tracing changes the order of parameters: one without a value goes behind those that have one. -/
theorem order_changed {E R : Type} (ph t u : Ten V) (ht : t.val = none) (hu : u.val ≠ none) (body : List (Mod V) → Except E R) :
    (traced ph [⟨[("scale", some t), ("weight", some u)], [], []⟩] body).2.2.map (fun m => m.params) = [[("weight", some u), ("scale", some t)]] := by
  have hl : lazyEntries [("scale", some t), ("weight", some u)] = [("scale", t)] := by
    unfold lazyEntries
    by_cases h : u.id = t.id
    · simp [named, h, ht]
    · simp [named, h, ht, hu]
  simp [traced, restore, prepare, hl, putAll, put]

/-- **C115, deviation.** A buffer without a value that is not part of the state is part of it after tracing. -/
theorem buffer_enters_state {E R : Type} (ph t : Ten V) (ht : t.val = none) (body : List (Mod V) → Except E R) :
    (traced ph [⟨[], [("cache", some t)], ["cache"]⟩] body).2.2.map (fun m => m.transient) = [[]] := by
  simp [traced, restore, prepare, lazyEntries, named, ht]

/-- **C115, deviation.** A tensor without a value that a module has under two names is replaced under the first alone. -/
theorem second_name_left {E R : Type} (ph t : Ten V) (ht : t.val = none) (body : List (Mod V) → Except E R) :
    ∃ m', (traced ph [⟨[("a", some t), ("b", some t)], [], []⟩] body).2.1 = [m'] ∧ HasLazy m'.params := by
  refine ⟨_, rfl, "b", t, ?_, ht⟩
  have : (prepare ph ⟨[("a", some t), ("b", some t)], [], []⟩).params = [("b", some t), ("a", some ph)] := by
    simp [prepare, lazyEntries, named, ht, putAll, put]
  rw [this]
  exact .here _

/-! ### Concrete cases -/

/-- A quantizer with two parameters without value beside a weight. -/
def exMod : Mod ℕ := ⟨[("weight", some ⟨0, some 5⟩), ("scale", some ⟨1, none⟩), ("offset", none), ("zero", some ⟨2, none⟩)], [], []⟩

example : Once exMod.params := by unfold Once exMod; decide

example : (prepare ⟨9, some 0⟩ exMod).params =
    [("weight", some ⟨0, some 5⟩), ("offset", none), ("scale", some ⟨9, some 0⟩), ("zero", some ⟨9, some 0⟩)] := by decide

example : (restore exMod (prepare ⟨9, some 0⟩ exMod)).params =
    [("weight", some ⟨0, some 5⟩), ("offset", none), ("scale", some ⟨1, none⟩), ("zero", some ⟨2, none⟩)] := by decide

/-- States with lists of numbers, whose shape is their length. -/
def exParams : Params ℕ (List ℕ) := fun n => if n = "scale".toList then some .lazy else none

example : load List.length "q.".toList [("weight".toList, some [1, 2]), ("q.scale".toList, some [7, 8, 9])] exParams "scale".toList =
    some (.value [7, 8, 9], none) := by decide +kernel

/-- The model has an entry `scale` of its own, which makes no difference. -/
example : load List.length "q.".toList [("scale".toList, some [1]), ("q.scale".toList, some [7, 8, 9])] exParams "scale".toList =
    some (.value [7, 8, 9], none) := by decide +kernel

end FF.Lazy
