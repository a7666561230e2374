import Mathlib.Data.Nat.Notation
import Mathlib.Tactic.ByContra

/-! # `fuse_qdq_weights`: replacing weights by their quantized values (C92)

Models `quantization/fuse.py`: `ConventionDiscovery`, `_check_tied_weight_targets`, `_fuse_target`, `_stub_target`, `fuse_qdq_weights`,
`stub_weight_quantizers`. -/

namespace FF.Fuse

/-! ### Model -/

/-- What does not change: the `weight` parameter of each module, the memory and shape of each parameter, the quantizers with the tag that is looked for, and what
quantizers do: `none` if the quantizer gives the very tensor it got, as disabled ones do, else the dequantized values. -/
structure World (V : Type) where
  weight : ℕ → Option ℕ
  addrs : ℕ → List ℕ
  shape : ℕ → List ℕ
  tagged : ℕ → Bool
  quant : ℕ → List V → Option (List V)

/-- Memory, and the quantizers under each module by name; `none` is a stub. -/
structure State (V : Type) where
  mem : ℕ → V
  slots : ℕ → List (ℕ × Option ℕ)

structure Target where
  module : ℕ
  param : ℕ
  quantizer : ℕ
  deriving DecidableEq

variable {V : Type} [DecidableEq V]

/-- The values of a parameter. -/
def read (W : World V) (s : State V) (p : ℕ) : List V := (W.addrs p).map s.mem

/-- `weight.copy_(values)`. -/
def writeAt : List ℕ → List V → (ℕ → V) → ℕ → V
  | a :: as, v :: vs, mem => writeAt as vs fun x => if x = a then v else mem x
  | _, _, mem => mem

/-- `ConventionDiscovery.__call__` (74-88), for the modules in the order in which they are found. Simplification: quantizers are direct children of modules. -/
def discover (W : World V) (s : State V) (mods : List ℕ) : List Target :=
  mods.flatMap fun m =>
    match W.weight m with
    | none => []
    | some p => (s.slots m).filterMap fun c =>
      match c.2 with
      | some q => if W.tagged q then some ⟨m, p, q⟩ else none
      | none => none

/-- `quantizer(weight).dequantize()`. -/
def qdq (W : World V) (q : ℕ) (w : List V) : List V := (W.quant q w).getD w

/-- The key in `by_storage`: `data_ptr` and shape (163-166). -/
def key (W : World V) (t : Target) : Option ℕ × List ℕ := ((W.addrs t.param).head?, W.shape t.param)

/-- `_check_tied_weight_targets` (140-196): each target is compared with the first of its group, on the weight of the first. -/
def check (W : World V) (s : State V) (T : List Target) : Bool :=
  T.all fun t =>
    match T.find? (fun g => key W g == key W t) with
    | some g => decide (qdq W g.quantizer (read W s g.param) = qdq W t.quantizer (read W s g.param))
    | none => true

/-- The loop of `_stub_target` (134-137): the first name under which the quantizer is found. -/
def stubFirst (q : ℕ) : List (ℕ × Option ℕ) → List (ℕ × Option ℕ)
  | [] => []
  | (n, o) :: l => if o = some q then (n, none) :: l else (n, o) :: stubFirst q l

/-- `_stub_target` (124-137). -/
def stubTarget (m q : ℕ) (s : State V) : State V :=
  { s with slots := fun x => if x = m then stubFirst q (s.slots m) else s.slots x }

/-- `_fuse_target` (91-121). -/
def fuseTarget (W : World V) (stub : Bool) (s : State V) (t : Target) : State V :=
  match W.quant t.quantizer (read W s t.param) with
  | none => s
  | some w =>
    let s := { s with mem := writeAt (W.addrs t.param) w s.mem }
    if stub then stubTarget t.module t.quantizer s else s

/-- `fuse_qdq_weights` (199-241), with the targets that the discovery gives. -/
def fuse (W : World V) (stub : Bool) (T : List Target) (s : State V) : Bool × State V :=
  if check W s T then (true, T.foldl (fuseTarget W stub) s) else (false, s)

/-- `stub_weight_quantizers` (267-294). -/
def stubAll (T : List Target) (s : State V) : State V := T.foldl (fun s t => stubTarget t.module t.quantizer s) s

/-! ### Specification -/

/-- The weight that a module computes with, if it applies its quantizer named `n`: quantized if there is a quantizer. -/
def effective (W : World V) (s : State V) (m n : ℕ) : Option (List V) :=
  (W.weight m).map fun p =>
    match (s.slots m).lookup n with
    | some (some q) => (W.quant q ((W.addrs p).map s.mem)).getD ((W.addrs p).map s.mem)
    | _ => (W.addrs p).map s.mem

/-- Two parameters use the same memory in the same way. -/
def Tied (W : World V) (p p' : ℕ) : Prop := W.addrs p = W.addrs p'

/-- Parameters are either tied or have no memory in common, and start and shape tell. -/
structure Plain (W : World V) : Prop where
  nodup : ∀ p, (W.addrs p).Nodup
  apart : ∀ p p', Tied W p p' ∨ ∀ a, a ∈ W.addrs p → a ∉ W.addrs p'
  key : ∀ p p', Tied W p p' ↔ (W.addrs p).head? = (W.addrs p').head? ∧ W.shape p = W.shape p'

/-- Quantizers are idempotent and keep the size. -/
structure Idempotent (W : World V) : Prop where
  size : ∀ q w w', W.quant q w = some w' → w'.length = w.length
  again : ∀ q w w', W.quant q w = some w' → W.quant q w' = some w'

/-- Each module has its weight quantizer under the name `wq m` only, and names are unique. -/
structure Conventional (W : World V) (s : State V) (mods : List ℕ) (wq : ℕ → ℕ) : Prop where
  named : ∀ m ∈ mods, ∀ n q, (n, some q) ∈ s.slots m → W.tagged q = true → n = wq m
  tagged : ∀ m ∈ mods, ∀ q, (wq m, some q) ∈ s.slots m → W.tagged q = true
  unique : ∀ m, ((s.slots m).map (·.1)).Nodup

/-- If a weight is shared, either all modules that use it quantize it or none does. -/
def Together (W : World V) (s : State V) (mods : List ℕ) (wq : ℕ → ℕ) : Prop :=
  ∀ m ∈ mods, ∀ m' ∈ mods, ∀ p p' q, W.weight m = some p → W.weight m' = some p' → Tied W p p' → (wq m, some q) ∈ s.slots m → ∃ q', (wq m', some q') ∈ s.slots m'

/-! ### Lemmas -/

omit [DecidableEq V] in
theorem writeAt_other (as : List ℕ) (vs : List V) (mem : ℕ → V) (x : ℕ) (hx : x ∉ as) : writeAt as vs mem x = mem x := by
  induction as generalizing vs mem with
  | nil => cases vs <;> rfl
  | cons a as ih =>
    simp only [List.mem_cons, not_or] at hx
    cases vs with
    | nil => rfl
    | cons v vs =>
      rw [writeAt, ih _ _ hx.2, if_neg hx.1]

omit [DecidableEq V] in
theorem writeAt_self (as : List ℕ) (vs : List V) (mem : ℕ → V) (hn : as.Nodup) (hl : vs.length = as.length) : as.map (writeAt as vs mem) = vs := by
  induction as generalizing vs mem with
  | nil => cases vs with
    | nil => rfl
    | cons v vs => simp at hl
  | cons a as ih =>
    cases vs with
    | nil => simp at hl
    | cons v vs =>
      rw [List.nodup_cons] at hn
      simp only [List.length_cons, Nat.add_right_cancel_iff] at hl
      simp only [writeAt, List.map_cons]
      rw [writeAt_other _ _ _ _ hn.1, if_pos rfl, ih _ _ hn.2 hl]

theorem check_spec {W : World V} (hp : Plain W) {s : State V} {T : List Target} : check W s T = true ↔
    ∀ t ∈ T, ∀ t' ∈ T, Tied W t.param t'.param → qdq W t.quantizer (read W s t.param) = qdq W t'.quantizer (read W s t'.param) := by
  have hkey : ∀ t t', key W t = key W t' ↔ Tied W t.param t'.param := by
    intro t t'
    rw [hp.key]
    simp [key]
  have hread : ∀ p p', Tied W p p' → read W s p = read W s p' := by
    intro p p' h
    simp only [read]
    rw [show W.addrs p = W.addrs p' from h]
  unfold check
  rw [List.all_eq_true]
  constructor
  · intro h t ht t' ht' htied
    have e : ∀ t ∈ T, ∀ g, T.find? (fun g => key W g == key W t) = some g → qdq W t.quantizer (read W s t.param) = qdq W g.quantizer (read W s g.param) := by
      intro t ht g hg
      have := h t ht
      rw [hg] at this
      have hk : key W g = key W t := by simpa using List.find?_some hg
      simp only [decide_eq_true_eq] at this
      rw [this, hread g.param t.param ((hkey g t).1 hk)]
    have hk : key W t = key W t' := (hkey t t').2 htied
    cases hf : T.find? (fun g => key W g == key W t) with
    | none =>
      have := List.find?_eq_none.1 hf t ht
      simp at this
    | some g =>
      rw [e t ht g hf]
      rw [hk] at hf
      rw [e t' ht' g hf]
  · intro h t ht
    cases hf : T.find? (fun g => key W g == key W t) with
    | none => rfl
    | some g =>
      simp only [decide_eq_true_eq]
      have hk : key W g = key W t := by simpa using List.find?_some hf
      have := h g (List.mem_of_find?_eq_some hf) t ht ((hkey g t).1 hk)
      rw [this, hread g.param t.param ((hkey g t).1 hk)]

theorem stubFirst_names (q : ℕ) (l : List (ℕ × Option ℕ)) : (stubFirst q l).map (·.1) = l.map (·.1) := by
  induction l with
  | nil => rfl
  | cons c l ih =>
    obtain ⟨n, o⟩ := c
    simp only [stubFirst]
    split
    · rfl
    · simp [ih]

/-- The quantizers that remain are those that were there. -/
theorem stubFirst_mem {q : ℕ} {l : List (ℕ × Option ℕ)} {n q' : ℕ} (h : (n, some q') ∈ stubFirst q l) : (n, some q') ∈ l := by
  induction l with
  | nil => simp [stubFirst] at h
  | cons c l ih =>
    obtain ⟨n', o⟩ := c
    simp only [stubFirst] at h
    split at h
    · simp at h
      exact List.mem_cons_of_mem _ h
    · simp only [List.mem_cons] at h
      rcases h with h | h
      · exact h ▸ List.mem_cons_self
      · exact List.mem_cons_of_mem _ (ih h)

theorem stubFirst_keep {q q' n : ℕ} {l : List (ℕ × Option ℕ)} (h : (n, some q') ∈ l) (hne : q' ≠ q) : (n, some q') ∈ stubFirst q l := by
  induction l with
  | nil => simp at h
  | cons c l ih =>
    obtain ⟨n', o⟩ := c
    simp only [stubFirst]
    simp only [List.mem_cons] at h
    split
    · rename_i ho
      rcases h with h | h
      · simp only [Prod.mk.injEq] at h
        rw [ho] at h
        simp only [Option.some.injEq] at h
        exact absurd h.2 hne
      · exact List.mem_cons_of_mem _ h
    · rcases h with h | h
      · exact h ▸ List.mem_cons_self
      · exact List.mem_cons_of_mem _ (ih h)

theorem stubFirst_gone {q n : ℕ} {l : List (ℕ × Option ℕ)} (hone : ∀ n', (n', some q) ∈ l → n' = n) (hu : (l.map (·.1)).Nodup) : ∀ n', (n', some q) ∉ stubFirst q l := by
  induction l with
  | nil => simp [stubFirst]
  | cons c l ih =>
    obtain ⟨m, o⟩ := c
    simp only [List.map_cons, List.nodup_cons] at hu
    intro n' hm
    simp only [stubFirst] at hm
    split at hm
    · rename_i ho
      subst ho
      simp only [List.mem_cons, Prod.mk.injEq, reduceCtorEq, and_false, false_or] at hm
      have h1 := hone n' (List.mem_cons_of_mem _ hm)
      have h2 := hone m List.mem_cons_self
      subst h1 h2
      exact hu.1 (List.mem_map.2 ⟨_, hm, rfl⟩)
    · rename_i ho
      simp only [List.mem_cons, Prod.mk.injEq] at hm
      rcases hm with hm | hm
      · exact ho hm.2.symm
      · exact ih (fun n'' h => hone n'' (List.mem_cons_of_mem _ h)) hu.2 n' hm

theorem lookup_of_mem {l : List (ℕ × Option ℕ)} (hu : (l.map (·.1)).Nodup) {n : ℕ} {o : Option ℕ} (h : (n, o) ∈ l) : l.lookup n = some o := by
  induction l with
  | nil => simp at h
  | cons c l ih =>
    obtain ⟨m, o'⟩ := c
    simp only [List.map_cons, List.nodup_cons] at hu
    simp only [List.mem_cons, Prod.mk.injEq] at h
    rcases h with ⟨rfl, rfl⟩ | h
    · simp [List.lookup]
    · have : n ≠ m := by
        rintro rfl
        exact hu.1 (List.mem_map.2 ⟨_, h, rfl⟩)
      simp only [List.lookup, beq_eq_false_iff_ne.2 this]
      exact ih hu.2 h

theorem mem_of_lookup {l : List (ℕ × Option ℕ)} {n : ℕ} {o : Option ℕ} (h : l.lookup n = some o) : (n, o) ∈ l := by
  induction l with
  | nil => simp at h
  | cons c l ih =>
    obtain ⟨m, o'⟩ := c
    simp only [List.lookup] at h
    split at h
    · rename_i hb
      have := beq_iff_eq.1 hb
      subst this
      cases h
      exact List.mem_cons_self
    · exact List.mem_cons_of_mem _ (ih h)

omit [DecidableEq V] in
theorem mem_discover {W : World V} {s : State V} {mods : List ℕ} {t : Target} : t ∈ discover W s mods ↔
    t.module ∈ mods ∧ W.weight t.module = some t.param ∧ W.tagged t.quantizer = true ∧ ∃ n, (n, some t.quantizer) ∈ s.slots t.module := by
  unfold discover
  rw [List.mem_flatMap]
  constructor
  · rintro ⟨m, hm, h⟩
    cases hw : W.weight m with
    | none => simp [hw] at h
    | some p =>
      simp only [hw, List.mem_filterMap] at h
      obtain ⟨⟨n, o⟩, hc, h⟩ := h
      cases o with
      | none => simp at h
      | some q =>
        simp only at h
        split at h
        · rename_i ht
          cases h
          exact ⟨hm, hw, ht, n, hc⟩
        · simp at h
  · rintro ⟨hm, hw, ht, n, hn⟩
    refine ⟨t.module, hm, ?_⟩
    simp only [hw, List.mem_filterMap]
    exact ⟨(n, some t.quantizer), hn, by simp [ht]⟩

/-- What is left of the quantizers, and what weights are, while targets are fused. -/
structure Inv (W : World V) (s0 s : State V) (done : List Target) (stub : Bool) : Prop where
  /-- Parameters that no target has touched are as they were. -/
  same : ∀ p, (∀ t ∈ done, ¬ Tied W t.param p) → read W s p = read W s0 p
  /-- The others are as the targets want them, or as they were, if no target changed them. -/
  val : ∀ p, read W s p = read W s0 p ∨ ∃ t ∈ done, Tied W t.param p ∧ read W s p = qdq W t.quantizer (read W s0 p)
  /-- A target that is active has set its parameter. -/
  set : ∀ t ∈ done, read W s t.param = qdq W t.quantizer (read W s0 t.param)
  /-- Names are kept. -/
  names : ∀ m, (s.slots m).map (·.1) = (s0.slots m).map (·.1)
  /-- Quantizers that remain were there. -/
  sub : ∀ m n q, (n, some q) ∈ s.slots m → (n, some q) ∈ s0.slots m
  /-- Quantizers that are gone were targets. -/
  gone : ∀ m n q, (n, some q) ∈ s0.slots m → (n, some q) ∉ s.slots m → stub = true ∧ ∃ t ∈ done, t.module = m ∧ t.quantizer = q

omit [DecidableEq V] in
theorem qdq_again {W : World V} (hi : Idempotent W) (q : ℕ) (w : List V) : qdq W q (qdq W q w) = qdq W q w := by
  unfold qdq
  cases h : W.quant q w with
  | none => simp [h]
  | some w' => simp [hi.again q w w' h]

omit [DecidableEq V] in
theorem fold_inv {W : World V} (hp : Plain W) (hi : Idempotent W) {s0 : State V} {stub : Bool} (T : List Target)
    (hc : ∀ t ∈ T, ∀ t' ∈ T, Tied W t.param t'.param → qdq W t.quantizer (read W s0 t.param) = qdq W t'.quantizer (read W s0 t'.param))
    (todo done : List Target) (hT : ∀ t, t ∈ T ↔ t ∈ done ∨ t ∈ todo) (s : State V) (h : Inv W s0 s done stub) :
    Inv W s0 (todo.foldl (fuseTarget W stub) s) (done ++ todo) stub := by
  induction todo generalizing done s with
  | nil => simpa using h
  | cons t todo ih =>
    have hread : ∀ (s : State V) p p', Tied W p p' → read W s p = read W s p' := by
      intro s p p' h
      simp only [read]
      rw [show W.addrs p = W.addrs p' from h]
    have htT : t ∈ T := (hT t).2 (Or.inr List.mem_cons_self)
    -- what the weight of the target is before and after
    have hgoal : qdq W t.quantizer (read W s t.param) = qdq W t.quantizer (read W s0 t.param) := by
      rcases h.val t.param with e | ⟨t', ht', htied, e⟩
      · rw [e]
      · have := hc t' ((hT t').2 (Or.inl ht')) t htT htied
        rw [hread s0 _ _ htied] at this
        rw [e, this, qdq_again hi]
    have hafter : read W (fuseTarget W stub s t) t.param = qdq W t.quantizer (read W s0 t.param) := by
      rw [← hgoal]
      unfold fuseTarget
      cases hq : W.quant t.quantizer (read W s t.param) with
      | none => simp [qdq, hq]
      | some w =>
        have hl : w.length = (W.addrs t.param).length := by rw [hi.size _ _ _ hq]; simp [read]
        have := writeAt_self (W.addrs t.param) w s.mem (hp.nodup _) hl
        have he : qdq W t.quantizer (read W s t.param) = w := by simp [qdq, hq]
        rw [he]
        cases stub <;> exact this
    have hother : ∀ p, ¬ Tied W t.param p → read W (fuseTarget W stub s t) p = read W s p := by
      intro p hne
      unfold fuseTarget
      cases hq : W.quant t.quantizer (read W s t.param) with
      | none => rfl
      | some w =>
        have hd := (hp.apart t.param p).resolve_left hne
        have : (W.addrs p).map (writeAt (W.addrs t.param) w s.mem) = (W.addrs p).map s.mem :=
          List.map_congr_left fun a ha => writeAt_other _ _ _ _ fun h => hd a h ha
        cases stub <;> simpa [read, stubTarget] using this
    have hslots : ∀ m, (fuseTarget W stub s t).slots m = s.slots m ∨
        (stub = true ∧ m = t.module ∧ (fuseTarget W stub s t).slots m = stubFirst t.quantizer (s.slots m)) := by
      intro m
      unfold fuseTarget
      cases hq : W.quant t.quantizer (read W s t.param) with
      | none => exact Or.inl rfl
      | some w =>
        cases stub with
        | false => exact Or.inl rfl
        | true =>
          by_cases hm : m = t.module
          · subst hm
            exact Or.inr ⟨rfl, rfl, by simp [stubTarget]⟩
          · exact Or.inl (by simp [stubTarget, hm])
    have key : Inv W s0 (fuseTarget W stub s t) (done ++ [t]) stub := by
      refine ⟨fun p hn => ?_, fun p => ?_, fun t' ht' => ?_, fun m => ?_, fun m n q hm => ?_, fun m n q h0 hn => ?_⟩
      · rw [hother p (hn t (by simp))]
        exact h.same p fun t' ht' => hn t' (by simp [ht'])
      · by_cases htied : Tied W t.param p
        · refine Or.inr ⟨t, by simp, htied, ?_⟩
          rw [← hread _ _ _ htied, hafter, hread s0 _ _ htied]
        · rw [hother p htied]
          rcases h.val p with e | ⟨t', ht', e⟩
          · exact Or.inl e
          · exact Or.inr ⟨t', by simp [ht'], e⟩
      · by_cases htied : Tied W t.param t'.param
        · have ht'T : t' ∈ T := by
            simp only [List.mem_append, List.mem_singleton] at ht'
            rcases ht' with h' | rfl
            · exact (hT t').2 (Or.inl h')
            · exact htT
          rw [← hread _ _ _ htied, hafter]
          exact hc t htT t' ht'T htied
        · rw [hother _ htied]
          simp only [List.mem_append, List.mem_singleton] at ht'
          rcases ht' with h' | rfl
          · exact h.set t' h'
          · exact absurd rfl htied
      · rcases hslots m with e | ⟨_, _, e⟩
        · rw [e, h.names]
        · rw [e, stubFirst_names, h.names]
      · rcases hslots m with e | ⟨_, _, e⟩
        · rw [e] at hm
          exact h.sub m n q hm
        · rw [e] at hm
          exact h.sub m n q (stubFirst_mem hm)
      · by_cases hs : (n, some q) ∈ s.slots m
        · rcases hslots m with e | ⟨hst, hmod, e⟩
          · rw [e] at hn
            exact absurd hs hn
          · rw [e] at hn
            refine ⟨hst, t, by simp, hmod.symm, ?_⟩
            by_contra hne
            exact hn (stubFirst_keep hs fun e => hne e.symm)
        · obtain ⟨h1, t', ht', h2⟩ := h.gone m n q h0 hs
          exact ⟨h1, t', by simp [ht'], h2⟩
    have := ih (done ++ [t]) (fun x => by rw [hT]; simp [or_assoc]) _ key
    simpa using this

omit [DecidableEq V] in
theorem inv_start (W : World V) (s : State V) (stub : Bool) : Inv W s s [] stub :=
  ⟨fun _ _ => rfl, fun _ => Or.inl rfl, by simp, fun _ => rfl, fun _ _ _ h => h, fun _ _ _ h h' => absurd h h'⟩

/-! ### Properties -/

/-- **C92 (partial).** Fused models compute what they computed: the weight that each module computes with, its quantizer included, is the same before and after,
with the quantizers replaced by stubs or not.

Missing: quantizers that are not idempotent, weights that overlap in other ways than by being the same, and weights shared with modules that do not quantize
them, see the deviations. -/
theorem results_kept_partial {W : World V} (hp : Plain W) (hi : Idempotent W) {s s' : State V} {mods : List ℕ} {wq : ℕ → ℕ} (hconv : Conventional W s mods wq)
    (htog : Together W s mods wq) (stub : Bool) (h : fuse W stub (discover W s mods) s = (true, s')) (m : ℕ) (hm : m ∈ mods) :
    effective W s' m (wq m) = effective W s m (wq m) := by
  unfold fuse at h
  split at h
  · rename_i hck
    have hc := (check_spec hp).1 hck
    have hinv := fold_inv hp hi (discover W s mods) hc (discover W s mods) [] (by simp) s (inv_start W s stub)
    simp only [Prod.mk.injEq, true_and] at h
    rw [h] at hinv
    simp only [List.nil_append] at hinv
    unfold effective
    cases hw : W.weight m with
    | none => rfl
    | some p =>
      simp only [Option.map_some, Option.some.injEq]
      have hu' : ((s'.slots m).map (·.1)).Nodup := by rw [hinv.names]; exact hconv.unique m
      show (match (s'.slots m).lookup (wq m) with | some (some q) => qdq W q (read W s' p) | _ => read W s' p) =
        match (s.slots m).lookup (wq m) with | some (some q) => qdq W q (read W s p) | _ => read W s p
      -- the quantizer of the module before
      by_cases hq : ∃ q, (wq m, some q) ∈ s.slots m
      · obtain ⟨q, hq⟩ := hq
        rw [lookup_of_mem (hconv.unique m) hq]
        have ht : (⟨m, p, q⟩ : Target) ∈ discover W s mods := mem_discover.2 ⟨hm, hw, hconv.tagged m hm q hq, wq m, hq⟩
        have hset := hinv.set _ ht
        simp only at hset ⊢
        by_cases hq' : (wq m, some q) ∈ s'.slots m
        · rw [lookup_of_mem hu' hq']
          simp only
          rw [hset, qdq_again hi]
        · cases hl : (s'.slots m).lookup (wq m) with
          | none => exact hset
          | some o =>
            cases o with
            | none => exact hset
            | some q2 =>
              have h2 := hinv.sub m _ _ (mem_of_lookup hl)
              have := lookup_of_mem (hconv.unique m) h2
              rw [lookup_of_mem (hconv.unique m) hq] at this
              simp only [Option.some.injEq] at this
              subst this
              exact absurd (mem_of_lookup hl) hq'
      · have hno : ∀ q, (s.slots m).lookup (wq m) ≠ some (some q) := fun q hl => hq ⟨q, mem_of_lookup hl⟩
        have hno' : ∀ q, (s'.slots m).lookup (wq m) ≠ some (some q) := fun q hl => hq ⟨q, hinv.sub m _ _ (mem_of_lookup hl)⟩
        have hsame : read W s' p = read W s p := by
          refine hinv.same p fun t ht htied => hq ?_
          obtain ⟨h1, h2, h3, n, h4⟩ := mem_discover.1 ht
          have hn := hconv.named t.module h1 n t.quantizer h4 h3
          subst hn
          exact htog t.module h1 m hm t.param p t.quantizer h2 hw htied h4
        have e : (match (s'.slots m).lookup (wq m) with | some (some q) => qdq W q (read W s' p) | _ => read W s' p) = read W s' p := by
          split
          · rename_i q hl
            exact absurd hl (hno' q)
          · rfl
        have e' : (match (s.slots m).lookup (wq m) with | some (some q) => qdq W q (read W s p) | _ => read W s p) = read W s p := by
          split
          · rename_i q hl
            exact absurd hl (hno q)
          · rfl
        rw [e, e', hsame]
  · simp at h

/-- **C92 (partial).** After fusing, every weight with a quantizer holds its quantized values; if asked for, its quantizer is replaced by a stub; weights without and
other quantizers are as they were.

Missing: as for `results_kept_partial`; quantizers that are disabled stay. -/
theorem weights_fused_partial {W : World V} (hp : Plain W) (hi : Idempotent W) {s s' : State V} {mods : List ℕ} (stub : Bool)
    (h : fuse W stub (discover W s mods) s = (true, s')) :
    (∀ m ∈ mods, ∀ p n q, W.weight m = some p → (n, some q) ∈ s.slots m → W.tagged q = true →
      read W s' p = (W.quant q (read W s p)).getD (read W s p)) ∧
    (∀ p, (∀ m ∈ mods, ∀ p' n q, W.weight m = some p' → (n, some q) ∈ s.slots m → W.tagged q = true → ¬ Tied W p' p) → read W s' p = read W s p) ∧
    (∀ m n q, (n, some q) ∈ s.slots m → (stub = false ∨ W.tagged q = false ∨ m ∉ mods) → (n, some q) ∈ s'.slots m) ∧
    ∀ m n q, (n, some q) ∈ s'.slots m → (n, some q) ∈ s.slots m := by
  unfold fuse at h
  split at h
  · rename_i hck
    have hc := (check_spec hp).1 hck
    have hinv := fold_inv hp hi (discover W s mods) hc (discover W s mods) [] (by simp) s (inv_start W s stub)
    simp only [Prod.mk.injEq, true_and] at h
    rw [h] at hinv
    simp only [List.nil_append] at hinv
    refine ⟨fun m hm p n q hw hq ht => hinv.set ⟨m, p, q⟩ (mem_discover.2 ⟨hm, hw, ht, n, hq⟩), fun p hno => hinv.same p fun t ht htied => ?_, fun m n q h0 hor => ?_,
      hinv.sub⟩
    · obtain ⟨h1, h2, h3, n, h4⟩ := mem_discover.1 ht
      exact hno t.module h1 t.param n t.quantizer h2 h4 h3 htied
    · by_contra hn
      obtain ⟨h1, t, ht, rfl, rfl⟩ := hinv.gone m n q h0 hn
      obtain ⟨h2, _, h3, _⟩ := mem_discover.1 ht
      rcases hor with h | h | h
      · rw [h1] at h; simp at h
      · rw [h3] at h; simp at h
      · exact h h2
  · simp at h

omit [DecidableEq V] in
/-- The loop stubs a target whose quantizer is active. -/
theorem fold_stubs {W : World V} (hp : Plain W) (hi : Idempotent W) {s0 : State V} (T : List Target)
    (hc : ∀ t ∈ T, ∀ t' ∈ T, Tied W t.param t'.param → qdq W t.quantizer (read W s0 t.param) = qdq W t'.quantizer (read W s0 t'.param))
    (hact : ∀ t ∈ T, ∀ w, W.quant t.quantizer w ≠ none)
    (hone : ∀ t ∈ T, ∃ n, ∀ n', (n', some t.quantizer) ∈ s0.slots t.module → n' = n) (hu : ∀ m, ((s0.slots m).map (·.1)).Nodup)
    (todo done : List Target) (hT : ∀ t, t ∈ T ↔ t ∈ done ∨ t ∈ todo) (s : State V) (h : Inv W s0 s done true) :
    ∀ t ∈ todo, ∀ n, (n, some t.quantizer) ∉ (todo.foldl (fuseTarget W true) s).slots t.module := by
  induction todo generalizing done s with
  | nil => simp
  | cons t todo ih =>
    intro t' ht' n
    have hstep : Inv W s0 (fuseTarget W true s t) (done ++ [t]) true := by
      have := fold_inv hp hi (stub := true) (done ++ [t]) (fun a ha b hb => hc a ((hT a).2 (by simp at ha ⊢; rcases ha with h | h <;> simp [h])) b
        ((hT b).2 (by simp at hb ⊢; rcases hb with h | h <;> simp [h]))) [t] done (by simp) s h
      simpa using this
    simp only [List.foldl_cons]
    simp only [List.mem_cons] at ht'
    rcases ht' with rfl | ht'
    · have hrest := fold_inv hp hi (stub := true) T hc todo (done ++ [t']) (fun x => by rw [hT]; simp [or_assoc]) _ hstep
      have htT : t' ∈ T := (hT t').2 (Or.inr List.mem_cons_self)
      -- gone right after the step
      have hnow : ∀ n, (n, some t'.quantizer) ∉ (fuseTarget W true s t').slots t'.module := by
        intro n
        obtain ⟨n0, hn0⟩ := hone t' htT
        have hu' : ((s.slots t'.module).map (·.1)).Nodup := by rw [h.names]; exact hu _
        unfold fuseTarget
        cases hq : W.quant t'.quantizer (read W s t'.param) with
        | none => exact absurd hq (hact t' htT _)
        | some w =>
          simp only [if_true, stubTarget]
          exact stubFirst_gone (fun n' hn' => hn0 n' (h.sub _ _ _ hn')) hu' n
      -- and never comes back
      have hback : ∀ (l : List Target) (s : State V), (n, some t'.quantizer) ∉ s.slots t'.module → (n, some t'.quantizer) ∉ (l.foldl (fuseTarget W true) s).slots t'.module := by
        intro l
        induction l with
        | nil => exact fun s h => h
        | cons a l ihl =>
          intro s hn
          refine ihl _ fun hm => hn ?_
          unfold fuseTarget at hm
          split at hm
          · exact hm
          · simp only [if_true, stubTarget] at hm
            split at hm
            · rename_i he
              rw [he]
              exact stubFirst_mem hm
            · exact hm
      exact hback todo _ (hnow n)
    · exact ih (done ++ [t]) (fun x => by rw [hT]; simp [or_assoc]) _ hstep t' ht' n

/-- **C92.** With `stub_quantizers`, no weight quantizer remains, if none is disabled and none is under two names of a module. -/
theorem quantizers_stubbed {W : World V} (hp : Plain W) (hi : Idempotent W) {s s' : State V} {mods : List ℕ} {wq : ℕ → ℕ} (hconv : Conventional W s mods wq)
    (hact : ∀ q w, W.quant q w ≠ none) (h : fuse W true (discover W s mods) s = (true, s')) (m : ℕ) (hm : m ∈ mods) (p : ℕ) (hw : W.weight m = some p) (q : ℕ)
    (hq : W.tagged q = true) (n : ℕ) : (n, some q) ∉ s'.slots m := by
  unfold fuse at h
  split at h
  · rename_i hck
    have hc := (check_spec hp).1 hck
    simp only [Prod.mk.injEq, true_and] at h
    intro hmem
    have hinv := fold_inv hp hi (discover W s mods) hc (discover W s mods) [] (by simp) s (inv_start W s true)
    rw [h] at hinv
    have h0 := hinv.sub m n q hmem
    have ht : (⟨m, p, q⟩ : Target) ∈ discover W s mods := mem_discover.2 ⟨hm, hw, hq, n, h0⟩
    have := fold_stubs hp hi (discover W s mods) hc (fun t _ w => hact t.quantizer w)
      (fun t ht => by
        obtain ⟨h1, _, h3, _⟩ := mem_discover.1 ht
        exact ⟨wq t.module, fun n' hn' => hconv.named t.module h1 n' t.quantizer hn' h3⟩) hconv.unique (discover W s mods) [] (by simp) s (inv_start W s true) _ ht n
    rw [h] at this
    exact this hmem
  · simp at h

/-- **C92.** Fusing is refused exactly if two quantizers of a weight that is tied disagree about it, and then nothing is changed. -/
theorem refused_iff {W : World V} (hp : Plain W) (s : State V) (T : List Target) (stub : Bool) :
    ((fuse W stub T s).1 = false ↔ ∃ t ∈ T, ∃ t' ∈ T, Tied W t.param t'.param ∧ qdq W t.quantizer (read W s t.param) ≠ qdq W t'.quantizer (read W s t.param)) ∧
    ((fuse W stub T s).1 = false → (fuse W stub T s).2 = s) := by
  have hread : ∀ p p', Tied W p p' → read W s p = read W s p' := by
    intro p p' h
    simp only [read]
    rw [show W.addrs p = W.addrs p' from h]
  unfold fuse
  by_cases hck : check W s T = true
  · rw [if_pos hck]
    refine ⟨⟨by simp, ?_⟩, by simp⟩
    rintro ⟨t, ht, t', ht', htied, hne⟩
    have := (check_spec hp).1 hck t ht t' ht' htied
    rw [← hread _ _ htied] at this
    exact absurd this hne
  · rw [if_neg hck]
    refine ⟨⟨fun _ => ?_, fun _ => rfl⟩, fun _ => rfl⟩
    rw [check_spec hp] at hck
    by_contra hno
    refine hck fun t ht t' ht' htied => ?_
    by_contra hne
    refine hno ⟨t, ht, t', ht', htied, ?_⟩
    rwa [hread _ _ htied] at hne ⊢

omit [DecidableEq V] in
/-- **C92.** Stubbing alone changes no weight, and takes away quantizers that were asked for only. -/
theorem stub_keeps_weights (T : List Target) (s : State V) :
    (stubAll T s).mem = s.mem ∧ (∀ m n q, (n, some q) ∈ (stubAll T s).slots m → (n, some q) ∈ s.slots m) ∧
    ∀ m n q, (n, some q) ∈ s.slots m → (∀ t ∈ T, t.module = m → t.quantizer ≠ q) → (n, some q) ∈ (stubAll T s).slots m := by
  induction T generalizing s with
  | nil => exact ⟨rfl, fun _ _ _ h => h, fun _ _ _ h _ => h⟩
  | cons t T ih =>
    obtain ⟨h1, h2, h3⟩ := ih (stubTarget t.module t.quantizer s)
    refine ⟨h1, fun m n q h => ?_, fun m n q h hn => h3 m n q ?_ fun t' ht' => hn t' (List.mem_cons_of_mem _ ht')⟩
    · have := h2 m n q h
      simp only [stubTarget] at this
      split at this
      · rename_i he
        rw [he]
        exact stubFirst_mem this
      · exact this
    · simp only [stubTarget]
      split
      · rename_i he
        subst he
        exact stubFirst_keep h fun e => hn t List.mem_cons_self rfl e.symm
      · exact h

/-! ### Deviations -/

/-- Rounding down to a multiple of ten, and to one of four; half of the values, which is not idempotent; and rows of two with steps of two and ten. -/
def toyQuant : ℕ → List ℕ → Option (List ℕ)
  | 0, w => some (w.map fun x => x / 10 * 10)
  | 1, w => some (w.map fun x => x / 4 * 4)
  | 2, w => some (w.map fun x => x / 2)
  | 3, w => some ((w.zip [2, 2, 10, 10]).map fun x => x.1 / x.2 * x.2)
  | _, _ => none

/-- Modules 0 and 1 share parameter 0; module 2 has parameter 1, module 3 has parameter 2, which is the transpose of parameter 1; module 4 has parameter 3, the same
memory as parameter 0 in another shape. -/
def toy : World ℕ where
  weight := fun m => [0, 0, 1, 2, 3][m]?
  addrs := fun p => [[0, 1], [2, 3, 4, 5], [2, 4, 3, 5], [0, 1]][p]?.getD []
  shape := fun p => [[2], [2, 2], [2, 2], [1, 2]][p]?.getD []
  tagged := fun _ => true
  quant := toyQuant

def toyState (slots : List (List (ℕ × Option ℕ))) : State ℕ := ⟨fun x => [17, 23, 3, 3, 13, 13][x]?.getD 0, fun m => slots[m]?.getD []⟩

/-- **C92, deviation.** If a weight is tied to that of a module that does not quantize it, that module computes with the quantized weight afterwards. -/
theorem tied_unquantized : ∃ s', fuse toy true (discover toy (toyState [[(0, some 0)], [(0, none)]]) [0, 1]) (toyState [[(0, some 0)], [(0, none)]]) = (true, s') ∧
    effective toy s' 1 0 = some [10, 20] ∧ effective toy (toyState [[(0, some 0)], [(0, none)]]) 1 0 = some [17, 23] :=
  ⟨_, rfl, by decide +kernel, by decide +kernel⟩

/-- **C92, deviation.** Tied weights are quantized once for each module: if the quantizer is not idempotent, both modules compute with other weights than before. -/
theorem tied_quantized_twice : ∃ s', fuse toy true (discover toy (toyState [[(0, some 2)], [(0, some 2)]]) [0, 1]) (toyState [[(0, some 2)], [(0, some 2)]]) = (true, s') ∧
    effective toy s' 0 0 = some [4, 5] ∧ effective toy (toyState [[(0, some 2)], [(0, some 2)]]) 0 0 = some [8, 11] :=
  ⟨_, rfl, by decide +kernel, by decide +kernel⟩

/-- **C92, deviation.** A weight that is the transpose of another counts as tied, but the quantizers are compared on one of the two only: here both modules have
the same quantizer, and fusing the second spoils the first. -/
theorem transposed_spoilt : ∃ s', fuse toy true (discover toy (toyState [[], [], [(0, some 3)], [(0, some 3)]]) [2, 3]) (toyState [[], [], [(0, some 3)], [(0, some 3)]]) =
    (true, s') ∧ effective toy s' 2 0 = some [2, 0, 10, 10] ∧ effective toy (toyState [[], [], [(0, some 3)], [(0, some 3)]]) 2 0 = some [2, 2, 10, 10] :=
  ⟨_, rfl, by decide +kernel, by decide +kernel⟩

/-- **C92, deviation.** The same memory in another shape does not count as tied: quantizers that disagree are accepted, and the first module is spoilt. -/
theorem reshaped_spoilt : ∃ s', fuse toy true (discover toy (toyState [[(0, some 0)], [], [], [], [(0, some 1)]]) [0, 4]) (toyState [[(0, some 0)], [], [], [], [(0, some 1)]]) =
    (true, s') ∧ effective toy s' 0 0 = some [8, 20] ∧ effective toy (toyState [[(0, some 0)], [], [], [], [(0, some 1)]]) 0 0 = some [10, 20] :=
  ⟨_, rfl, by decide +kernel, by decide +kernel⟩

/-- **C92, deviation.** Disabled quantizers: fusing leaves them, stubbing takes them away, so that loading a fused model gives another one than was saved. -/
theorem disabled_differ : (fuse toy true [⟨0, 0, 9⟩] (toyState [[(0, some 9)]])).2.slots 0 = [(0, some 9)] ∧
    (stubAll [⟨0, 0, 9⟩] (toyState [[(0, some 9)]])).slots 0 = [(0, none)] := ⟨by decide +kernel, by decide +kernel⟩

/-! ### Concrete cases -/

/-- Two tied modules with the same quantizer and one with a weight of its own. -/
def plainWorld : World ℕ where
  weight := fun m => if m ≤ 1 then some 0 else if m = 2 then some 1 else none
  addrs := fun p => if p = 0 then [0, 1] else if p = 1 then [2, 3] else [p + 2]
  shape := fun p => if p ≤ 1 then [2] else [1]
  tagged := fun q => q ≤ 1
  quant := fun q w => if q = 0 then some (w.map fun x => x / 10 * 10) else some (w.map fun x => x / 4 * 4)

theorem plainWorld_plain : Plain plainWorld := by
  refine ⟨fun p => ?_, fun p p' => ?_, fun p p' => ?_⟩
  · simp only [plainWorld]
    split
    · simp
    · split <;> simp
  · by_cases h : p = p'
    · exact Or.inl (by rw [h]; rfl)
    · refine Or.inr fun a ha hb => ?_
      simp only [plainWorld] at ha hb
      split at ha <;> split at hb <;> (try split at ha) <;> (try split at hb) <;> simp at ha hb <;> omega
  · have inj : (plainWorld.addrs p).head? = (plainWorld.addrs p').head? → p = p' := by
      have hd : ∀ p, (plainWorld.addrs p).head? = some (if p = 0 then 0 else if p = 1 then 2 else p + 2) := by
        intro p
        simp only [plainWorld]
        split
        · rfl
        · split <;> rfl
      rw [hd, hd]
      simp only [Option.some.injEq]
      intro h
      split at h <;> split at h <;> (try split at h) <;> (try split at h) <;> omega
    constructor
    · intro h
      have := inj (by rw [show plainWorld.addrs p = plainWorld.addrs p' from h])
      subst this
      exact ⟨rfl, rfl⟩
    · intro h
      have := inj h.1
      subst this
      rfl

theorem plainWorld_idem : Idempotent plainWorld := by
  refine ⟨fun q w w' h => ?_, fun q w w' h => ?_⟩
  · simp only [plainWorld] at h
    split at h <;> cases h <;> simp
  · simp only [plainWorld] at h ⊢
    split at h
    · cases h
      rename_i hq
      simp only [hq, if_true, List.map_map, Option.some.injEq]
      refine List.map_congr_left fun x _ => ?_
      simp only [Function.comp]
      omega
    · cases h
      rename_i hq
      simp only [hq, if_false, List.map_map, Option.some.injEq]
      refine List.map_congr_left fun x _ => ?_
      simp only [Function.comp]
      omega

def plainState : State ℕ := ⟨fun x => [17, 23, 3, 9][x]?.getD 0, fun m => [[(0, some 0), (1, some 7)], [(0, some 0)], [(0, some 1)]][m]?.getD []⟩

example : ∃ s', fuse plainWorld true (discover plainWorld plainState [0, 1, 2]) plainState = (true, s') ∧ read plainWorld s' 0 = [10, 20] ∧ read plainWorld s' 1 = [0, 8] ∧
    s'.slots 0 = [(0, none), (1, some 7)] := ⟨_, rfl, by decide +kernel, by decide +kernel, by decide +kernel⟩

example : Conventional plainWorld plainState [0, 1, 2] (fun _ => 0) ∧ Together plainWorld plainState [0, 1, 2] fun _ => 0 := by
  refine ⟨⟨?_, ?_, ?_⟩, ?_⟩
  · intro m hm n q h
    simp at hm
    rcases hm with rfl | rfl | rfl <;> simp [plainState] at h <;> simp [plainWorld] <;> omega
  · intro m hm q h
    simp at hm
    rcases hm with rfl | rfl | rfl <;> simp [plainState] at h <;> simp [plainWorld, h]
  · intro m
    rcases m with _ | _ | _ | m <;> simp [plainState]
  · intro m hm m' hm' p p' q hw hw' _ _
    simp at hm'
    rcases hm' with rfl | rfl | rfl <;> simp [plainState]

end FF.Fuse
