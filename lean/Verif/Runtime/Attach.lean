/-!
# Attaching one override to many quantizers

Models `DisableQuantizationOverride` in `src/fastforward/overrides.py:63-153` with `register_override` and `remove_override` (`nn/quantizer.py:373-406`),
`OverrideHandle` (`forward_override.py:44-73`), and what deep copies of quantizers share with the original (`nn/quantizer.py:340-371`; `copy.deepcopy` does not
copy weak references).

Simplifications: all overrides are of this kind; quantizers live as long as they are used.
-/

namespace FF.Attach

/-! ## Model -/

/-- What `attach_to` takes: a quantizer, or a collection or iterable of what it takes. -/
inductive Target (Q : Type) where
  | one (q : Q)
  | many (ts : List (Target Q))

variable {Q O : Type} [DecidableEq Q] [DecidableEq O]

/-- The overrides of each quantizer by id, in order (`_quantizer_overrides`); the handles (`_handles`) and the state (`_quantization_enabled`) of each override;
the next id (`global_handles`). -/
structure St (Q O : Type) where
  on : Q → List (Nat × O)
  handles : O → List (Q × Nat)
  enabled : O → Bool
  next : Nat

def upd {A B : Type} [DecidableEq A] (f : A → B) (a : A) (b : B) : A → B := fun x => if x = a then b else f x

/-- `Quantizer.register_override` (nn/quantizer.py:390-392). -/
def St.register (s : St Q O) (q : Q) (o : O) : St Q O := { s with on := upd s.on q (s.on q ++ [(s.next, o)]), next := s.next + 1 }

/-- `Quantizer.remove_override` (nn/quantizer.py:406): `pop(override_id, None)`. -/
def St.remove (s : St Q O) (q : Q) (i : Nat) : St Q O := { s with on := upd s.on q ((s.on q).filter fun e => e.1 ≠ i) }

/-- `attach_to` for one quantizer (overrides.py:134-135). -/
def St.attachOne (s : St Q O) (o : O) (q : Q) : St Q O :=
  let s' := s.register q o
  { s' with handles := upd s'.handles o (s'.handles o ++ [(q, s.next)]) }

mutual
/-- `attach_to` (overrides.py:124-142). -/
def St.attach (o : O) : St Q O → Target Q → St Q O
  | s, .one q => s.attachOne o q
  | s, .many ts => St.attachAll o s ts
/-- The loops over collections and iterables (overrides.py:137-142). -/
def St.attachAll (o : O) : St Q O → List (Target Q) → St Q O
  | s, [] => s
  | s, t :: ts => St.attachAll o (St.attach o s t) ts
end

/-- `detach` (overrides.py:144-152). -/
def St.detach (s : St Q O) (o : O) : St Q O :=
  let s' := (s.handles o).foldl (fun s h => s.remove h.1 h.2) s
  { s' with handles := upd s'.handles o [] }

/-- What users do. -/
inductive Op (Q O : Type) where
  | attach (o : O) (t : Target Q)
  | detach (o : O)
  | register (q : Q) (o : O)
  | remove (q : Q) (i : Nat)
  | enable (o : O) (b : Bool)

def step (s : St Q O) : Op Q O → St Q O
  | .attach o t => St.attach o s t
  | .detach o => s.detach o
  | .register q o => s.register q o
  | .remove q i => s.remove q i
  | .enable o b => { s with enabled := upd s.enabled o b }

def init : St Q O := ⟨fun _ => [], fun _ => [], fun _ => false, 0⟩

def run (ops : List (Op Q O)) : St Q O := ops.foldl step init

/-- Calling a quantizer (nn/quantizer.py:413-416, overrides.py:108-118): the last override is called first; the first that is not enabled returns the data. -/
def St.call {A : Type} (s : St Q O) (quantize : A → A) (q : Q) (a : A) : A :=
  (s.on q).foldl (fun f e => fun a => if s.enabled e.2 then f a else a) quantize a

/-- Deep copy of quantizer `q` as `q'`, in which override `o` became `o'`: the handles of a copied override refer to the original quantizers, as weak references are
not copied. -/
def St.copy (s : St Q O) (q q' : Q) (o o' : O) : St Q O :=
  { s with on := upd s.on q' ((s.on q).map fun e => if e.2 = o then (e.1, o') else e), handles := upd s.handles o' (s.handles o),
           enabled := upd s.enabled o' (s.enabled o) }

/-! ## Specification -/

/-- An override at a quantizer: its id, and whether it got there with `attach_to`. -/
structure Entry (O : Type) where
  id : Nat
  override : O
  attached : Bool

/-- The quantizers a target is made of. -/
inductive Listed : Target Q → List Q → Prop
  | one (q : Q) : Listed (.one q) [q]
  | nil : Listed (.many []) []
  | cons {t : Target Q} {ts : List (Target Q)} {l l' : List Q} (h : Listed t l) (h' : Listed (.many ts) l') : Listed (.many (t :: ts)) (l ++ l')

/-- What should be at the quantizers. -/
structure World (Q O : Type) where
  at' : Q → List (Entry O)
  enabled : O → Bool
  next : Nat

/-- Adding an override at the end. -/
def World.add (w : World Q O) (o : O) (attached : Bool) (q : Q) : World Q O :=
  { w with at' := fun x => if x = q then w.at' q ++ [⟨w.next, o, attached⟩] else w.at' x, next := w.next + 1 }

/-- What the operations should do: attaching adds the override to every quantizer listed; detaching takes away what was attached, everywhere, and nothing else. -/
inductive Does : World Q O → Op Q O → World Q O → Prop
  | attach (w : World Q O) (o : O) (t : Target Q) (l : List Q) (h : Listed t l) : Does w (.attach o t) (l.foldl (fun w q => w.add o true q) w)
  | detach (w : World Q O) (o : O) : Does w (.detach o) { w with at' := fun q => (w.at' q).filter fun e => !(e.override = o && e.attached) }
  | register (w : World Q O) (q : Q) (o : O) : Does w (.register q o) (w.add o false q)
  | remove (w : World Q O) (q : Q) (i : Nat) : Does w (.remove q i) { w with at' := fun x => if x = q then (w.at' q).filter fun e => e.id ≠ i else w.at' x }
  | enable (w : World Q O) (o : O) (b : Bool) : Does w (.enable o b) { w with enabled := fun x => if x = o then b else w.enabled x }

/-- Histories. -/
inductive History : List (Op Q O) → World Q O → Prop
  | nil : History [] ⟨fun _ => [], fun _ => false, 0⟩
  | snoc {ops : List (Op Q O)} {w w' : World Q O} {op : Op Q O} (h : History ops w) (hd : Does w op w') : History (ops ++ [op]) w'

/-! ## Lemmas -/

/-- The states agree, and handles are those of attached overrides. -/
structure Agree (s : St Q O) (w : World Q O) : Prop where
  on : ∀ q, s.on q = (w.at' q).map fun e => (e.id, e.override)
  enabled : s.enabled = w.enabled
  next : s.next = w.next
  below : ∀ q, ∀ e ∈ w.at' q, e.id < w.next
  known : ∀ q, ∀ e ∈ w.at' q, e.attached = true → (q, e.id) ∈ s.handles e.override
  old : ∀ o, ∀ h ∈ s.handles o, h.2 < w.next
  right : ∀ o, ∀ h ∈ s.handles o, ∀ e ∈ w.at' h.1, e.id = h.2 → e.override = o ∧ e.attached = true

theorem agree_register {s : St Q O} {w : World Q O} (h : Agree s w) (q : Q) (o : O) : Agree (s.register q o) (w.add o false q) where
  on x := by
    by_cases hx : x = q
    · subst hx; simp [St.register, World.add, upd, h.on, h.next]
    · simp [St.register, World.add, upd, hx, h.on]
  enabled := h.enabled
  next := by simp [St.register, World.add, h.next]
  below x e he := by
    simp only [World.add] at he ⊢
    split at he
    · rcases List.mem_append.1 he with he | he
      · have := h.below q e he; omega
      · simp only [List.mem_singleton] at he; subst he; simp
    · have := h.below x e he; omega
  known x e he ha := by
    simp only [World.add] at he
    split at he
    case isTrue hx =>
      subst hx
      rcases List.mem_append.1 he with he | he
      · exact h.known x e he ha
      · simp only [List.mem_singleton] at he; subst he; cases ha
    · exact h.known x e he ha
  old o' k hk := by have := h.old o' k hk; simp only [World.add]; omega
  right o' k hk e he hi := by
    simp only [World.add] at he
    split at he
    case isTrue hx =>
      rcases List.mem_append.1 he with he | he
      · exact h.right o' k hk e (hx ▸ he) hi
      · simp only [List.mem_singleton] at he
        subst he
        have := h.old o' k hk
        simp only at hi
        omega
    · exact h.right o' k hk e he hi

theorem agree_attachOne {s : St Q O} {w : World Q O} (h : Agree s w) (q : Q) (o : O) : Agree (s.attachOne o q) (w.add o true q) where
  on x := by
    by_cases hx : x = q
    · subst hx; simp [St.attachOne, St.register, World.add, upd, h.on, h.next]
    · simp [St.attachOne, St.register, World.add, upd, hx, h.on]
  enabled := h.enabled
  next := by simp [St.attachOne, St.register, World.add, h.next]
  below x e he := by
    simp only [World.add] at he ⊢
    split at he
    · rcases List.mem_append.1 he with he | he
      · have := h.below q e he; omega
      · simp only [List.mem_singleton] at he; subst he; simp
    · have := h.below x e he; omega
  known x e he ha := by
    simp only [World.add] at he
    simp only [St.attachOne, St.register, upd]
    have old : e ∈ w.at' x → (x, e.id) ∈ if e.override = o then s.handles o ++ [(q, s.next)] else s.handles e.override := fun he => by
      have := h.known x e he ha
      split
      case isTrue ho => exact List.mem_append.2 (.inl (ho ▸ this))
      case isFalse => exact this
    split at he
    case isTrue hx =>
      subst hx
      rcases List.mem_append.1 he with he | he
      · exact old he
      · simp only [List.mem_singleton] at he
        subst he
        simp [h.next]
    · exact old he
  old o' k hk := by
    simp only [St.attachOne, St.register, upd] at hk
    simp only [World.add]
    split at hk
    · rcases List.mem_append.1 hk with hk | hk
      · have := h.old o k hk; omega
      · simp only [List.mem_singleton] at hk; subst hk; simp [h.next]
    · have := h.old o' k hk; omega
  right o' k hk e he hi := by
    simp only [St.attachOne, St.register, upd] at hk
    simp only [World.add] at he
    have new : k.2 < w.next → k ∈ s.handles o' → e.override = o' ∧ e.attached = true := fun hlt hk => by
      split at he
      case isTrue hx =>
        rcases List.mem_append.1 he with he | he
        · exact h.right o' k hk e (hx ▸ he) hi
        · simp only [List.mem_singleton] at he
          subst he
          simp only at hi
          omega
      · exact h.right o' k hk e he hi
    split at hk
    case isTrue ho =>
      subst ho
      rcases List.mem_append.1 hk with hk | hk
      · exact new (h.old o' k hk) hk
      · simp only [List.mem_singleton] at hk
        subst hk
        simp only [if_true] at he hi
        rcases List.mem_append.1 he with he | he
        · have := h.below q e he
          rw [h.next] at hi
          omega
        · simp only [List.mem_singleton] at he
          subst he
          exact ⟨rfl, rfl⟩
    · exact new (h.old o' k hk) hk

omit [DecidableEq Q] in
theorem listed_unique {t : Target Q} {l l' : List Q} (h : Listed t l) : Listed t l' → l = l' := by
  induction h generalizing l' with
  | one q => intro h; cases h; rfl
  | nil => intro h; cases h; rfl
  | cons _ _ ih1 ih2 => intro h; cases h with | cons a b => rw [ih1 a, ih2 b]

theorem agree_attach {o : O} {t : Target Q} {l : List Q} (hl : Listed t l) : ∀ {s : St Q O} {w : World Q O}, Agree s w →
    Agree (St.attach o s t) (l.foldl (fun w q => w.add o true q) w) := by
  induction hl with
  | one q => intro s w h; rw [St.attach]; exact agree_attachOne h q o
  | nil => intro s w h; rw [St.attach, St.attachAll]; exact h
  | cons _ _ ih1 ih2 =>
    intro s w h
    rw [St.attach, St.attachAll, List.foldl_append]
    have := ih2 (ih1 h)
    rw [St.attach] at this
    exact this

omit [DecidableEq O] in
theorem remove_all : ∀ (hs : List (Q × Nat)) (s : St Q O), let s' := hs.foldl (fun s h => s.remove h.1 h.2) s
    (∀ q, s'.on q = (s.on q).filter fun e => decide ((q, e.1) ∉ hs)) ∧ s'.handles = s.handles ∧ s'.enabled = s.enabled ∧ s'.next = s.next
  | [], s => ⟨fun q => (List.filter_eq_self.2 (by simp)).symm, rfl, rfl, rfl⟩
  | k :: hs, s => by
    obtain ⟨h1, h2, h3, h4⟩ := remove_all hs (s.remove k.1 k.2)
    refine ⟨fun q => ?_, h2, h3, h4⟩
    simp only [List.foldl_cons]
    rw [h1 q]
    simp only [St.remove, upd]
    by_cases hq : q = k.1
    · subst hq
      rw [if_pos rfl, List.filter_filter]
      apply List.filter_congr
      intro e _
      obtain ⟨a, b⟩ := k
      simp only [List.mem_cons, Prod.mk.injEq, true_and, not_or, Bool.decide_and, ne_eq]
      exact Bool.and_comm _ _
    · rw [if_neg hq]
      apply List.filter_congr
      intro e _
      have : (q, e.1) ≠ k := fun c => hq (by rw [← c])
      simp [this]

theorem agree_detach {s : St Q O} {w : World Q O} (h : Agree s w) (o : O) :
    Agree (s.detach o) { w with at' := fun q => (w.at' q).filter fun e => !(e.override = o && e.attached) } := by
  obtain ⟨h1, h2, h3, h4⟩ := remove_all (s.handles o) s
  have hon : ∀ q, (s.detach o).on q = (s.on q).filter fun e => decide ((q, e.1) ∉ s.handles o) := h1
  have hh : (s.detach o).handles = upd s.handles o [] := by simp only [St.detach, h2]
  refine ⟨fun q => ?_, by simp [St.detach, h3, h.enabled], by simp [St.detach, h4, h.next], fun q e he => h.below q e (List.mem_filter.1 he).1,
    fun q e he ha => ?_, fun o' k hk => ?_, fun o' k hk e he hi => ?_⟩
  · rw [hon q, h.on q, List.filter_map]
    congr 1
    apply List.filter_congr
    intro e he
    by_cases hc : e.override = o ∧ e.attached = true
    · have := h.known q e he hc.2
      rw [hc.1] at this
      simp [this, hc.1, hc.2]
    · have : (q, e.id) ∉ s.handles o := fun hm => hc (h.right o (q, e.id) hm e he rfl)
      simp only [Function.comp, this, not_false_iff, decide_true]
      by_cases ho : e.override = o
      · have : e.attached = false := by
          cases ha : e.attached
          · rfl
          · exact absurd ⟨ho, ha⟩ hc
        simp [this]
      · simp [ho]
  · obtain ⟨he, hf⟩ := List.mem_filter.1 he
    rw [hh, upd]
    split
    case isTrue ho => simp [ho, ha] at hf
    case isFalse => exact h.known q e he ha
  · rw [hh, upd] at hk
    split at hk
    · cases hk
    · exact h.old o' k hk
  · rw [hh, upd] at hk
    split at hk
    · cases hk
    · exact h.right o' k hk e (List.mem_filter.1 he).1 hi

omit [DecidableEq O] in
theorem agree_remove {s : St Q O} {w : World Q O} (h : Agree s w) (q : Q) (i : Nat) :
    Agree (s.remove q i) { w with at' := fun x => if x = q then (w.at' q).filter fun e => e.id ≠ i else w.at' x } := by
  have sub : ∀ x e, e ∈ (if x = q then (w.at' q).filter fun e => decide (e.id ≠ i) else w.at' x) → e ∈ w.at' x := by
    intro x e he
    split at he
    case isTrue hx => subst hx; exact (List.mem_filter.1 he).1
    case isFalse => exact he
  refine ⟨fun x => ?_, h.enabled, h.next, fun x e he => h.below x e (sub x e he), fun x e he ha => h.known x e (sub x e he) ha, h.old,
    fun o' k hk e he hi => h.right o' k hk e (sub _ e he) hi⟩
  simp only [St.remove, upd]
  by_cases hx : x = q
  · subst hx
    rw [if_pos rfl, if_pos rfl, h.on, List.filter_map]
    rfl
  · rw [if_neg hx, if_neg hx, h.on]

theorem agree_history {ops : List (Op Q O)} {w : World Q O} (h : History ops w) : Agree (run ops) w := by
  induction h with
  | nil => exact ⟨fun _ => rfl, rfl, rfl, fun _ _ h => (nomatch h), fun _ _ h => (nomatch h), fun _ _ h => (nomatch h), fun _ _ h => (nomatch h)⟩
  | snoc _ hd ih =>
    rw [run, List.foldl_append]
    simp only [List.foldl_cons, List.foldl_nil]
    rw [← run]
    cases hd with
    | attach o t l hl => exact agree_attach hl ih
    | detach o => exact agree_detach ih o
    | register q o => exact agree_register ih q o
    | remove q i => exact agree_remove ih q i
    | enable o b =>
      refine ⟨ih.on, ?_, ih.next, ih.below, ih.known, ih.old, ih.right⟩
      simp only [step, ih.enabled]
      rfl

set_option linter.unusedSectionVars false in
mutual
theorem listed_total : ∀ t : Target Q, ∃ l, Listed t l
  | .one q => ⟨[q], .one q⟩
  | .many ts => listed_all ts
theorem listed_all : ∀ ts : List (Target Q), ∃ l, Listed (.many ts) l
  | [] => ⟨[], .nil⟩
  | t :: ts => by
    obtain ⟨l, h⟩ := listed_total t
    obtain ⟨l', h'⟩ := listed_all ts
    exact ⟨l ++ l', .cons h h'⟩
end

omit [DecidableEq O] in
theorem call_fold {A : Type} (en : O → Bool) (quantize : A → A) : ∀ (l : List (Nat × O)) (a : A) (f : A → A),
    l.foldl (fun f e => fun a => if en e.2 then f a else a) f a = if ∀ e ∈ l, en e.2 = true then f a else a
  | [], a, f => by simp
  | e :: l, a, f => by
    rw [List.foldl_cons, call_fold en quantize l a]
    by_cases he : en e.2 = true
    · simp only [List.mem_cons, forall_eq_or_imp, he, true_and, if_true]
    · by_cases hl : ∀ e ∈ l, en e.2 = true
      · simp [he]
      · rw [if_neg hl, if_neg (fun c => he (c e List.mem_cons_self))]

/-! ## Properties -/

/-- **C140.** After any history, every quantizer has the overrides it should have, in order: those added with `attach_to` to it, alone or within collections, and not
detached since, and those registered otherwise and not removed since. -/
theorem overrides_right (ops : List (Op Q O)) (w : World Q O) (h : History ops w) (q : Q) :
    (run ops).on q = (w.at' q).map (fun e => (e.id, e.override)) := (agree_history h).on q

/-- **C140.** Every history has one outcome. -/
theorem one_outcome (ops : List (Op Q O)) : ∃ w, History ops w ∧ ∀ w', History ops w' → w' = w := by
  have key : ∀ rev : List (Op Q O), ∃ w, History rev.reverse w ∧ ∀ w', History rev.reverse w' → w' = w := by
    intro rev
    induction rev with
    | nil =>
      refine ⟨_, .nil, fun w' h => ?_⟩
      generalize hn : ([] : List (Op Q O)).reverse = l at h
      cases h with
      | nil => rfl
      | snoc => simp at hn
    | cons op rev ih =>
      obtain ⟨w, h1, h2⟩ := ih
      have hex : ∃ w', Does w op w' ∧ ∀ w'', Does w op w'' → w'' = w' := by
        cases op with
        | attach o t =>
          obtain ⟨l, hl⟩ := listed_total t
          exact ⟨_, .attach w o t l hl, fun w'' hd => by cases hd with | attach _ _ l' hl' => rw [listed_unique hl hl']⟩
        | detach o => exact ⟨_, .detach w o, fun w'' hd => by cases hd; rfl⟩
        | register q o => exact ⟨_, .register w q o, fun w'' hd => by cases hd; rfl⟩
        | remove q i => exact ⟨_, .remove w q i, fun w'' hd => by cases hd; rfl⟩
        | enable o b => exact ⟨_, .enable w o b, fun w'' hd => by cases hd; rfl⟩
      obtain ⟨w', h3, h4⟩ := hex
      rw [List.reverse_cons]
      refine ⟨w', .snoc h1 h3, fun w'' h => ?_⟩
      generalize hn : rev.reverse ++ [op] = l at h
      cases h with
      | nil => simp at hn
      | snoc h5 h6 =>
        obtain ⟨e1, e2⟩ := List.append_inj' hn rfl
        cases e2
        subst e1
        rw [h2 _ h5] at h6
        exact h4 _ h6
  have := key ops.reverse
  rwa [List.reverse_reverse] at this

/-- **C140.** A quantizer quantizes exactly if all overrides it should have are enabled, and returns its input otherwise. -/
theorem quantizes_iff {A : Type} (ops : List (Op Q O)) (w : World Q O) (h : History ops w) (quantize : A → A) (q : Q) (a : A) :
    (run ops).call quantize q a = if ∀ e ∈ w.at' q, w.enabled e.override = true then quantize a else a := by
  have hg := agree_history h
  rw [St.call, call_fold _ quantize, hg.on, hg.enabled]
  congr 1
  simp

/-! ## Deviations -/

/-- **C140, deviation.** An override that came with a deep copy of a quantizer detaches from the original quantizer, and not from the copy. -/
theorem copy_detaches_original (s : St Q O) (q q' : Q) (o o' : O) (i : Nat) (ho : (i, o) ∈ s.on q) (hh : (q, i) ∈ s.handles o)
    (hn : (q', i) ∉ s.handles o) :
    let t := (s.copy q q' o o').detach o'
    (i, o') ∈ t.on q' ∧ (∀ x, (i, x) ∉ t.on q) := by
  have hhs : (s.copy q q' o o').handles o' = s.handles o := by simp [St.copy, upd]
  have hon : ∀ x, ((s.copy q q' o o').detach o').on x = ((s.copy q q' o o').on x).filter fun e => decide ((x, e.1) ∉ s.handles o) := by
    intro x
    have := (remove_all ((s.copy q q' o o').handles o') (s.copy q q' o o')).1 x
    rw [hhs] at this
    simpa [St.detach, hhs] using this
  refine ⟨?_, fun x hx => ?_⟩
  · rw [hon q', List.mem_filter]
    refine ⟨?_, by simpa using hn⟩
    simp only [St.copy, upd, if_true]
    exact List.mem_map.2 ⟨(i, o), ho, by simp⟩
  · rw [hon q, List.mem_filter] at hx
    simp [hh] at hx

/-! ## Concrete cases -/

/-- One override on two quantizers, one of which has another. -/
example : ∃ w : World Nat Nat, History [.attach 0 (.many [.one 5, .one 6]), .register 5 1, .enable 1 true, .detach 0] w :=
  (one_outcome _).imp fun _ h => h.1

example : (run [.attach 0 (.many [.one 5, .one 6]), .register 5 1, .enable 1 true, .detach 0] : St Nat Nat).on 5 = [(2, 1)] := by decide

example : (run [.attach 0 (.many [.one 5, .one 6]), .register 5 1, .enable 1 true] : St Nat Nat).call (· + 1) 5 3 = 3 := by decide

example : let s : St Nat Nat := run [.attach 0 (.one 5)]
    (0, 0) ∈ s.on 5 ∧ (5, 0) ∈ s.handles 0 ∧ (6, 0) ∉ s.handles 0 := by decide

end FF.Attach
