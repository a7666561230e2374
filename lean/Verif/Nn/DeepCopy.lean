/-!
# Copying quantizers

Models `Quantizer.__deepcopy__` of `nn/quantizer.py` together with the parts of Python's `copy.deepcopy` that it works with: the memo that says which objects have
been copied, containers that are entered in it before their contents are copied, and bound methods, which are entered after the object they belong to.

Assumed of Python and PyTorch: `object.__getstate__` returns the `__dict__` of the object itself, so that this has an entry in the memo, as any dictionary;
`torch.nn.Module.__setstate__` adds the entries of the state to the `__dict__` of the new object; and hooks are kept in a dictionary in the `__dict__`.

Simplifications: names of entries are left out, containers are lists of references. Modules other than quantizers, with their `__dict__`, are containers: what
`copy.deepcopy` does by default. Parameters and buffers are containers without contents. Functions, numbers, strings, types and tags are atoms, which are not copied.
-/

namespace FF.DeepCopy

/-! ## Model -/

/-- Kinds of objects. -/
inductive Kind where
  /-- objects that are returned as they are; for tags see quantizer.py:50-53 -/
  | atom
  /-- dictionaries, lists, and objects that are copied by default -/
  | container
  | quantizer
  /-- bound methods; the only content is the object -/
  | method
  deriving DecidableEq, Repr

/-- The objects before copying: their kinds and contents. The contents of a quantizer are those of its `__dict__`. -/
structure Heap where
  kind : Nat → Kind
  fields : Nat → List Nat

/-- References: to an object from before, or to a new one. -/
inductive Ref where
  | old (x : Nat)
  | new (k : Nat)
  deriving DecidableEq, Repr

/-- New objects, the object each was made for and its contents; and the memo. `memoDict` has the entries for the `__dict__`s of quantizers. -/
structure St where
  next : Nat := 0
  src : Nat → Nat := fun _ => 0
  isDict : Nat → Bool := fun _ => false
  cont : Nat → List Ref := fun _ => []
  memo : Nat → Option Nat := fun _ => none
  memoDict : Nat → Option Nat := fun _ => none

/-- Changes a function at one place. -/
def upd {A : Type} (f : Nat → A) (k : Nat) (a : A) : Nat → A := fun i => if i = k then a else f i

/-- Makes a new object for `x`; its number is `s.next`. -/
def St.alloc (s : St) (x : Nat) (dict : Bool) (c : List Ref) : St :=
  { s with next := s.next + 1, src := upd s.src s.next x, isDict := upd s.isDict s.next dict, cont := upd s.cont s.next c }

/-- `memo[id(x)] = k`. -/
def St.enter (s : St) (x k : Nat) : St := { s with memo := upd s.memo x (some k) }

/-- `memo[id(x.__dict__)] = k`. -/
def St.enterDict (s : St) (x k : Nat) : St := { s with memoDict := upd s.memoDict x (some k) }

/-- Adds to the contents of a new object. -/
def St.push (s : St) (k : Nat) (r : Ref) : St := { s with cont := upd s.cont k (s.cont k ++ [r]) }

/-- `copy.deepcopy(x, memo)`, with `Quantizer.__deepcopy__`, quantizer.py:340-357. `none` if the recursion is deeper than `n`. -/
def copy (h : Heap) : Nat → Nat → St → Option (Ref × St)
  | 0, _, _ => none
  | n + 1, x, s =>
    match h.kind x with
    | .atom => some (.old x, s)
    | .container =>
      match s.memo x with
      | some k => some (.new k, s)
      | none =>
        let k := s.next
        ((h.fields x).foldlM (fun s c => (copy h n c s).map fun p => p.2.push k p.1) ((s.alloc x false []).enter x k)).map fun s => (.new k, s)
    | .quantizer =>
      match s.memo x with
      -- quantizer.py:342-343
      | some k => some (.new k, s)
      | none =>
        match s.memoDict x with
        | some kd => some (.new s.next, (s.alloc x false (s.cont kd)).enter x s.next)
        | none =>
          let kd := s.next
          -- quantizer.py:346-347
          ((h.fields x).foldlM (fun s c => (copy h n c s).map fun p => p.2.push kd p.1) ((s.alloc x true []).enterDict x kd)).map fun s =>
            -- quantizer.py:349-357
            (.new s.next, (s.alloc x false (s.cont kd)).enter x s.next)
    | .method =>
      match s.memo x with
      | some k => some (.new k, s)
      | none =>
        ((h.fields x).foldlM (fun (a : List Ref × St) c => (copy h n c a.2).map fun p => (a.1 ++ [p.1], p.2)) ([], s)).map fun a =>
          (.new a.2.next, (a.2.alloc x false a.1).enter x a.2.next)

/-! ## Specification -/

/-- `r` stands for object `x` in the copy: the object itself if it is an atom, else a new object that was made for it. -/
def StandsFor (h : Heap) (s : St) (x : Nat) (r : Ref) : Prop :=
  (h.kind x = .atom ∧ r = .old x) ∨ (h.kind x ≠ .atom ∧ ∃ k, r = .new k ∧ k < s.next ∧ s.src k = x ∧ s.isDict k = false)

/-- Two lists are related one by one. -/
inductive Each {A B : Type} (R : A → B → Prop) : List A → List B → Prop
  | nil : Each R [] []
  | cons {a : A} {b : B} {as : List A} {bs : List B} : R a b → Each R as bs → Each R (a :: as) (b :: bs)

/-- New object `k` is complete: it has contents that stand for those of `x`, one by one. -/
def Complete (h : Heap) (s : St) (x k : Nat) : Prop := Each (StandsFor h s) (h.fields x) (s.cont k)

/-- `y` is `x` or is reached from it through contents; atoms have none. -/
inductive Reaches (h : Heap) (x : Nat) : Nat → Prop
  | here : Reaches h x x
  | step {y z : Nat} : Reaches h x y → h.kind y ≠ .atom → z ∈ h.fields y → Reaches h x z

/-- Copies several objects with one memo, as the contents of a module are. -/
def copyAll (h : Heap) (n : Nat) : List Nat → St → Option (List Ref × St)
  | [], s => some ([], s)
  | x :: xs, s => (copy h n x s).bind fun p => (copyAll h n xs p.2).map fun q => (p.1 :: q.1, q.2)

/-! ## Lemmas -/

theorem Each.mono {A B : Type} {R S : A → B → Prop} (hi : ∀ a b, R a b → S a b) {as : List A} {bs : List B} (h : Each R as bs) : Each S as bs := by
  induction h with
  | nil => exact .nil
  | cons h _ ih => exact .cons (hi _ _ h) ih

theorem Each.snoc {A B : Type} {R : A → B → Prop} {as : List A} {bs : List B} (h : Each R as bs) {a : A} {b : B} (hr : R a b) :
    Each R (as ++ [a]) (bs ++ [b]) := by
  induction h with
  | nil => exact .cons hr .nil
  | cons h _ ih => exact .cons h ih

theorem Each.mem_right {A B : Type} {R : A → B → Prop} {as : List A} {bs : List B} (h : Each R as bs) {b : B} (hb : b ∈ bs) : ∃ a ∈ as, R a b := by
  induction h with
  | nil => cases hb
  | cons h _ ih =>
    rcases List.mem_cons.1 hb with rfl | hb
    · exact ⟨_, List.mem_cons_self, h⟩
    · obtain ⟨a, ha, hr⟩ := ih hb
      exact ⟨a, List.mem_cons_of_mem _ ha, hr⟩

theorem Each.mem_left {A B : Type} {R : A → B → Prop} {as : List A} {bs : List B} (h : Each R as bs) {a : A} (ha : a ∈ as) : ∃ b ∈ bs, R a b := by
  induction h with
  | nil => cases ha
  | cons h _ ih =>
    rcases List.mem_cons.1 ha with rfl | ha
    · exact ⟨_, List.mem_cons_self, h⟩
    · obtain ⟨b, hb, hr⟩ := ih ha
      exact ⟨b, List.mem_cons_of_mem _ hb, hr⟩

theorem upd_same {A : Type} (f : Nat → A) (k : Nat) (a : A) : upd f k a k = a := by simp [upd]

theorem upd_other {A : Type} (f : Nat → A) {k i : Nat} (a : A) (hi : i ≠ k) : upd f k a i = f i := by simp [upd, hi]

/-- What holds of a state while the objects in `B` are being copied. -/
structure Inv (h : Heap) (s : St) (B : Nat → Prop) : Prop where
  memo : ∀ x k, s.memo x = some k → k < s.next ∧ s.src k = x ∧ s.isDict k = false ∧ h.kind x ≠ .atom
  dict : ∀ x k, s.memoDict x = some k → k < s.next ∧ s.src k = x ∧ s.isDict k = true ∧ h.kind x = .quantizer
  back : ∀ k, k < s.next → s.isDict k = false → ∃ k', s.memo (s.src k) = some k' ∧ (h.kind (s.src k) = .container → k' = k)
  complete : ∀ x k, s.memo x = some k → ¬ B x → Complete h s x k
  refs : ∀ k, k < s.next → ∀ r ∈ s.cont k, ∃ c, StandsFor h s c r
  done : ∀ x k, s.memoDict x = some k → ¬ B x → ∃ k', s.memo x = some k'

/-- One state comes after another; only the contents of objects in `E` have changed. -/
structure Grow (E : Nat → Prop) (s s' : St) : Prop where
  next : s.next ≤ s'.next
  src : ∀ k, k < s.next → s'.src k = s.src k
  isDict : ∀ k, k < s.next → s'.isDict k = s.isDict k
  cont : ∀ k, k < s.next → ¬ E k → s'.cont k = s.cont k
  memo : ∀ x k, s.memo x = some k → s'.memo x = some k
  memoDict : ∀ x k, s.memoDict x = some k → s'.memoDict x = some k

theorem Grow.refl (E : Nat → Prop) (s : St) : Grow E s s :=
  ⟨Nat.le_refl _, fun _ _ => rfl, fun _ _ => rfl, fun _ _ _ => rfl, fun _ _ h => h, fun _ _ h => h⟩

theorem Grow.trans {E : Nat → Prop} {s t u : St} (a : Grow E s t) (b : Grow E t u) : Grow E s u where
  next := Nat.le_trans a.next b.next
  src k hk := (b.src k (Nat.lt_of_lt_of_le hk a.next)).trans (a.src k hk)
  isDict k hk := (b.isDict k (Nat.lt_of_lt_of_le hk a.next)).trans (a.isDict k hk)
  cont k hk he := (b.cont k (Nat.lt_of_lt_of_le hk a.next) he).trans (a.cont k hk he)
  memo x k hx := b.memo x k (a.memo x k hx)
  memoDict x k hx := b.memoDict x k (a.memoDict x k hx)

theorem Grow.weaken {E E' : Nat → Prop} {s t : St} (a : Grow E s t) (hi : ∀ k, k < s.next → E k → E' k) : Grow E' s t where
  next := a.next
  src := a.src
  isDict := a.isDict
  cont k hk he := a.cont k hk (fun h => he (hi k hk h))
  memo := a.memo
  memoDict := a.memoDict

theorem StandsFor.grow {h : Heap} {E : Nat → Prop} {s s' : St} (g : Grow E s s') {x : Nat} {r : Ref} (hs : StandsFor h s x r) : StandsFor h s' x r := by
  rcases hs with hs | ⟨h1, k, h2, h3, h4, h5⟩
  · exact .inl hs
  · exact .inr ⟨h1, k, h2, Nat.lt_of_lt_of_le h3 g.next, (g.src k h3).trans h4, (g.isDict k h3).trans h5⟩

theorem grow_alloc (s : St) (x : Nat) (d : Bool) (c : List Ref) : Grow (fun _ => False) s (s.alloc x d c) where
  next := Nat.le_succ _
  src _ hk := upd_other _ _ (Nat.ne_of_lt hk)
  isDict _ hk := upd_other _ _ (Nat.ne_of_lt hk)
  cont _ hk _ := upd_other _ _ (Nat.ne_of_lt hk)
  memo _ _ h := h
  memoDict _ _ h := h

theorem grow_push (s : St) (k : Nat) (r : Ref) : Grow (fun j => j = k) s (s.push k r) where
  next := Nat.le_refl _
  src _ _ := rfl
  isDict _ _ := rfl
  cont _ _ hj := upd_other _ _ hj
  memo _ _ h := h
  memoDict _ _ h := h

/-- Adding to the contents of an object that is being copied. -/
theorem inv_push {h : Heap} {s : St} {B : Nat → Prop} (hi : Inv h s B) {k : Nat} (hb : s.isDict k = true ∨ B (s.src k)) {r : Ref} {c : Nat}
    (hr : StandsFor h s c r) : Inv h (s.push k r) B where
  memo := hi.memo
  dict := hi.dict
  back := hi.back
  complete x j hj hx := by
    have h1 := hi.memo x j hj
    have hne : j ≠ k := by
      rintro rfl
      rcases hb with hb | hb
      · rw [h1.2.2.1] at hb; cases hb
      · rw [h1.2.1] at hb; exact hx hb
    unfold Complete
    rw [(grow_push s k r).cont j h1.1 hne]
    exact (hi.complete x j hj hx).mono fun _ _ hs => hs.grow (grow_push s k r)
  refs j hj r' hr' := by
    have hcase : r' ∈ s.cont j ∨ r' = r := by
      by_cases hjk : j = k
      · subst hjk
        simp only [St.push, upd_same] at hr'
        simpa using hr'
      · simp only [St.push, upd_other _ _ hjk] at hr'
        exact .inl hr'
    rcases hcase with hm | rfl
    · obtain ⟨c', hc'⟩ := hi.refs j hj r' hm
      exact ⟨c', hc'.grow (grow_push s k r)⟩
    · exact ⟨c, hr.grow (grow_push s k r')⟩
  done := hi.done

/-- A new object for `x` that is entered in the memo. -/
theorem inv_enter {h : Heap} {s : St} {B B' : Nat → Prop} (hi : Inv h s B') (hB : ∀ y, y ≠ x → (B y ↔ B' y)) (hk : h.kind x ≠ .atom)
    (hc : h.kind x = .container → s.memo x = none) {l : List Ref} (hl : ∀ r ∈ l, ∃ c, StandsFor h s c r)
    (hcomp : ¬ B x → Each (StandsFor h s) (h.fields x) l) : Inv h ((s.alloc x false l).enter x s.next) B := by
  have g := grow_alloc s x false l
  have hst : ∀ {c : Nat} {r : Ref}, StandsFor h s c r → StandsFor h ((s.alloc x false l).enter x s.next) c r := fun hs => hs.grow g
  refine ⟨?_, ?_, ?_, ?_, ?_, ?_⟩
  · intro y k hy
    by_cases hyx : y = x
    · subst hyx
      simp only [St.enter, upd_same] at hy
      injection hy with hy
      subst hy
      refine ⟨Nat.lt_succ_self _, upd_same _ _ _, upd_same _ _ _, hk⟩
    · simp only [St.enter, upd_other _ _ hyx] at hy
      obtain ⟨h1, h2, h3, h4⟩ := hi.memo y k hy
      exact ⟨Nat.lt_succ_of_lt h1, (g.src k h1).trans h2, (g.isDict k h1).trans h3, h4⟩
  · intro y k hy
    obtain ⟨h1, h2, h3, h4⟩ := hi.dict y k hy
    exact ⟨Nat.lt_succ_of_lt h1, (g.src k h1).trans h2, (g.isDict k h1).trans h3, h4⟩
  · intro k hk' hd
    by_cases hkn : k = s.next
    · subst hkn
      have hsrc : ((s.alloc x false l).enter x s.next).src s.next = x := upd_same _ _ _
      rw [hsrc]
      exact ⟨s.next, upd_same _ _ _, fun _ => rfl⟩
    · have hlt : k < s.next := Nat.lt_of_le_of_ne (Nat.le_of_lt_succ hk') hkn
      have hsrc : ((s.alloc x false l).enter x s.next).src k = s.src k := upd_other _ _ hkn
      rw [hsrc]
      obtain ⟨k', h1, h2⟩ := hi.back k hlt ((g.isDict k hlt).symm.trans hd)
      by_cases hyx : s.src k = x
      · rw [hyx]
        refine ⟨s.next, upd_same _ _ _, fun hcont => ?_⟩
        rw [hyx, hc hcont] at h1
        cases h1
      · exact ⟨k', (upd_other _ _ hyx).trans h1, h2⟩
  · intro y k hy hb
    by_cases hyx : y = x
    · subst hyx
      simp only [St.enter, upd_same] at hy
      injection hy with hy
      subst hy
      unfold Complete
      have : ((s.alloc y false l).enter y s.next).cont s.next = l := upd_same _ _ _
      rw [this]
      exact (hcomp hb).mono fun _ _ => hst
    · simp only [St.enter, upd_other _ _ hyx] at hy
      have h1 := (hi.memo y k hy).1
      unfold Complete
      have : ((s.alloc x false l).enter x s.next).cont k = s.cont k := upd_other _ _ (Nat.ne_of_lt h1)
      rw [this]
      exact (hi.complete y k hy (fun hb' => hb ((hB y hyx).2 hb'))).mono fun _ _ => hst
  · intro k hk' r hr
    by_cases hkn : k = s.next
    · subst hkn
      have : ((s.alloc x false l).enter x s.next).cont s.next = l := upd_same _ _ _
      rw [this] at hr
      obtain ⟨c, hc'⟩ := hl r hr
      exact ⟨c, hst hc'⟩
    · have hlt : k < s.next := Nat.lt_of_le_of_ne (Nat.le_of_lt_succ hk') hkn
      have : ((s.alloc x false l).enter x s.next).cont k = s.cont k := upd_other _ _ hkn
      rw [this] at hr
      obtain ⟨c, hc'⟩ := hi.refs k hlt r hr
      exact ⟨c, hst hc'⟩
  · intro y k hy hb
    by_cases hyx : y = x
    · subst hyx
      exact ⟨s.next, upd_same _ _ _⟩
    · obtain ⟨k', hk''⟩ := hi.done y k hy (fun hb' => hb ((hB y hyx).2 hb'))
      exact ⟨k', (upd_other _ _ hyx).trans hk''⟩

/-- What copying does. -/
def CopySpec (h : Heap) (n : Nat) : Prop := ∀ x s r s' (B : Nat → Prop), Inv h s B → copy h n x s = some (r, s') →
  Inv h s' B ∧ Grow (fun _ => False) s s' ∧ StandsFor h s' x r ∧ (h.kind x ≠ .atom → ∃ k, r = .new k ∧ s'.memo x = some k)

/-- Filling a container. -/
theorem fill_spec {h : Heap} {n : Nat} (hn : CopySpec h n) {B : Nat → Prop} (k : Nat) : ∀ (cs pre : List Nat) (s s' : St), Inv h s B →
    k < s.next → (s.isDict k = true ∨ B (s.src k)) → Each (StandsFor h s) pre (s.cont k) →
    cs.foldlM (fun s c => (copy h n c s).map fun p => p.2.push k p.1) s = some s' →
    Inv h s' B ∧ Grow (fun j => j = k) s s' ∧ Each (StandsFor h s') (pre ++ cs) (s'.cont k) := by
  intro cs
  induction cs with
  | nil =>
    intro pre s s' hi _ _ he hs
    rw [List.foldlM_nil] at hs
    injection hs with hs
    subst hs
    rw [List.append_nil]
    exact ⟨hi, .refl _ _, he⟩
  | cons c cs ih =>
    intro pre s s' hi hk hb he hs
    rw [List.foldlM_cons] at hs
    cases hc : copy h n c s with
    | none => rw [hc] at hs; cases hs
    | some p =>
      obtain ⟨r, t⟩ := p
      rw [hc] at hs
      change cs.foldlM _ (t.push k r) = some s' at hs
      obtain ⟨h1, h2, h3, _⟩ := hn c s r t B hi hc
      have hkt : k < t.next := Nat.lt_of_lt_of_le hk h2.next
      have hbt : t.isDict k = true ∨ B (t.src k) := by rw [h2.isDict k hk, h2.src k hk]; exact hb
      have g1 := h2.weaken (E' := fun j => j = k) (fun _ _ hf => hf.elim)
      have g2 := grow_push t k r
      have e1 : Each (StandsFor h (t.push k r)) (pre ++ [c]) ((t.push k r).cont k) := by
        have : (t.push k r).cont k = s.cont k ++ [r] := by
          simp only [St.push, upd_same]
          rw [h2.cont k hk (fun hf => hf)]
        rw [this]
        exact (he.mono fun _ _ hs => (hs.grow g1).grow g2).snoc (h3.grow g2)
      obtain ⟨i1, i2, i3⟩ := ih (pre ++ [c]) (t.push k r) s' (inv_push h1 hbt h3) hkt hbt e1 hs
      refine ⟨i1, (g1.trans g2).trans i2, ?_⟩
      rw [List.append_assoc] at i3
      exact i3

/-- Collecting copies. -/
theorem collect_spec {h : Heap} {n : Nat} (hn : CopySpec h n) {B : Nat → Prop} : ∀ (cs pre : List Nat) (rs : List Ref) (s : St) (a : List Ref × St),
    Inv h s B → Each (StandsFor h s) pre rs →
    cs.foldlM (fun (a : List Ref × St) c => (copy h n c a.2).map fun p => (a.1 ++ [p.1], p.2)) (rs, s) = some a →
    Inv h a.2 B ∧ Grow (fun _ => False) s a.2 ∧ Each (StandsFor h a.2) (pre ++ cs) a.1 := by
  intro cs
  induction cs with
  | nil =>
    intro pre rs s a hi he hs
    rw [List.foldlM_nil] at hs
    injection hs with hs
    subst hs
    rw [List.append_nil]
    exact ⟨hi, .refl _ _, he⟩
  | cons c cs ih =>
    intro pre rs s a hi he hs
    rw [List.foldlM_cons] at hs
    cases hc : copy h n c s with
    | none => simp only [hc] at hs; cases hs
    | some p =>
      obtain ⟨r, t⟩ := p
      simp only [hc] at hs
      change cs.foldlM _ (rs ++ [r], t) = some a at hs
      obtain ⟨h1, h2, h3, _⟩ := hn c s r t B hi hc
      obtain ⟨i1, i2, i3⟩ := ih (pre ++ [c]) (rs ++ [r]) t a h1 ((he.mono fun _ _ hs => hs.grow h2).snoc h3) hs
      refine ⟨i1, h2.trans i2, ?_⟩
      rw [List.append_assoc] at i3
      exact i3

/-- Growing up to a new object that is entered for an object that had no copy. -/
theorem grow_enter {E : Nat → Prop} {s t : St} (g : Grow E s t) (hE : ∀ j, j < s.next → ¬ E j) {x : Nat} (hx : s.memo x = none) (l : List Ref) :
    Grow (fun _ => False) s ((t.alloc x false l).enter x t.next) := by
  have g2 := grow_alloc t x false l
  refine ⟨Nat.le_trans g.next g2.next, ?_, ?_, ?_, ?_, ?_⟩
  · exact fun j hj => (g2.src j (Nat.lt_of_lt_of_le hj g.next)).trans (g.src j hj)
  · exact fun j hj => (g2.isDict j (Nat.lt_of_lt_of_le hj g.next)).trans (g.isDict j hj)
  · exact fun j hj _ => (g2.cont j (Nat.lt_of_lt_of_le hj g.next) (fun hf => hf)).trans (g.cont j hj (hE j hj))
  · intro y k hy
    have hyx : y ≠ x := by
      rintro rfl
      rw [hx] at hy
      cases hy
    exact (upd_other _ _ hyx).trans (g.memo y k hy)
  · exact fun y k hy => g.memoDict y k hy

theorem stands_enter (h : Heap) (t : St) {x : Nat} (hx : h.kind x ≠ .atom) (l : List Ref) :
    StandsFor h ((t.alloc x false l).enter x t.next) x (.new t.next) :=
  .inr ⟨hx, _, rfl, Nat.lt_succ_self _, upd_same _ _ _, upd_same _ _ _⟩

/-- The state in which the contents of a quantizer are copied. -/
theorem quantizer_start {h : Heap} {s : St} {B : Nat → Prop} (hi : Inv h s B) {x : Nat} (hkind : h.kind x = .quantizer) (hd : s.memoDict x = none) :
    Inv h ((s.alloc x true []).enterDict x s.next) (fun y => B y ∨ y = x) ∧ ((s.alloc x true []).enterDict x s.next).isDict s.next = true ∧
      Grow (fun j => j = s.next) s ((s.alloc x true []).enterDict x s.next) := by
  have ga := grow_alloc s x true []
  have hstart : Inv h ((s.alloc x true []).enterDict x s.next) (fun y => B y ∨ y = x) := by
    refine ⟨?_, ?_, ?_, ?_, ?_, ?_⟩
    · intro y k hy
      obtain ⟨m1, m2, m3, m4⟩ := hi.memo y k hy
      exact ⟨Nat.lt_succ_of_lt m1, (ga.src k m1).trans m2, (ga.isDict k m1).trans m3, m4⟩
    · intro y k hy
      by_cases hyx : y = x
      · subst hyx
        simp only [St.enterDict, upd_same] at hy
        injection hy with hy
        subst hy
        exact ⟨Nat.lt_succ_self _, upd_same _ _ _, upd_same _ _ _, hkind⟩
      · simp only [St.enterDict, upd_other _ _ hyx] at hy
        obtain ⟨m1, m2, m3, m4⟩ := hi.dict y k hy
        exact ⟨Nat.lt_succ_of_lt m1, (ga.src k m1).trans m2, (ga.isDict k m1).trans m3, m4⟩
    · intro k hk hdk
      by_cases hkn : k = s.next
      · subst hkn
        have : ((s.alloc x true []).enterDict x s.next).isDict s.next = true := upd_same _ _ _
        rw [this] at hdk
        cases hdk
      · have hlt : k < s.next := Nat.lt_of_le_of_ne (Nat.le_of_lt_succ hk) hkn
        have hsrc : ((s.alloc x true []).enterDict x s.next).src k = s.src k := upd_other _ _ hkn
        rw [hsrc]
        exact hi.back k hlt ((ga.isDict k hlt).symm.trans hdk)
    · intro y k hy hb
      have m1 := (hi.memo y k hy).1
      unfold Complete
      have : ((s.alloc x true []).enterDict x s.next).cont k = s.cont k := upd_other _ _ (Nat.ne_of_lt m1)
      rw [this]
      exact (hi.complete y k hy (fun hb' => hb (.inl hb'))).mono fun _ _ hs => hs.grow ga
    · intro k hk r hr
      by_cases hkn : k = s.next
      · subst hkn
        have : ((s.alloc x true []).enterDict x s.next).cont s.next = [] := upd_same _ _ _
        rw [this] at hr
        cases hr
      · have hlt : k < s.next := Nat.lt_of_le_of_ne (Nat.le_of_lt_succ hk) hkn
        have : ((s.alloc x true []).enterDict x s.next).cont k = s.cont k := upd_other _ _ hkn
        rw [this] at hr
        obtain ⟨c, hc'⟩ := hi.refs k hlt r hr
        exact ⟨c, hc'.grow ga⟩
    · intro y k hy hb
      have hyx : y ≠ x := fun hf => hb (.inr hf)
      simp only [St.enterDict, upd_other _ _ hyx] at hy
      exact hi.done y k hy (fun hb' => hb (.inl hb'))
  have g0 : Grow (fun j => j = s.next) s ((s.alloc x true []).enterDict x s.next) := by
    refine ⟨ga.next, ga.src, ga.isDict, fun j hj _ => ga.cont j hj (fun hf => hf), ga.memo, ?_⟩
    intro y k hy
    have hyx : y ≠ x := by
      rintro rfl
      rw [hd] at hy
      cases hy
    exact (upd_other _ _ hyx).trans hy
  exact ⟨hstart, upd_same _ _ _, g0⟩

theorem copy_spec (h : Heap) : ∀ n, CopySpec h n := by
  intro n
  induction n with
  | zero =>
    intro x s r s' B _ hc
    cases hc
  | succ n ih =>
    intro x s r s' B hi hc
    have found : ∀ k, s.memo x = some k → some (Ref.new k, s) = some (r, s') → Inv h s' B ∧ Grow (fun _ => False) s s' ∧ StandsFor h s' x r ∧
        (h.kind x ≠ .atom → ∃ k, r = .new k ∧ s'.memo x = some k) := by
      intro k hk he
      injection he with he
      injection he with h1 h2
      subst h1 h2
      obtain ⟨m1, m2, m3, m4⟩ := hi.memo x k hk
      exact ⟨hi, .refl _ _, .inr ⟨m4, k, rfl, m1, m2, m3⟩, fun _ => ⟨k, rfl, hk⟩⟩
    rw [copy] at hc
    cases hkind : h.kind x with
    | atom =>
      simp only [hkind] at hc
      injection hc with hc
      injection hc with h1 h2
      subst h1 h2
      exact ⟨hi, .refl _ _, .inl ⟨hkind, rfl⟩, fun hf => absurd rfl hf⟩
    | container =>
      simp only [hkind] at hc
      have hna : h.kind x ≠ .atom := by rw [hkind]; nofun
      cases hm : s.memo x with
      | some k => rw [hm] at hc; rw [← hkind]; exact found k hm hc
      | none =>
        rw [hm] at hc
        simp only [] at hc
        have hstart := inv_enter (B := fun y => B y ∨ y = x) hi (x := x) (fun y hy => by simp [hy]) hna (fun _ => hm) (l := []) nofun
          (fun hf => absurd (.inr rfl) hf)
        cases hf : (h.fields x).foldlM (fun s' c => (copy h n c s').map fun p => p.2.push s.next p.1) ((s.alloc x false []).enter x s.next) with
        | none => rw [hf] at hc; cases hc
        | some t =>
          rw [hf] at hc
          injection hc with hc
          injection hc with h1 h2
          subst h1 h2
          have hsrc : ((s.alloc x false []).enter x s.next).src s.next = x := upd_same _ _ _
          have hnil : ((s.alloc x false []).enter x s.next).cont s.next = [] := upd_same _ _ _
          obtain ⟨i1, i2, i3⟩ := fill_spec ih s.next (h.fields x) [] _ t hstart (Nat.lt_succ_self _) (.inr (by rw [hsrc]; exact .inr rfl))
            (by rw [hnil]; exact .nil) hf
          have g0 : Grow (fun _ => False) s ((s.alloc x false []).enter x s.next) := grow_enter (.refl (fun _ => False) s) (fun _ _ hf => hf) hm []
          have hmt : t.memo x = some s.next := i2.memo _ _ (upd_same _ _ _)
          refine ⟨⟨i1.memo, i1.dict, i1.back, ?_, i1.refs, ?_⟩, ?_, ?_, fun _ => ⟨s.next, rfl, hmt⟩⟩
          · intro y k hy hb
            by_cases hyx : y = x
            · subst hyx
              rw [hmt] at hy
              injection hy with hy
              subst hy
              exact i3
            · exact i1.complete y k hy (fun hf => hf.elim hb hyx)
          · intro y k hy hb
            by_cases hyx : y = x
            · subst hyx
              have := (i1.dict y k hy).2.2.2
              rw [hkind] at this
              cases this
            · exact i1.done y k hy (fun hf => hf.elim hb hyx)
          · refine ⟨Nat.le_trans g0.next i2.next, ?_, ?_, ?_, fun y k hy => i2.memo y k (g0.memo y k hy), fun y k hy => i2.memoDict y k (g0.memoDict y k hy)⟩
            · exact fun j hj => (i2.src j (Nat.lt_of_lt_of_le hj g0.next)).trans (g0.src j hj)
            · exact fun j hj => (i2.isDict j (Nat.lt_of_lt_of_le hj g0.next)).trans (g0.isDict j hj)
            · exact fun j hj hf => (i2.cont j (Nat.lt_of_lt_of_le hj g0.next) (Nat.ne_of_lt hj)).trans (g0.cont j hj hf)
          · obtain ⟨m1, m2, m3, m4⟩ := i1.memo x _ hmt
            exact .inr ⟨m4, _, rfl, m1, m2, m3⟩
    | quantizer =>
      simp only [hkind] at hc
      have hna : h.kind x ≠ .atom := by rw [hkind]; nofun
      have hnc : h.kind x ≠ .container := by rw [hkind]; nofun
      cases hm : s.memo x with
      | some k => rw [hm] at hc; rw [← hkind]; exact found k hm hc
      | none =>
        rw [hm] at hc
        simp only [] at hc
        cases hd : s.memoDict x with
        | some kd =>
          rw [hd] at hc
          injection hc with hc
          injection hc with h1 h2
          subst h1 h2
          refine ⟨inv_enter hi (fun _ _ => Iff.rfl) hna (fun hf => absurd hf hnc) (hi.refs kd (hi.dict x kd hd).1) ?_,
            grow_enter (.refl (fun _ => False) s) (fun _ _ hf => hf) hm _, stands_enter h s hna _, fun _ => ⟨_, rfl, upd_same _ _ _⟩⟩
          intro hb
          obtain ⟨k', hk'⟩ := hi.done x kd hd hb
          rw [hm] at hk'
          cases hk'
        | none =>
          rw [hd] at hc
          simp only [] at hc
          obtain ⟨hstart, hdict, g0⟩ := quantizer_start hi hkind hd
          cases hf : (h.fields x).foldlM (fun s' c => (copy h n c s').map fun p => p.2.push s.next p.1) ((s.alloc x true []).enterDict x s.next) with
          | none => rw [hf] at hc; cases hc
          | some t =>
            rw [hf] at hc
            injection hc with hc
            injection hc with h1 h2
            subst h1 h2
            have hnil : ((s.alloc x true []).enterDict x s.next).cont s.next = [] := upd_same _ _ _
            obtain ⟨i1, i2, i3⟩ := fill_spec ih s.next (h.fields x) [] _ t hstart (Nat.lt_succ_self _) (.inl hdict) (by rw [hnil]; exact .nil) hf
            have hlt : s.next < t.next := Nat.lt_of_lt_of_le (Nat.lt_succ_self _) i2.next
            refine ⟨inv_enter i1 (fun y hy => by simp [hy]) hna (fun hf => absurd hf hnc) (i1.refs s.next hlt) (fun _ => i3),
              grow_enter (g0.trans i2) (fun j hj => Nat.ne_of_lt hj) hm _, stands_enter h t hna _, fun _ => ⟨_, rfl, upd_same _ _ _⟩⟩
    | method =>
      simp only [hkind] at hc
      have hna : h.kind x ≠ .atom := by rw [hkind]; nofun
      have hnc : h.kind x ≠ .container := by rw [hkind]; nofun
      cases hm : s.memo x with
      | some k => rw [hm] at hc; rw [← hkind]; exact found k hm hc
      | none =>
        rw [hm] at hc
        simp only [] at hc
        cases hf : (h.fields x).foldlM (fun (a : List Ref × St) c => (copy h n c a.2).map fun p => (a.1 ++ [p.1], p.2)) ([], s) with
        | none => rw [hf] at hc; cases hc
        | some a =>
          rw [hf] at hc
          injection hc with hc
          injection hc with h1 h2
          subst h1 h2
          obtain ⟨i1, i2, i3⟩ := collect_spec ih (h.fields x) [] [] s a hi .nil hf
          refine ⟨inv_enter i1 (fun _ _ => Iff.rfl) hna (fun hf => absurd hf hnc) ?_ (fun _ => i3), grow_enter i2 (fun _ _ hf => hf) hm _,
            stands_enter h a.2 hna _, fun _ => ⟨_, rfl, upd_same _ _ _⟩⟩
          intro r hr
          obtain ⟨c, _, hc'⟩ := i3.mem_right hr
          exact ⟨c, hc'⟩

theorem inv_init (h : Heap) : Inv h {} (fun _ => False) :=
  ⟨nofun, nofun, nofun, nofun, nofun, nofun⟩

/-- Whether copying an object will still enter its contents. -/
def waiting (h : Heap) (s : St) (x : Nat) : Bool :=
  (h.kind x == .container && (s.memo x).isNone) || (h.kind x == .quantizer && (s.memoDict x).isNone)

/-- The number of objects with contents still to copy. -/
def left (h : Heap) (N : Nat) (s : St) : Nat := (List.range N).countP (waiting h s)

theorem waiting_grow {h : Heap} {E : Nat → Prop} {s s' : St} (g : Grow E s s') {x : Nat} (hx : waiting h s' x = true) : waiting h s x = true := by
  unfold waiting at hx ⊢
  have hm : (s'.memo x).isNone = true → (s.memo x).isNone = true := by
    cases hs : s.memo x with
    | none => exact fun _ => rfl
    | some k => rw [g.memo x k hs]; exact id
  have hd : (s'.memoDict x).isNone = true → (s.memoDict x).isNone = true := by
    cases hs : s.memoDict x with
    | none => exact fun _ => rfl
    | some k => rw [g.memoDict x k hs]; exact id
  simp only [Bool.or_eq_true, Bool.and_eq_true] at hx ⊢
  rcases hx with ⟨h1, h2⟩ | ⟨h1, h2⟩
  · exact .inl ⟨h1, hm h2⟩
  · exact .inr ⟨h1, hd h2⟩

theorem countP_le {l : List Nat} {p q : Nat → Bool} (hi : ∀ x ∈ l, q x = true → p x = true) : l.countP q ≤ l.countP p := by
  induction l with
  | nil => exact Nat.le_refl _
  | cons a l ih =>
    have := ih (fun x hx => hi x (List.mem_cons_of_mem _ hx))
    rw [List.countP_cons, List.countP_cons]
    by_cases hq : q a = true
    · simp [hq, hi a List.mem_cons_self hq, this]
    · simp [hq]
      omega

theorem countP_lt {l : List Nat} {p q : Nat → Bool} (hi : ∀ x ∈ l, q x = true → p x = true) {a : Nat} (ha : a ∈ l) (hp : p a = true) (hq : q a = false) :
    l.countP q < l.countP p := by
  induction l with
  | nil => cases ha
  | cons b l ih =>
    rw [List.countP_cons, List.countP_cons]
    have hle := countP_le (fun x hx => hi x (List.mem_cons_of_mem b hx))
    rcases List.mem_cons.1 ha with rfl | ha
    · simp [hp, hq]
      omega
    · have := ih (fun x hx => hi x (List.mem_cons_of_mem _ hx)) ha
      by_cases hb : q b = true
      · simp [hb, hi b List.mem_cons_self hb, this]
      · simp [hb]
        omega

theorem left_grow {h : Heap} {N : Nat} {E : Nat → Prop} {s s' : St} (g : Grow E s s') : left h N s' ≤ left h N s :=
  countP_le fun _ _ hx => waiting_grow g hx

/-- Filling a container ends if copying the contents does. -/
theorem fill_ends {h : Heap} {N n : Nat} {B : Nat → Prop} (k m : Nat) (hn : ∀ c s, c < N → Inv h s B → left h N s ≤ m → ∃ p, copy h n c s = some p) :
    ∀ (cs : List Nat) (s : St), (∀ c ∈ cs, c < N) → Inv h s B → k < s.next → (s.isDict k = true ∨ B (s.src k)) → left h N s ≤ m →
    ∃ s', cs.foldlM (fun s c => (copy h n c s).map fun p => p.2.push k p.1) s = some s' := by
  intro cs
  induction cs with
  | nil => exact fun s _ _ _ _ _ => ⟨s, rfl⟩
  | cons c cs ih =>
    intro s hc hi hk hb hl
    obtain ⟨⟨r, t⟩, hp⟩ := hn c s (hc c List.mem_cons_self) hi hl
    obtain ⟨i1, i2, i3, _⟩ := copy_spec h n c s r t B hi hp
    have hbt : t.isDict k = true ∨ B (t.src k) := by rw [i2.isDict k hk, i2.src k hk]; exact hb
    rw [List.foldlM_cons, hp]
    exact ih (t.push k r) (fun c' hc' => hc c' (List.mem_cons_of_mem _ hc')) (inv_push i1 hbt i3) (Nat.lt_of_lt_of_le hk i2.next) hbt
      (Nat.le_trans (left_grow (grow_push t k r)) (Nat.le_trans (left_grow i2) hl))

/-- Collecting copies ends if copying does. -/
theorem collect_ends {h : Heap} {N n : Nat} {B : Nat → Prop} (m : Nat) : ∀ (cs : List Nat),
    (∀ c ∈ cs, ∀ s, Inv h s B → left h N s ≤ m → ∃ p, copy h n c s = some p) → ∀ (rs : List Ref) (s : St), Inv h s B → left h N s ≤ m →
    ∃ a, cs.foldlM (fun (a : List Ref × St) c => (copy h n c a.2).map fun p => (a.1 ++ [p.1], p.2)) (rs, s) = some a := by
  intro cs
  induction cs with
  | nil => exact fun _ rs s _ _ => ⟨(rs, s), rfl⟩
  | cons c cs ih =>
    intro hn rs s hi hl
    obtain ⟨⟨r, t⟩, hp⟩ := hn c List.mem_cons_self s hi hl
    obtain ⟨i1, i2, _, _⟩ := copy_spec h n c s r t B hi hp
    rw [List.foldlM_cons]
    simp only [hp]
    exact ih (fun c' hc' => hn c' (List.mem_cons_of_mem _ hc')) (rs ++ [r]) t i1 (Nat.le_trans (left_grow i2) hl)

/-- The objects are those below `N`, and methods belong to objects that are not themselves methods. -/
structure Bounded (h : Heap) (N : Nat) : Prop where
  fields : ∀ x, x < N → ∀ c ∈ h.fields x, c < N
  methods : ∀ x, h.kind x = .method → ∀ c ∈ h.fields x, h.kind c ≠ .method

theorem copy_ends_aux {h : Heap} {N : Nat} (hN : Bounded h N) : ∀ n x s (B : Nat → Prop) m, x < N → Inv h s B → left h N s ≤ m →
    (h.kind x ≠ .method → 2 * m + 1 ≤ n) → (h.kind x = .method → 2 * m + 2 ≤ n) → ∃ p, copy h n x s = some p := by
  intro n
  induction n with
  | zero =>
    intro x s B m _ _ _ h1 h2
    by_cases hk : h.kind x = .method
    · have := h2 hk; omega
    · have := h1 hk; omega
  | succ n ih =>
    intro x s B m hx hi hl h1 h2
    rw [copy]
    cases hkind : h.kind x with
    | atom => exact ⟨_, rfl⟩
    | container =>
      simp only []
      cases hm : s.memo x with
      | some k => exact ⟨_, rfl⟩
      | none =>
        simp only []
        have hna : h.kind x ≠ .atom := by rw [hkind]; nofun
        have hbound := h1 (by rw [hkind]; nofun)
        have hstart := inv_enter (B := fun y => B y ∨ y = x) hi (x := x) (fun y hy => by simp [hy]) hna (fun _ => hm) (l := []) nofun
          (fun hf => absurd (.inr rfl) hf)
        have hlt : left h N ((s.alloc x false []).enter x s.next) < left h N s := by
          have g0 : Grow (fun _ => False) s ((s.alloc x false []).enter x s.next) := grow_enter (.refl (fun _ => False) s) (fun _ _ hf => hf) hm []
          refine countP_lt (fun _ _ hw => waiting_grow g0 hw) (List.mem_range.2 hx) ?_ ?_
          · simp [waiting, hkind, hm]
          · simp [waiting, hkind, St.enter, upd]
        have hsrc : ((s.alloc x false []).enter x s.next).src s.next = x := upd_same _ _ _
        obtain ⟨t, ht⟩ := fill_ends (N := N) (n := n) (B := fun y => B y ∨ y = x) s.next (m - 1)
          (fun c s' hc hi' hl' => ih c s' _ (m - 1) hc hi' hl' (fun _ => by omega) (fun _ => by omega)) (h.fields x)
          ((s.alloc x false []).enter x s.next) (hN.fields x hx) hstart (Nat.lt_succ_self _) (.inr (by rw [hsrc]; exact .inr rfl)) (by omega)
        rw [ht]
        exact ⟨_, rfl⟩
    | quantizer =>
      simp only []
      cases hm : s.memo x with
      | some k => exact ⟨_, rfl⟩
      | none =>
        simp only []
        cases hd : s.memoDict x with
        | some kd => exact ⟨_, rfl⟩
        | none =>
          simp only []
          have hbound := h1 (by rw [hkind]; nofun)
          obtain ⟨hstart, hdict, g0⟩ := quantizer_start hi hkind hd
          have hlt : left h N ((s.alloc x true []).enterDict x s.next) < left h N s := by
            refine countP_lt (fun _ _ hw => waiting_grow g0 hw) (List.mem_range.2 hx) ?_ ?_
            · simp [waiting, hkind, hd]
            · simp [waiting, hkind, St.enterDict, upd]
          obtain ⟨t, ht⟩ := fill_ends (N := N) (n := n) (B := fun y => B y ∨ y = x) s.next (m - 1)
            (fun c s' hc hi' hl' => ih c s' _ (m - 1) hc hi' hl' (fun _ => by omega) (fun _ => by omega)) (h.fields x)
            ((s.alloc x true []).enterDict x s.next) (hN.fields x hx) hstart (Nat.lt_succ_self _) (.inl hdict) (by omega)
          rw [ht]
          exact ⟨_, rfl⟩
    | method =>
      simp only []
      cases hm : s.memo x with
      | some k => exact ⟨_, rfl⟩
      | none =>
        simp only []
        have hbound := h2 hkind
        obtain ⟨a, ha⟩ := collect_ends (N := N) (n := n) (B := B) m (h.fields x)
          (fun c hc s' hi' hl' => ih c s' B m (hN.fields x hx c hc) hi' hl' (fun _ => by omega) (fun hf => absurd hf (hN.methods x hkind c hc))) [] s hi hl
        rw [ha]
        exact ⟨_, rfl⟩

/-! ## Properties -/

/-- **C133.** Copying ends, whatever refers to what. -/
theorem copy_ends (h : Heap) (N : Nat) (hN : Bounded h N) (x : Nat) (hx : x < N) : ∃ n r s, copy h n x {} = some (r, s) := by
  obtain ⟨p, hp⟩ := copy_ends_aux hN (2 * left h N {} + 2) x {} _ (left h N {}) hx (inv_init h) (Nat.le_refl _) (fun _ => by omega) (fun _ => by omega)
  exact ⟨_, p.1, p.2, hp⟩

/-- **C133 (partial).** Every object that is reached from the object, other than atoms, has been copied, and its copy has copies of all its
contents, in order. So has the copy that is returned. Missing: that references from a quantizer back to itself become references to its copy, see `hook_refers_elsewhere`. -/
theorem copy_complete_partial (h : Heap) (n x : Nat) (r : Ref) (s : St) (hc : copy h n x {} = some (r, s)) :
    StandsFor h s x r ∧ (∀ k, r = .new k → Complete h s x k) ∧
    ∀ y, Reaches h x y → h.kind y ≠ .atom → ∃ k, StandsFor h s y (.new k) ∧ Complete h s y k := by
  obtain ⟨hi, _, hs, hm⟩ := copy_spec h n x {} r s _ (inv_init h) hc
  have hcomp : ∀ y k, s.memo y = some k → Complete h s y k := fun y k hy => hi.complete y k hy (fun hf => hf)
  refine ⟨hs, ?_, ?_⟩
  · rintro k rfl
    rcases hs with ⟨_, hs⟩ | ⟨hna, _⟩
    · cases hs
    · obtain ⟨k', h1, h2⟩ := hm hna
      injection h1 with h1
      subst h1
      exact hcomp x _ h2
  · have key : ∀ y, Reaches h x y → h.kind y ≠ .atom → ∃ k, s.memo y = some k := by
      intro y hy
      induction hy with
      | here =>
        intro hna
        obtain ⟨k', _, h2⟩ := hm hna
        exact ⟨k', h2⟩
      | @step y z _ hya hz ih =>
        intro hna
        obtain ⟨k, hk⟩ := ih hya
        obtain ⟨r', _, hr'⟩ := (hcomp y k hk).mem_left hz
        rcases hr' with ⟨ha, _⟩ | ⟨_, j, _, j1, rfl, j3⟩
        · exact absurd ha hna
        · obtain ⟨k', hk', _⟩ := hi.back j j1 j3
          exact ⟨k', hk'⟩
    intro y hy hna
    obtain ⟨k, hk⟩ := key y hy hna
    obtain ⟨m1, m2, m3, m4⟩ := hi.memo y k hk
    exact ⟨k, .inr ⟨hna, k, rfl, m1, m2, m3⟩, hcomp y k hk⟩

/-- **C133.** Every dictionary, module and parameter is copied once: what is shared between two places is shared between their copies. All copies of it are
complete, and are referred to as such everywhere. -/
theorem containers_once (h : Heap) (n x : Nat) (r : Ref) (s : St) (hc : copy h n x {} = some (r, s)) (y : Nat) (hy : h.kind y = .container) (r1 r2 : Ref)
    (h1 : StandsFor h s y r1) (h2 : StandsFor h s y r2) : r1 = r2 ∧ ∃ k, r1 = .new k ∧ Complete h s y k := by
  obtain ⟨hi, _, _, _⟩ := copy_spec h n x {} r s _ (inv_init h) hc
  have key : ∀ r, StandsFor h s y r → ∃ k, r = .new k ∧ s.memo y = some k := by
    rintro r (⟨ha, _⟩ | ⟨_, k, rfl, k1, k2, k3⟩)
    · rw [hy] at ha; cases ha
    · obtain ⟨k', hk', he⟩ := hi.back k k1 k3
      rw [k2] at hk' he
      rw [he hy] at hk'
      exact ⟨k, rfl, hk'⟩
  obtain ⟨k1, rfl, e1⟩ := key r1 h1
  obtain ⟨k2, rfl, e2⟩ := key r2 h2
  rw [e1] at e2
  injection e2 with e2
  subst e2
  exact ⟨rfl, k1, rfl, hi.complete y k1 e1 (fun hf => hf)⟩

/-- **C133.** Nothing that can change is shared: new objects refer to atoms and to new objects only. -/
theorem nothing_shared (h : Heap) (n x : Nat) (r : Ref) (s : St) (hc : copy h n x {} = some (r, s)) (k y : Nat) (hk : k < s.next)
    (hy : .old y ∈ s.cont k) : h.kind y = .atom := by
  obtain ⟨hi, _, _, _⟩ := copy_spec h n x {} r s _ (inv_init h) hc
  obtain ⟨c, hc'⟩ := hi.refs k hk _ hy
  rcases hc' with ⟨ha, he⟩ | ⟨_, _, he, _⟩
  · injection he with he
    subst he
    exact ha
  · cases he

/-- **C133.** A quantizer that a module refers to from several places is copied once: the copies of these references are the same. -/
theorem quantizers_once (h : Heap) (n : Nat) (xs : List Nat) (rs : List Ref) (s : St) (hc : copyAll h n xs {} = some (rs, s)) (x : Nat) (r1 r2 : Ref)
    (h1 : (x, r1) ∈ xs.zip rs) (h2 : (x, r2) ∈ xs.zip rs) : r1 = r2 := by
  have key : ∀ (xs : List Nat) (rs : List Ref) (t s : St), Inv h t (fun _ => False) → copyAll h n xs t = some (rs, s) → Grow (fun _ => False) t s ∧
      ∀ x r, (x, r) ∈ xs.zip rs → (h.kind x = .atom ∧ r = .old x) ∨ (h.kind x ≠ .atom ∧ ∃ k, r = .new k ∧ s.memo x = some k) := by
    intro xs
    induction xs with
    | nil =>
      intro rs t s _ he
      rw [copyAll] at he
      injection he with he
      injection he with h1 h2
      subst h1 h2
      exact ⟨.refl _ _, nofun⟩
    | cons a xs ih =>
      intro rs t s hi he
      rw [copyAll] at he
      cases ha : copy h n a t with
      | none => rw [ha] at he; cases he
      | some p =>
        obtain ⟨ra, u⟩ := p
        rw [ha] at he
        simp only [Option.bind_some] at he
        cases hq : copyAll h n xs u with
        | none => rw [hq] at he; cases he
        | some q =>
          rw [hq] at he
          injection he with he
          injection he with e1 e2
          subst e1 e2
          obtain ⟨i1, i2, i3, i4⟩ := copy_spec h n a t ra u _ hi ha
          obtain ⟨g, hg⟩ := ih q.1 u q.2 i1 hq
          refine ⟨i2.trans g, ?_⟩
          intro x r hm
          rw [List.zip_cons_cons] at hm
          rcases List.mem_cons.1 hm with hm | hm
          · injection hm with e1 e2
            subst e1 e2
            rcases i3 with i3 | ⟨hna, _⟩
            · exact .inl i3
            · obtain ⟨k, rfl, hk⟩ := i4 hna
              exact .inr ⟨hna, k, rfl, g.memo _ _ hk⟩
          · exact hg x r hm
  obtain ⟨_, hk⟩ := key xs rs {} s (inv_init h) hc
  rcases hk x r1 h1 with ⟨a1, rfl⟩ | ⟨a1, k1, rfl, b1⟩ <;> rcases hk x r2 h2 with ⟨a2, rfl⟩ | ⟨a2, k2, rfl, b2⟩
  · rfl
  · exact absurd a1 a2
  · exact absurd a2 a1
  · rw [b1] at b2
    injection b2 with b2
    rw [b2]

/-! ## Deviations -/

theorem fill_atoms {h : Heap} {n k : Nat} : ∀ (cs : List Nat) (s : St), (∀ c ∈ cs, h.kind c = .atom) →
    cs.foldlM (fun s c => (copy h (n + 1) c s).map fun p => p.2.push k p.1) s = some { s with cont := upd s.cont k (s.cont k ++ cs.map .old) } := by
  intro cs
  induction cs with
  | nil =>
    intro s _
    rw [List.foldlM_nil]
    have : upd s.cont k (s.cont k ++ [].map .old) = s.cont := by
      funext i
      by_cases hi : i = k
      · subst hi; simp [upd]
      · simp [upd, hi]
    rw [this]
    rfl
  | cons c cs ih =>
    intro s hc
    have h1 : copy h (n + 1) c s = some (.old c, s) := by
      rw [copy, hc c List.mem_cons_self]
    rw [List.foldlM_cons, h1]
    change cs.foldlM _ (s.push k (.old c)) = _
    rw [ih _ (fun c' hc' => hc c' (List.mem_cons_of_mem _ hc'))]
    congr 1
    simp only [St.push, upd_same]
    congr 1
    funext i
    by_cases hi : i = k
    · subst hi; simp [upd]
    · simp [upd, hi]

/-- **C133, deviation.** Every quantizer has a hook that is a method of its own. The hook of a copy is a method of yet another quantizer, which has only those
attributes that come before the hooks, here `pre`. It is not the copy, and what is assigned to the copy later is not seen there. -/
theorem hook_refers_elsewhere (h : Heap) (q hooks m : Nat) (pre post : List Nat) (hq : h.kind q = .quantizer) (hh : h.kind hooks = .container)
    (hm : h.kind m = .method) (fq : h.fields q = pre ++ hooks :: post) (fh : h.fields hooks = [m]) (fm : h.fields m = [q])
    (hpre : ∀ c ∈ pre, h.kind c = .atom) (hpost : ∀ c ∈ post, h.kind c = .atom) :
    ∃ k k1 kh km s, copy h 5 q {} = some (.new k, s) ∧ s.cont k = pre.map .old ++ .new kh :: post.map .old ∧ s.cont kh = [.new km] ∧
      s.cont km = [.new k1] ∧ k1 ≠ k ∧ s.src k1 = q ∧ s.cont k1 = pre.map .old := by
  have hqh : q ≠ hooks := by rintro rfl; rw [hq] at hh; cases hh
  have hqm : q ≠ m := by rintro rfl; rw [hq] at hm; cases hm
  have hhm : hooks ≠ m := by rintro rfl; rw [hh] at hm; cases hm
  let s0 : St := (St.alloc {} q true []).enterDict q 0
  let s1 : St := { s0 with cont := upd s0.cont 0 (s0.cont 0 ++ pre.map .old) }
  let s2 : St := (s1.alloc hooks false []).enter hooks 1
  let s3 : St := (s2.alloc q false (s2.cont 0)).enter q 2
  let s4 : St := (s3.alloc m false [.new 2]).enter m 3
  let s5 : St := s4.push 1 (.new 3)
  let s6 : St := s5.push 0 (.new 1)
  let s7 : St := { s6 with cont := upd s6.cont 0 (s6.cont 0 ++ post.map .old) }
  let s8 : St := (s7.alloc q false (s7.cont 0)).enter q 4
  have c3 : copy h 2 q s2 = some (.new 2, s3) := by
    have e1 : s2.memo q = none := upd_other _ _ hqh
    have e2 : s2.memoDict q = some 0 := upd_same _ _ _
    rw [copy]
    simp only [hq, e1, e2]
    rfl
  have c4 : copy h 3 m s2 = some (.new 3, s4) := by
    have e1 : s2.memo m = none := upd_other _ _ (Ne.symm hhm)
    rw [copy]
    simp only [hm, e1, fm, List.foldlM_cons, List.foldlM_nil, c3]
    rfl
  have c5 : copy h 4 hooks s1 = some (.new 1, s5) := by
    have e1 : s1.memo hooks = none := rfl
    have e2 : s1.next = 1 := rfl
    rw [copy]
    simp only [hh, e1, e2, fh, List.foldlM_cons, List.foldlM_nil]
    rw [show (s1.alloc hooks false []).enter hooks 1 = s2 from rfl, c4]
    rfl
  have c8 : copy h 5 q {} = some (.new 4, s8) := by
    rw [copy]
    simp only [hq, fq]
    rw [List.foldlM_append]
    rw [show ((St.alloc {} q true []).enterDict q 0) = s0 from rfl]
    have f1 := fill_atoms (h := h) (n := 3) (k := 0) pre s0 hpre
    rw [f1]
    rw [show (some ({ s0 with cont := upd s0.cont 0 (s0.cont 0 ++ pre.map .old) } : St)) = some s1 from rfl, Option.bind_eq_bind, Option.bind_some,
      List.foldlM_cons, c5]
    have f2 := fill_atoms (h := h) (n := 3) (k := 0) post s6 hpost
    change Option.map _ (post.foldlM _ s6) = _
    rw [f2]
    rfl
  refine ⟨4, 2, 1, 3, s8, c8, ?_, ?_, ?_, by decide, ?_, ?_⟩
  · simp [s8, s7, s6, s5, s4, s3, s2, s1, s0, St.alloc, St.enter, St.enterDict, St.push, upd]
  · simp [s8, s7, s6, s5, s4, s3, s2, s1, s0, St.alloc, St.enter, St.enterDict, St.push, upd]
  · simp [s8, s7, s6, s5, s4, s3, s2, s1, s0, St.alloc, St.enter, St.enterDict, St.push, upd]
  · simp [s8, s7, s6, s5, s4, s3, s2, s1, s0, St.alloc, St.enter, St.enterDict, St.push, upd]
  · simp [s8, s7, s6, s5, s4, s3, s2, s1, s0, St.alloc, St.enter, St.enterDict, St.push, upd]

/-- **C133, deviation.** Overrides are copied with a quantizer, but the handle that removes an override knows the original only: the copy has a container of
overrides of its own, with the same overrides. -/
theorem overrides_stay (h : Heap) (n q o : Nat) (k : Nat) (s : St) (hc : copy h n q {} = some (.new k, s)) (ho : o ∈ h.fields q)
    (hk : h.kind o = .container) (hf : ∀ f ∈ h.fields o, h.kind f = .atom) : ∃ j, .new j ∈ s.cont k ∧ s.cont j = (h.fields o).map .old := by
  obtain ⟨_, hcomp, _⟩ := copy_complete_partial h n q _ s hc
  obtain ⟨r, hr, hs⟩ := (hcomp k rfl).mem_left ho
  obtain ⟨_, j, rfl, hj⟩ := containers_once h n q _ s hc o hk r r hs hs
  refine ⟨j, hr, ?_⟩
  have key : ∀ (l : List Nat) (l' : List Ref), Each (StandsFor h s) l l' → (∀ f ∈ l, h.kind f = .atom) → l' = l.map .old := by
    intro l l' he
    induction he with
    | nil => exact fun _ => rfl
    | cons h1 _ ih =>
      intro hl
      rw [List.map_cons, ← ih (fun f hf => hl f (List.mem_cons_of_mem _ hf))]
      rcases h1 with ⟨_, rfl⟩ | ⟨hna, _⟩
      · rfl
      · exact absurd (hl _ List.mem_cons_self) hna
  exact key _ _ hj hf

/-! ## Concrete cases -/

/-- A module, 0, that refers to a quantizer, 1, in two places; the quantizer has parameters, 2, with one parameter, 3, hooks, 4, with a method, 5, overrides, 6,
with a function, 7, and a number, 8. -/
def sample : Heap where
  kind x := match x with
    | 1 => .quantizer
    | 5 => .method
    | 7 | 8 => .atom
    | _ => .container
  fields x := match x with
    | 0 => [1, 9]
    | 9 => [1, 3]
    | 1 => [2, 4, 6, 8]
    | 2 => [3]
    | 4 => [5]
    | 5 => [1]
    | 6 => [7]
    | _ => []

example : Bounded sample 10 := ⟨by decide, by
  intro x hx c hc
  have : x = 5 := by
    unfold sample at hx
    simp only at hx
    split at hx <;> first | rfl | cases hx
  subst this
  have : c = 1 := by simpa [sample] using hc
  subst this
  decide⟩

/-- The two references are to the same copy, and the parameter is shared as before. The method is of another copy, with the first attribute only. -/
example : (copy sample 20 0 {}).map (fun p => (p.1, (List.range p.2.next).map p.2.cont)) =
    some (.new 0, [[.new 8, .new 9], [.new 2, .new 4, .new 7, .old 8], [.new 3], [], [.new 6], [.new 2], [.new 5], [.old 7], [.new 2, .new 4, .new 7, .old 8],
      [.new 8, .new 3]]) := by decide +kernel
example : (copyAll sample 20 [1, 3, 1] {}).map (·.1) = some [.new 7, .new 2, .new 7] := by decide +kernel

end FF.DeepCopy
