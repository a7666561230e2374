import Verif.Quant.AffineProps

/-!
# The parameters of a linear quantizer over its life

Models `LinearQuantizer` of `nn/linear_quantizer.py`: construction, setting and reading of the quantization range, and reset.
-/

namespace FF.LinQ

open FF.Quant

/-! ## Model -/

/-- The attribute `offset` (`linear_quantizer.py:155-163`): `None`, a buffer, or a parameter; without values as long as it is not
initialized. -/
inductive Slot
  | absent
  | buffer (v : Option (List ℚ))
  | param (v : Option (List ℚ))
  deriving DecidableEq

/-- `linear_quantizer.py:113-163`: the state of a `LinearQuantizer`. `scale` is `none` as long as it is not initialized; entries that are
not finite are `none`. Granularity and the types of the data are left out. -/
structure Quantizer where
  bits : ℕ
  allowOneSided : Bool
  scale : Option (List (Option ℚ)) := none
  offset : Slot
  deriving DecidableEq

/-- `linear_quantizer.py:136-163` `__init__`. -/
def new (bits : ℕ) (symmetric allowOneSided : Bool) : Quantizer :=
  { bits, allowOneSided,
    offset := if symmetric && !allowOneSided then .absent else if symmetric && allowOneSided then .buffer none else .param none }

/-- `linear_quantizer.py:165-181` `symmetric`. -/
def Quantizer.symmetric (q : Quantizer) : Bool :=
  match q.offset with
  | .absent => true
  | .buffer _ => true
  | .param _ => false

/-- `linear_quantizer.py:66-70` `has_uninitialized_params`: only parameters are looked at, not buffers. -/
def Quantizer.uninitialized (q : Quantizer) : Bool :=
  q.scale.isNone || match q.offset with
    | .param v => v.isNone
    | _ => false

/-- `linear_quantizer.py:183-200` `reset_parameters`. -/
def Quantizer.reset (q : Quantizer) : Quantizer :=
  { q with
    scale := none
    offset := match q.offset with
      | .absent => .absent
      | .param _ => .param none
      | .buffer _ => .buffer none }

/-- `linear_quantizer.py:202-213` `_initialize_parameters`. -/
def Quantizer.initialize (q : Quantizer) (k : ℕ) : Quantizer :=
  if q.uninitialized then
    { q with
      scale := some (List.replicate k (some 1))
      offset := match q.offset with
        | .absent => .absent
        | .param _ => .param (some (List.replicate k 0))
        | .buffer _ => .buffer (some (List.replicate k 0)) }
  else q

/-- Broadcasting of two vectors by torch, in the operations of `parameters_for_range` (`affine/range.py:107-122`). Bounds are vectors;
numbers are vectors with one entry. Bounds with more dimensions are left out. -/
def broadcast (a b : List ℚ) : Option (List (ℚ × ℚ)) :=
  if a.length = b.length then some (a.zip b)
  else match a, b with
    | [x], b => some (b.map (x, ·))
    | a, [y] => some (a.map (·, y))
    | _, _ => none

/-- `Tensor.copy_` of a vector into one with `n` entries: fails unless the lengths agree or the source has one entry. -/
def copyInto {α : Type} (n : ℕ) (src : List α) : Option (List α) :=
  if src.length = n then some src
  else match src with
    | [x] => some (List.replicate n x)
    | _ => none

/-- `linear_quantizer.py:322-357`, the setter of `quantization_range`: whether it succeeds, and the state it leaves. `eps` is
the least scale (`affine/range.py:120`). Ranges that are not pairs are refused before anything is done (330-340) and are left out. -/
def Quantizer.setRange (eps : ℚ) (q : Quantizer) (mins maxs : List ℚ) : Bool × Quantizer :=
  let q := if q.uninitialized then q.initialize mins.length else q
  match broadcast mins maxs with
  | none => (false, q)
  | some rs =>
    match parametersForRange eps q.bits q.symmetric q.allowOneSided rs with
    | .error _ => (false, q)
    | .ok (s, o) =>
      match copyInto (q.scale.getD []).length s with
      | none => (false, q)
      | some s =>
        let q := { q with scale := some s }
        match q.offset with
        | .absent => (true, q)
        | .buffer v =>
          match o with
          | none => (true, { q with offset := .buffer (v.map fun v => v.map fun _ => 0) })
          | some o =>
            match copyInto (v.getD []).length o with
            | none => (false, q)
            | some o => (true, { q with offset := .buffer (some o) })
        | .param v =>
          match o with
          | none => (true, { q with offset := .param (v.map fun v => v.map fun _ => 0) })
          | some o =>
            match copyInto (v.getD []).length o with
            | none => (false, q)
            | some o => (true, { q with offset := .param (some o) })

/-- The offset of the `i`-th entry, as `quantization_parameters` (`linear_quantizer.py:225-233`) hands it on. -/
def Quantizer.offsetAt (q : Quantizer) (i : ℕ) : Option ℚ :=
  match q.offset with
  | .absent => none
  | .buffer v => (v.getD [])[i]?
  | .param v => (v.getD [])[i]?

/-- `linear_quantizer.py:303-320`, the getter of `quantization_range`; entries that are not finite are `none`. -/
def Quantizer.range (q : Quantizer) : Option (List (Option (ℚ × ℚ))) :=
  if q.uninitialized then none
  else q.scale.map fun s => s.mapIdx fun i x => x.map fun x => quantizationRange x (q.offsetAt i) q.bits

/-- `linear_quantizer.py:243-274` `quantize`, for an element `x` of the `i`-th tile, followed by `dequantize`: `none` if it raises
because the quantizer is not initialized, or there is no such tile. -/
def Quantizer.quantDequant (q : Quantizer) (i : ℕ) (x : ℚ) : Option ℚ :=
  if q.uninitialized then none
  else do
    let s ← (← (q.scale.getD [])[i]?)
    let c ← quantizeScalar s (q.offsetAt i) q.bits x
    return dequantizeScalar s (q.offsetAt i) c

/-- What is done to a quantizer over its life. -/
inductive Op
  | set (mins maxs : List ℚ)
  | reset

/-- One operation; `false`: it raises. -/
def Quantizer.step (eps : ℚ) (q : Quantizer) : Op → Bool × Quantizer
  | .set a b => q.setRange eps a b
  | .reset => (true, q.reset)

/-- A life: the outcome of each operation, the latest first, and the state. -/
def life (eps : ℚ) (q : Quantizer) : List Op → List (Op × Bool) × Quantizer
  | [] => ([], q)
  | op :: ops =>
    let (es, q) := life eps q ops
    let (ok, q) := q.step eps op
    ((op, ok) :: es, q)

/-! ## Specification -/

/-- The range that holds after some operations with their outcomes, the latest first: the last one set with success since the last
reset. -/
def lastRange : List (Op × Bool) → Option (List ℚ × List ℚ)
  | [] => none
  | (.reset, _) :: _ => none
  | (.set a b, true) :: _ => some (a, b)
  | (.set _ _, false) :: es => lastRange es

/-- No attempt to set a range failed while there was none. -/
def Clean : List (Op × Bool) → Prop
  | [] => True
  | (.set _ _, false) :: es => lastRange es ≠ none ∧ Clean es
  | _ :: es => Clean es

/-- A bound for the `i`-th tile: a single number is for all tiles. -/
def boundAt : List ℚ → ℕ → Option ℚ
  | [x], _ => some x
  | l, i => l[i]?

/-! ## Lemmas -/

/-- The entry for the `i`-th tile, of a vector that may stand for all tiles. -/
def at1 {α : Type} (l : List α) (i : ℕ) : Option α := if l.length = 1 then l[0]? else l[i]?

theorem copyInto_length {α : Type} {n : ℕ} {l l' : List α} (h : copyInto n l = some l') : l'.length = n := by
  unfold copyInto at h
  split at h
  · cases h; assumption
  · split at h
    · cases h; simp
    · cases h

theorem copyInto_get {α : Type} {n : ℕ} {l l' : List α} (h : copyInto n l = some l') {i : ℕ} (hi : i < n) : l'[i]? = at1 l i := by
  unfold copyInto at h
  split at h
  · cases h
    rename_i hl
    unfold at1
    split
    · rename_i h1
      have : i = 0 := by omega
      rw [this]
    · rfl
  · split at h
    · cases h
      simp [at1, hi]
    · cases h

theorem copyInto_self {α : Type} {n : ℕ} {l : List α} (h : l.length = n) : copyInto n l = some l := by
  unfold copyInto; rw [if_pos h]

theorem copyInto_isSome {α β : Type} {n : ℕ} {l : List α} {m : List β} (h : l.length = m.length) :
    (copyInto n l).isSome = (copyInto n m).isSome := by
  unfold copyInto
  rw [h]
  split
  · rfl
  · match l, m, h with
    | [], [], _ => rfl
    | [_], [_], _ => rfl
    | _ :: _ :: _, _ :: _ :: _, _ => rfl

theorem at1_map {α β : Type} {l : List α} {m : List β} (h : l.length = m.length) {i : ℕ} :
    at1 l i = l[if l.length = 1 then 0 else i]? ∧ at1 m i = m[if l.length = 1 then 0 else i]? := by
  unfold at1
  rw [← h]
  split <;> simp

theorem broadcast_bounds {a b : List ℚ} {rs : List (ℚ × ℚ)} (h : broadcast a b = some rs) {i : ℕ} {r : ℚ × ℚ}
    (hr : at1 rs i = some r) : boundAt a i = some r.1 ∧ boundAt b i = some r.2 := by
  unfold broadcast at h
  split at h
  · rename_i hl
    cases h
    have hz : (a.zip b).length = a.length := by simp [hl]
    unfold at1 at hr
    rw [hz] at hr
    match a, b, hl with
    | [x], [y], _ => simp at hr; cases hr; simp [boundAt]
    | [], [], _ => simp at hr
    | x :: x' :: a, y :: y' :: b, _ =>
      simp only [List.length_cons] at hr
      rw [if_neg (by omega), List.getElem?_zip_eq_some] at hr
      exact hr
  · rename_i hl
    split at h
    · rename_i x
      cases h
      have hb : b.length ≠ 1 := fun h => hl (by simp [h])
      unfold at1 at hr
      rw [List.length_map, if_neg hb, List.getElem?_map] at hr
      cases hbi : b[i]? with
      | none => rw [hbi] at hr; cases hr
      | some y =>
        rw [hbi] at hr; cases hr
        refine ⟨rfl, ?_⟩
        match b, hb with
        | [], _ => simp at hbi
        | _ :: _ :: _, _ => simpa [boundAt] using hbi
    · rename_i y _
      cases h
      have ha : a.length ≠ 1 := fun h => hl (by simp [h])
      unfold at1 at hr
      rw [List.length_map, if_neg ha, List.getElem?_map] at hr
      cases hai : a[i]? with
      | none => rw [hai] at hr; cases hr
      | some x =>
        rw [hai] at hr; cases hr
        refine ⟨?_, rfl⟩
        match a, ha with
        | [], _ => simp at hai
        | _ :: _ :: _, _ => simpa [boundAt] using hai
    · cases h

theorem params_lengths {eps : ℚ} {n : ℕ} {sym one : Bool} {rs : List (ℚ × ℚ)} {s o}
    (h : parametersForRange eps n sym one rs = .ok (s, o)) :
    s.length = rs.length ∧ (∀ l, o = some l → l.length = rs.length) ∧ rs ≠ [] ∧ (o = none → sym = true) := by
  unfold parametersForRange at h
  cases rs with
  | nil => simp [listMin, bind, Except.bind] at h
  | cons r rs =>
    simp only [List.map_cons, listMin, bind, Except.bind, pure, Except.pure] at h
    generalize (decide (0 ≤ List.foldl min r.1 (rs.map Prod.fst)) && one) = t at h
    cases sym <;> cases t <;> simp at h <;> obtain ⟨rfl, rfl⟩ := h <;> simp

theorem params_two_sided {eps : ℚ} {n : ℕ} {rs : List (ℚ × ℚ)} {s o}
    (h : parametersForRange eps n true false rs = .ok (s, o)) (l) : o ≠ some l := by
  unfold parametersForRange at h
  cases rs with
  | nil => simp [listMin, bind, Except.bind] at h
  | cons r rs =>
    simp [listMin, bind, Except.bind, pure, Except.pure] at h
    rw [← h.2]
    simp

/-- What the parameters computed for some ranges cover. -/
theorem params_cover {eps : ℚ} (he : 0 < eps) {n : ℕ} (hn : 2 ≤ n) {sym one : Bool} {rs : List (ℚ × ℚ)} {s o}
    (h : parametersForRange eps n sym one rs = .ok (s, o)) {i : ℕ} {r : ℚ × ℚ} (hr : rs[i]? = some r) :
    ∃ x, s[i]? = some (some x) ∧ 0 ≤ x ∧ (quantizationRange x (o.bind (·[i]?)) n).1 ≤ r.1 ∧
      r.2 ≤ (quantizationRange x (o.bind (·[i]?)) n).2 ∧
      (sym = false → eps ≤ (r.2 - r.1) / (2 ^ n - 1) → quantizationRange x (o.bind (·[i]?)) n = r) := by
  obtain ⟨-, -, hne, -⟩ := params_lengths h
  cases sym with
  | false =>
    unfold parametersForRange at h
    cases rs with
    | nil => exact absurd rfl hne
    | cons r0 rs =>
      simp only [List.map_cons, listMin, bind, Except.bind, pure, Except.pure, Bool.false_and, Bool.false_eq_true, if_false] at h
      cases h
      have hc := asym_range_covers eps he n (by omega) r.1 r.2
      refine ⟨asymScale eps n r, ?_, (asymScale_pos he n r).le, ?_⟩
      · rw [← List.map_cons (f := fun r => some (asymScale eps n r)), List.getElem?_map, hr]; rfl
      · rw [Option.bind_some, ← List.map_cons (f := asymOffset eps n), List.getElem?_map, hr]
        exact ⟨hc.1.le, hc.2, fun _ hw => asym_range_roundtrip eps he n (by omega) r.1 r.2 hw⟩
  | true =>
    by_cases h2 : one = false ∨ ∃ r ∈ rs, r.1 < 0
    · obtain ⟨ss, hp, hl, hs⟩ := sym_range_covers_partial eps n hn one rs h2 hne
      rw [hp] at h
      cases h
      have hi : i < ss.length := by rw [hl]; exact (List.getElem?_eq_some_iff.1 hr).1
      obtain ⟨h₁, h₂, h₃, -⟩ := hs i ss[i] r.1 r.2 (by simp [hi]) hr
      exact ⟨ss[i], by simp [hi], h₃, h₁, h₂, by simp⟩
    · have h2' : one = true ∧ ∀ r ∈ rs, 0 ≤ r.1 := by
        refine ⟨by cases one <;> simp_all, fun r hr => ?_⟩
        by_contra hc
        exact h2 (.inr ⟨r, hr, by linarith⟩)
      obtain ⟨rfl, hpos⟩ := h2'
      obtain ⟨ss, hp, hl, hs⟩ := sym_one_sided_covers eps he n (by omega) rs hpos hne
      rw [hp] at h
      cases h
      have hi : i < ss.length := by rw [hl]; exact (List.getElem?_eq_some_iff.1 hr).1
      obtain ⟨h₁, h₂, h₃⟩ := hs i ss[i] r.1 r.2 (by simp [hi]) hr
      refine ⟨ss[i], by simp [hi], h₁.le, ?_, ?_, by simp⟩
      · simp only [Option.bind_some, List.getElem?_map, List.getElem?_eq_getElem hi, Option.map_some, h₂]
        exact hpos r (List.mem_of_getElem? hr)
      · simpa [hi] using h₃

/-- The values in the offset slot. -/
def Slot.vals : Slot → Option (List ℚ)
  | .absent => none
  | .buffer v => v
  | .param v => v

/-- The slot with other values. -/
def Slot.withVals (v : Option (List ℚ)) : Slot → Slot
  | .absent => .absent
  | .buffer _ => .buffer v
  | .param _ => .param v

/-- The offsets after copying. -/
def filled (n : ℕ) : Option (List ℚ) → Option (List ℚ)
  | none => some (List.replicate n 0)
  | some o => copyInto n o

/-- What a quantizer is like at any time. -/
structure Inv (eps : ℚ) (q₀ q : Quantizer) (es : List (Op × Bool)) : Prop where
  bits : q.bits = q₀.bits
  one : q.allowOneSided = q₀.allowOneSided
  slot : q.offset = q₀.offset.withVals q.offset.vals
  none : lastRange es = none → q.scale = none ∧ (q.offset ≠ .absent → q.offset.vals = none)
  some : ∀ a b, lastRange es = some (a, b) → ∃ rs s o n sc, broadcast a b = some rs ∧
    parametersForRange eps q.bits q.symmetric q.allowOneSided rs = .ok (s, o) ∧ copyInto n s = some sc ∧ 0 < n ∧
    q.scale = some sc ∧ (q.offset ≠ .absent → ∃ os, q.offset.vals = some os ∧ filled n o = some os)

/-- The quantizer has `n` values everywhere. -/
def Sized (q : Quantizer) (n : ℕ) : Prop :=
  (∃ sc, q.scale = some sc ∧ sc.length = n) ∧ (q.offset ≠ .absent → ∃ os, q.offset.vals = some os ∧ os.length = n)

theorem Sized.initialized {q n} (h : Sized q n) : q.uninitialized = false := by
  obtain ⟨⟨sc, hs, -⟩, ho⟩ := h
  unfold Quantizer.uninitialized
  rw [hs]
  cases hq : q.offset with
  | absent => rfl
  | buffer v => rfl
  | param v =>
    obtain ⟨os, hos, -⟩ := ho (by rw [hq]; simp)
    rw [hq] at hos
    simp [Slot.vals] at hos
    simp [hos]

/-- Setting the range of an initialized quantizer: either nothing is changed, or all is as computed. -/
theorem setRange_sized (eps : ℚ) {q : Quantizer} {n : ℕ} (h : Sized q n) (a b : List ℚ) :
    q.setRange eps a b = (false, q) ∨
    ∃ rs s o sc, broadcast a b = some rs ∧ parametersForRange eps q.bits q.symmetric q.allowOneSided rs = .ok (s, o) ∧
      copyInto n s = some sc ∧ (filled n o).isSome ∧
      q.setRange eps a b = (true, { q with scale := some sc, offset := q.offset.withVals (filled n o) }) := by
  have hu := h.initialized
  obtain ⟨⟨sc₀, hs, hsl⟩, ho⟩ := h
  unfold Quantizer.setRange
  rw [hu]
  simp only [Bool.false_eq_true, if_false]
  cases hb : broadcast a b with
  | none => exact .inl rfl
  | some rs =>
    cases hp : parametersForRange eps q.bits q.symmetric q.allowOneSided rs with
    | error => exact .inl (by simp only [hp])
    | ok so =>
      obtain ⟨s, o⟩ := so
      simp only [hp, hs, Option.getD_some, hsl]
      obtain ⟨hl, hol, -, -⟩ := params_lengths hp
      cases hc : copyInto n s with
      | none => exact .inl rfl
      | some sc =>
        have hf : ∀ o', o = some o' → (copyInto n o').isSome := fun o' h => by
          rw [copyInto_isSome ((hol o' h).trans hl.symm), hc]; rfl
        have hf' : (filled n o).isSome := by
          cases o with
          | none => rfl
          | some o => exact hf o rfl
        refine .inr ⟨rs, s, o, sc, rfl, hp, hc, hf', ?_⟩
        cases hq : q.offset with
        | absent => simp [Slot.withVals]
        | buffer v =>
          obtain ⟨os, hos, hosl⟩ := ho (by rw [hq]; simp)
          rw [hq] at hos
          simp only [Slot.vals] at hos
          subst hos
          cases o with
          | none => simp [Slot.withVals, filled, List.map_const', hosl]
          | some o =>
            obtain ⟨o', ho'⟩ := Option.isSome_iff_exists.1 (hf o rfl)
            simp [Slot.withVals, filled, hosl, ho']
        | param v =>
          obtain ⟨os, hos, hosl⟩ := ho (by rw [hq]; simp)
          rw [hq] at hos
          simp only [Slot.vals] at hos
          subst hos
          cases o with
          | none => simp [Slot.withVals, filled, List.map_const', hosl]
          | some o =>
            obtain ⟨o', ho'⟩ := Option.isSome_iff_exists.1 (hf o rfl)
            simp [Slot.withVals, filled, hosl, ho']

theorem filled_length {n : ℕ} {o l} (h : filled n o = some l) : l.length = n := by
  cases o with
  | none => simp [filled] at h; rw [← h]; simp
  | some o => exact copyInto_length h

theorem initialize_sized {q : Quantizer} (hu : q.uninitialized = true) (k : ℕ) : Sized (q.initialize k) k := by
  unfold Quantizer.initialize
  rw [if_pos hu]
  refine ⟨⟨_, rfl, by simp⟩, ?_⟩
  cases q.offset <;> simp [Slot.vals]

theorem setRange_uninit (eps : ℚ) {q : Quantizer} (hu : q.uninitialized = true) (a b : List ℚ) :
    q.setRange eps a b = (q.initialize a.length).setRange eps a b := by
  have := (initialize_sized hu a.length).initialized
  conv_lhs => unfold Quantizer.setRange
  conv_rhs => unfold Quantizer.setRange
  rw [if_pos hu, this]
  rfl

theorem initialize_const (q : Quantizer) (k : ℕ) :
    (q.initialize k).bits = q.bits ∧ (q.initialize k).allowOneSided = q.allowOneSided ∧
    (q.initialize k).symmetric = q.symmetric ∧ (q.initialize k).offset = q.offset.withVals (q.initialize k).offset.vals := by
  unfold Quantizer.initialize Quantizer.symmetric
  split
  · cases q.offset <;> simp [Slot.withVals, Slot.vals]
  · cases q.offset <;> simp [Slot.withVals, Slot.vals]

theorem Slot.withVals_withVals (s : Slot) (v w) : (s.withVals v).withVals w = s.withVals w := by
  cases s <;> rfl

theorem Slot.vals_withVals (s : Slot) (v) (h : s ≠ .absent) : (s.withVals v).vals = v := by
  cases s <;> simp_all [Slot.withVals, Slot.vals]

theorem Slot.withVals_absent (s : Slot) (v) : s.withVals v = .absent ↔ s = .absent := by
  cases s <;> simp [Slot.withVals]

theorem symmetric_withVals (q : Quantizer) (sc v) :
    Quantizer.symmetric { q with scale := sc, offset := q.offset.withVals v } = q.symmetric := by
  unfold Quantizer.symmetric
  cases q.offset <;> rfl

theorem reset_eq (q : Quantizer) : q.reset = { q with scale := none, offset := q.offset.withVals none } := by
  unfold Quantizer.reset
  cases q.offset <;> rfl

theorem Slot.withVals_self (s : Slot) : s = s.withVals s.vals := by
  cases s <;> rfl

/-- The part of the invariant about parameters. -/
theorem Inv.sized {eps q₀ q es} (h : Inv eps q₀ q es) {r : List ℚ × List ℚ} (hl : lastRange es = Option.some r) : ∃ n, 0 < n ∧ Sized q n := by
  obtain ⟨rs, s, o, n, sc, -, -, hc, hn, hs, ho⟩ := h.some r.1 r.2 hl
  refine ⟨n, hn, ⟨sc, hs, copyInto_length hc⟩, fun ha => ?_⟩
  obtain ⟨os, h₁, h₂⟩ := ho ha
  exact ⟨os, h₁, filled_length h₂⟩

theorem Inv.uninit {eps q₀ q es} (h : Inv eps q₀ q es) (hl : lastRange es = Option.none) : q.uninitialized = true := by
  unfold Quantizer.uninitialized
  rw [(h.none hl).1]
  rfl

theorem inv_set {eps q₀ q es} {a b : List ℚ} (h : Inv eps q₀ q es) {q₁ : Quantizer} {n : ℕ} (hn : 0 < n ∨ a = [])
    (hq : Sized q₁ n) (hb : q₁.bits = q.bits) (h1 : q₁.allowOneSided = q.allowOneSided)
    (hs : q₁.offset = q.offset.withVals q₁.offset.vals) {q'} (he : q₁.setRange eps a b = (true, q')) :
    Inv eps q₀ q' ((Op.set a b, true) :: es) := by
  rcases setRange_sized eps hq a b with h' | ⟨rs, s, o, sc, hbr, hp, hc, hf, h'⟩
  · rw [h'] at he; cases he
  · rw [h'] at he
    cases he
    refine ⟨hb.trans h.bits, h1.trans h.one, ?_, fun hl => by simp [lastRange] at hl, fun a' b' hl => ?_⟩
    · simp only
      rw [hs, Slot.withVals_withVals, h.slot, Slot.withVals_withVals]
      by_cases ha : q₀.offset = .absent
      · rw [ha]; rfl
      · rw [Slot.vals_withVals _ _ ha]
    · simp only [lastRange, Option.some.injEq, Prod.mk.injEq] at hl
      obtain ⟨rfl, rfl⟩ := hl
      have hn' : 0 < n := by
        rcases hn with hn | rfl
        · exact hn
        · obtain ⟨-, -, hne, -⟩ := params_lengths hp
          exfalso
          unfold broadcast at hbr
          split at hbr
          · cases hbr; simp at hne
          · split at hbr
            · simp_all
            · cases hbr; simp at hne
            · cases hbr
      refine ⟨rs, s, o, n, sc, hbr, ?_, hc, hn', rfl, fun ha => ?_⟩
      · rw [symmetric_withVals]; exact hp
      · obtain ⟨os, hos⟩ := Option.isSome_iff_exists.1 hf
        refine ⟨os, ?_, hos⟩
        rw [Ne, Slot.withVals_absent] at ha
        rw [Slot.vals_withVals _ _ ha, hos]

theorem inv_life (eps : ℚ) (q₀ : Quantizer) (h₀ : q₀.scale = none) (h₀' : q₀.offset.vals = none) (ops : List Op)
    (hc : Clean (life eps q₀ ops).1) : Inv eps q₀ (life eps q₀ ops).2 (life eps q₀ ops).1 := by
  induction ops with
  | nil =>
    refine ⟨rfl, rfl, Slot.withVals_self _, fun _ => ⟨h₀, fun _ => h₀'⟩, fun a b h => by simp [life, lastRange] at h⟩
  | cons op ops ih =>
    unfold life at hc ⊢
    generalize hl : life eps q₀ ops = r at hc ih ⊢
    obtain ⟨es, q⟩ := r
    simp only at hc ih ⊢
    generalize hst : q.step eps op = r at hc ⊢
    obtain ⟨ok, q'⟩ := r
    simp only at hc ⊢
    cases op with
    | reset =>
      cases hst
      have ih := ih (by simpa [Clean] using hc)
      rw [reset_eq]
      refine ⟨ih.bits, ih.one, ?_, fun _ => ⟨rfl, fun ha => ?_⟩, fun a b h => by simp [lastRange] at h⟩
      · simp only
        rw [ih.slot, Slot.withVals_withVals]
        by_cases ha : q₀.offset = .absent
        · rw [ha]; rfl
        · rw [Slot.vals_withVals _ _ ha]
      · rw [Ne, Slot.withVals_absent] at ha
        exact Slot.vals_withVals _ _ ha
    | set a b =>
      change q.setRange eps a b = _ at hst
      cases ok with
      | true =>
        have ih := ih (by simpa [Clean] using hc)
        cases hlr : lastRange es with
        | none =>
          have hu := ih.uninit hlr
          obtain ⟨c₁, c₂, -, c₄⟩ := initialize_const q a.length
          rw [setRange_uninit eps hu] at hst
          refine inv_set ih ?_ (initialize_sized hu a.length) c₁ c₂ c₄ hst
          cases a <;> simp
        | some r =>
          obtain ⟨n, hn, hz⟩ := ih.sized hlr
          exact inv_set ih (.inl hn) hz rfl rfl (Slot.withVals_self _) hst
      | false =>
        simp only [Clean] at hc
        have ih := ih hc.2
        obtain ⟨r, hlr⟩ := Option.ne_none_iff_exists'.1 hc.1
        obtain ⟨n, hn, hz⟩ := ih.sized hlr
        rcases setRange_sized eps hz a b with h' | ⟨rs, s, o, sc, -, -, -, -, h'⟩
        · rw [h'] at hst
          cases hst
          exact ⟨ih.bits, ih.one, ih.slot, fun hl => ih.none hl, fun a b hl => ih.some a b hl⟩
        · rw [h'] at hst; cases hst

theorem range_sized {q : Quantizer} {n : ℕ} (h : Sized q n) {sc} (hs : q.scale = some sc) :
    q.range = some (sc.mapIdx fun i x => x.map fun x => quantizationRange x (q.offsetAt i) q.bits) := by
  unfold Quantizer.range
  rw [h.initialized, hs]
  rfl

theorem offsetAt_eq (q : Quantizer) (i : ℕ) : q.offsetAt i = if q.offset = .absent then none else (q.offset.vals.getD [])[i]? := by
  unfold Quantizer.offsetAt
  cases q.offset <;> simp [Slot.vals]

theorem quantizationRange_zero (x : ℚ) (n : ℕ) : quantizationRange x (some 0) n = quantizationRange x none n := rfl

/-- What an initialized quantizer looks like at one of its tiles. -/
theorem Inv.tile {eps q₀ q es} (he : 0 < eps) (hn : 2 ≤ q₀.bits) (hab : q₀.offset = .absent → q₀.allowOneSided = false) (h : Inv eps q₀ q es) {a b : List ℚ}
    (hl : lastRange es = Option.some (a, b)) :
    ∃ n sc, 0 < n ∧ Sized q n ∧ q.scale = Option.some sc ∧ sc.length = n ∧ ∀ i, i < n → ∃ mn mx x, boundAt a i = Option.some mn ∧
      boundAt b i = Option.some mx ∧ sc[i]? = Option.some (Option.some x) ∧ 0 ≤ x ∧
      (quantizationRange x (q.offsetAt i) q.bits).1 ≤ mn ∧ mx ≤ (quantizationRange x (q.offsetAt i) q.bits).2 ∧
      (q.symmetric = false → eps ≤ (mx - mn) / (2 ^ q.bits - 1) → quantizationRange x (q.offsetAt i) q.bits = (mn, mx)) := by
  obtain ⟨rs, s, o, n, sc, hbr, hp, hc, hpos, hs, ho⟩ := h.some a b hl
  have hlen := copyInto_length hc
  have hz : Sized q n := ⟨⟨sc, hs, hlen⟩, fun ha => by
    obtain ⟨os, h₁, h₂⟩ := ho ha
    exact ⟨os, h₁, filled_length h₂⟩⟩
  refine ⟨n, sc, hpos, hz, hs, hlen, fun i hi => ?_⟩
  obtain ⟨hsl, hol, hne, hasym⟩ := params_lengths hp
  have hsc := copyInto_get hc hi
  have hi' : i < sc.length := by omega
  rw [List.getElem?_eq_getElem hi'] at hsc
  obtain ⟨e₁, e₂⟩ := at1_map (i := i) hsl
  generalize hj : (if s.length = 1 then 0 else i) = j at e₁ e₂
  have hjl : j < rs.length := by
    rw [← hsl]
    by_contra hc'
    rw [e₁, List.getElem?_eq_none (by omega)] at hsc
    cases hsc
  have hr : rs[j]? = Option.some rs[j] := List.getElem?_eq_getElem hjl
  obtain ⟨hb₁, hb₂⟩ := broadcast_bounds hbr (e₂.trans hr)
  obtain ⟨x, hx, hx0, hlo, hhi, heq⟩ := params_cover he (by rw [h.bits]; exact hn) hp hr
  have hoff : quantizationRange x (q.offsetAt i) q.bits = quantizationRange x (o.bind (·[j]?)) q.bits := by
    rw [offsetAt_eq]
    by_cases ha : q.offset = .absent
    · rw [if_pos ha]
      cases o with
      | none => rfl
      | some o' =>
        exfalso
        have hsym : q.symmetric = true := by unfold Quantizer.symmetric; rw [ha]
        have hone : q.allowOneSided = false := by
          rw [h.one]
          refine hab ?_
          have := h.slot
          rw [ha] at this
          exact (Slot.withVals_absent _ _).1 this.symm
        rw [hsym, hone] at hp
        exact params_two_sided hp o' rfl
    · rw [if_neg ha]
      obtain ⟨os, hos, hfl⟩ := ho ha
      rw [hos, Option.getD_some]
      cases o with
      | none =>
        simp only [filled, Option.some.injEq] at hfl
        rw [← hfl]
        simp [hi, quantizationRange_zero]
      | some o' =>
        rw [copyInto_get (show copyInto n o' = Option.some os from hfl) hi, Option.bind_some]
        obtain ⟨e₃, -⟩ := at1_map (i := i) ((hol o' rfl).trans hsl.symm)
        rw [e₃, hol o' rfl, ← hsl, hj]
  refine ⟨_, _, x, hb₁, hb₂, ?_, hx0, ?_, ?_, ?_⟩
  · rw [List.getElem?_eq_getElem hi', hsc, e₁, hx]
  · rw [hoff]; exact hlo
  · rw [hoff]; exact hhi
  · rw [hoff]; exact heq

theorem new_facts (bits : ℕ) (sym one : Bool) : (new bits sym one).scale = none ∧ (new bits sym one).offset.vals = none ∧
    ((new bits sym one).offset = .absent → (new bits sym one).allowOneSided = false) ∧ (new bits sym one).symmetric = sym := by
  unfold new Quantizer.symmetric
  cases sym <;> cases one <;> simp [Slot.vals]

theorem Inv.symmetric {eps q₀ q es} (h : Inv eps q₀ q es) : q.symmetric = q₀.symmetric := by
  unfold Quantizer.symmetric
  rw [h.slot]
  cases q₀.offset <;> rfl

/-! ## Properties -/

/-- **C94 (partial).** For every quantizer, with at least two bits, and every sequence of setting ranges and resets, with any outcomes: if
no range has been set since the last reset, the quantizer has no range, and does not quantize. Otherwise it has a range for every
tile, that covers the range set last with success for that tile; that is the same, if the quantizer is asymmetric and the range wide
enough. Missing: lives in which the first attempt to set a range failed, see `failed_first_set`. -/
theorem range_after_history_partial (eps : ℚ) (he : 0 < eps) (bits : ℕ) (hb : 2 ≤ bits) (sym one : Bool) (ops : List Op)
    (hc : Clean (life eps (new bits sym one) ops).1) :
    match lastRange (life eps (new bits sym one) ops).1 with
    | none => (life eps (new bits sym one) ops).2.range = none ∧
        ∀ i x, (life eps (new bits sym one) ops).2.quantDequant i x = none
    | some (mins, maxs) => ∃ rs, (life eps (new bits sym one) ops).2.range = some rs ∧ rs ≠ [] ∧
        ∀ (i : ℕ) r, rs[i]? = some r → ∃ lo hi mn mx, r = some (lo, hi) ∧ boundAt mins i = some mn ∧ boundAt maxs i = some mx ∧
          lo ≤ mn ∧ mx ≤ hi ∧ (sym = false → eps ≤ (mx - mn) / (2 ^ bits - 1) → (lo, hi) = (mn, mx)) := by
  obtain ⟨n₁, n₂, n₃, n₄⟩ := new_facts bits sym one
  have hI := inv_life eps (new bits sym one) n₁ n₂ ops hc
  generalize life eps (new bits sym one) ops = r at hI hc
  obtain ⟨es, q⟩ := r
  simp only at hI hc ⊢
  cases hl : lastRange es with
  | none =>
    have hu := hI.uninit hl
    simp [Quantizer.range, Quantizer.quantDequant, hu]
  | some r =>
    obtain ⟨a, b⟩ := r
    obtain ⟨n, sc, hpos, hz, hs, hlen, ht⟩ := hI.tile he hb n₃ hl
    refine ⟨_, range_sized hz hs, ?_, ?_⟩
    · intro h
      have := congrArg List.length h
      rw [List.length_mapIdx, hlen] at this
      exact hpos.ne' this
    · intro i r hr
      rw [List.getElem?_mapIdx] at hr
      have hi : i < n := by
        by_contra hc'
        rw [List.getElem?_eq_none (by omega)] at hr
        cases hr
      obtain ⟨mn, mx, x, h₁, h₂, h₃, -, h₅, h₆, h₇⟩ := ht i hi
      rw [h₃] at hr
      cases hr
      refine ⟨_, _, mn, mx, rfl, h₁, h₂, h₅, h₆, fun hs hw => ?_⟩
      have hbits : q.bits = bits := hI.bits
      rw [hbits] at h₇ ⊢
      exact h₇ (by rw [hI.symmetric, n₄, hs]) hw

/-- **C94 (partial).** After any such life, every number within the range set last is reconstructed up to half a step, where there are
`2 ^ bits - 1` steps in the range that is reported for its tile, if that is not a single point. -/
theorem half_step_after_history_partial (eps : ℚ) (he : 0 < eps) (bits : ℕ) (hb : 2 ≤ bits) (sym one : Bool) (ops : List Op)
    (hc : Clean (life eps (new bits sym one) ops).1) (mins maxs : List ℚ)
    (hl : lastRange (life eps (new bits sym one) ops).1 = some (mins, maxs))
    (rs : List (Option (ℚ × ℚ))) (hr : (life eps (new bits sym one) ops).2.range = some rs) (i : ℕ) (lo hi mn mx x : ℚ)
    (hi' : rs[i]? = some (some (lo, hi))) (hne : lo ≠ hi) (hmn : boundAt mins i = some mn) (hmx : boundAt maxs i = some mx)
    (h₁ : mn ≤ x) (h₂ : x ≤ mx) :
    ∃ y, (life eps (new bits sym one) ops).2.quantDequant i x = some y ∧ |y - x| ≤ (hi - lo) / (2 ^ bits - 1) / 2 := by
  obtain ⟨n₁, n₂, n₃, n₄⟩ := new_facts bits sym one
  have hI := inv_life eps (new bits sym one) n₁ n₂ ops hc
  generalize life eps (new bits sym one) ops = r at hI hc hl hr
  obtain ⟨es, q⟩ := r
  simp only at hI hc hl hr ⊢
  obtain ⟨n, sc, hpos, hz, hs, hlen, ht⟩ := hI.tile he hb n₃ hl
  rw [range_sized hz hs] at hr
  cases hr
  rw [List.getElem?_mapIdx] at hi'
  have hi : i < n := by
    by_contra hc'
    rw [List.getElem?_eq_none (by omega)] at hi'
    cases hi'
  obtain ⟨mn', mx', s, g₁, g₂, g₃, g₄, g₅, g₆, -⟩ := ht i hi
  rw [hmn] at g₁
  rw [hmx] at g₂
  cases g₁
  cases g₂
  rw [g₃] at hi'
  simp only [Option.map_some, Option.some.injEq] at hi'
  have hbits : q.bits = bits := hI.bits
  rw [hbits] at g₅ g₆ hi'
  have hs0 : 0 < s := by
    rcases g₄.lt_or_eq with h | h
    · exact h
    · exfalso
      subst h
      apply hne
      unfold quantizationRange at hi'
      simp at hi'
      exact hi'.1.symm.trans hi'.2
  obtain ⟨c, hc', herr⟩ := qdq_error_le_half_step s hs0 (q.offsetAt i) bits x (g₅.trans h₁) (h₂.trans g₆)
  refine ⟨dequantizeScalar s (q.offsetAt i) c, ?_, ?_⟩
  · unfold Quantizer.quantDequant
    rw [hz.initialized, hs]
    simp [g₃, hbits, hc']
  · have hw : (quantizationRange s (q.offsetAt i) bits).2 - (quantizationRange s (q.offsetAt i) bits).1 = (2 ^ bits - 1) * s := by
      have hI : (intMax bits : ℚ) - intMin bits = 2 ^ bits - 1 := by exact_mod_cast intMax_sub_intMin bits (by omega)
      unfold quantizationRange
      simp only
      rw [← sub_mul, ← hI]
      ring
    rw [hi'] at hw
    have hp := two_pow_sub_one_pos (n := bits) (by omega)
    rw [hw, mul_div_cancel_left₀ _ hp.ne']
    exact herr

/-- **C94.** Once a range has been set, an attempt to set another one that fails changes nothing. -/
theorem failed_set_changes_nothing (eps : ℚ) (bits : ℕ) (sym one : Bool) (ops : List Op)
    (hc : Clean (life eps (new bits sym one) ops).1) (hl : lastRange (life eps (new bits sym one) ops).1 ≠ none)
    (mins maxs : List ℚ) (hf : ((life eps (new bits sym one) ops).2.setRange eps mins maxs).1 = false) :
    ((life eps (new bits sym one) ops).2.setRange eps mins maxs).2 = (life eps (new bits sym one) ops).2 := by
  obtain ⟨n₁, n₂, -, -⟩ := new_facts bits sym one
  have hI := inv_life eps (new bits sym one) n₁ n₂ ops hc
  obtain ⟨r, hr⟩ := Option.ne_none_iff_exists'.1 hl
  obtain ⟨n, -, hz⟩ := hI.sized hr
  rcases setRange_sized eps hz mins maxs with h | ⟨_, _, _, _, _, _, _, _, h⟩
  · rw [h]
  · rw [h] at hf; cases hf

/-- **C94.** The first range is accepted if and only if there is at least one minimum, and as many maxima or a single one. -/
theorem first_set_accepted_iff (eps : ℚ) (bits : ℕ) (sym one : Bool) (mins maxs : List ℚ) :
    ((new bits sym one).setRange eps mins maxs).1 = true ↔
      mins ≠ [] ∧ (maxs.length = mins.length ∨ maxs.length = 1) := by
  have hu : (new bits sym one).uninitialized = true := by unfold new Quantizer.uninitialized; rfl
  rw [setRange_uninit eps hu]
  have hz := initialize_sized hu mins.length
  generalize (new bits sym one).initialize mins.length = q at hz
  constructor
  · intro h
    rcases setRange_sized eps hz mins maxs with h' | ⟨rs, s, o, sc, hbr, hp, hc, -, -⟩
    · rw [h'] at h; cases h
    · obtain ⟨hsl, -, hne, -⟩ := params_lengths hp
      unfold broadcast at hbr
      split at hbr
      · rename_i hl
        cases hbr
        refine ⟨fun h => hne (by simp [h]), .inl hl.symm⟩
      · rename_i hl
        split at hbr
        · rename_i x _
          cases hbr
          exfalso
          simp at hl hsl
          unfold copyInto at hc
          rw [if_neg (by simp [hsl]; omega)] at hc
          split at hc
          · simp at hsl; omega
          · cases hc
        · cases hbr
          exact ⟨fun h => hne (by simp [h]), .inr rfl⟩
        · cases hbr
  · rintro ⟨hne, hl⟩
    obtain ⟨rs, hbr, hrl⟩ : ∃ rs, broadcast mins maxs = some rs ∧ rs.length = mins.length := by
      unfold broadcast
      rcases hl with hl | hl
      · rw [if_pos hl.symm]; exact ⟨_, rfl, by simp [hl]⟩
      · match mins, maxs, hl with
        | [x], [y], _ => simp
        | [], [y], _ => exact absurd rfl hne
        | x :: x' :: mins, [y], _ => simp
    have hrne : rs ≠ [] := fun h => hne (by rw [h] at hrl; exact List.length_eq_zero_iff.1 hrl.symm)
    rcases setRange_sized eps hz mins maxs with h' | ⟨rs', s, o, sc, _, _, _, _, h'⟩
    · exfalso
      have hpk : ∃ s o, parametersForRange eps q.bits q.symmetric q.allowOneSided rs = .ok (s, o) := by
        unfold parametersForRange
        cases rs with
        | nil => exact absurd rfl hrne
        | cons r rs =>
          simp only [List.map_cons, listMin, bind, Except.bind, pure, Except.pure]
          split
          · exact ⟨_, _, rfl⟩
          · exact ⟨_, _, rfl⟩
      obtain ⟨s, o, hp⟩ := hpk
      obtain ⟨hsl, hol, -, -⟩ := params_lengths hp
      have hq := h'
      obtain ⟨⟨sc₀, hs, hsc⟩, ho⟩ := id hz
      unfold Quantizer.setRange at hq
      rw [hz.initialized] at hq
      simp only [Bool.false_eq_true, if_false, hbr, hp, hs, Option.getD_some, hsc,
        copyInto_self (hsl.trans hrl)] at hq
      cases hqo : q.offset with
      | absent => rw [hqo] at hq; simp at hq
      | buffer v =>
        obtain ⟨os, hos, hosl⟩ := ho (by rw [hqo]; simp)
        rw [hqo] at hos
        simp only [Slot.vals] at hos
        subst hos
        rw [hqo] at hq
        cases o with
        | none => simp at hq
        | some o => simp [hosl, copyInto_self ((hol o rfl).trans hrl)] at hq
      | param v =>
        obtain ⟨os, hos, hosl⟩ := ho (by rw [hqo]; simp)
        rw [hqo] at hos
        simp only [Slot.vals] at hos
        subst hos
        rw [hqo] at hq
        cases o with
        | none => simp at hq
        | some o => simp [hosl, copyInto_self ((hol o rfl).trans hrl)] at hq
    · rw [h']

/-! ## Deviations -/

/-- **C94, deviation.** A first attempt that fails leaves the quantizer initialized: with the scale 1, whatever the range was
meant to be, it quantizes. -/
theorem failed_first_set (eps : ℚ) (bits : ℕ) (sym one : Bool) (mn : ℚ) (maxs : List ℚ) (h : maxs.length ≠ 1) :
    ((new bits sym one).setRange eps [mn] maxs).1 = false ∧
    ((new bits sym one).setRange eps [mn] maxs).2.range = some [some (-(2 ^ (bits - 1)), 2 ^ (bits - 1) - 1)] := by
  have hu : (new bits sym one).uninitialized = true := by unfold new Quantizer.uninitialized; rfl
  have hf : ((new bits sym one).setRange eps [mn] maxs).1 = false := by
    rw [← Bool.not_eq_true, first_set_accepted_iff]
    simpa using h
  refine ⟨hf, ?_⟩
  rw [setRange_uninit eps hu] at hf ⊢
  rcases setRange_sized eps (initialize_sized hu 1) [mn] maxs with h' | ⟨_, _, _, _, _, _, _, _, h'⟩
  · rw [List.length_singleton, h']
    unfold Quantizer.initialize
    rw [if_pos hu]
    cases sym <;> cases one <;>
      simp [new, Quantizer.range, Quantizer.uninitialized, Quantizer.offsetAt, quantizationRange, intMin, intMax]
  · rw [List.length_singleton, h'] at hf; cases hf

/-- **C94, deviation.** It is also stuck with the number of minima of the failed attempt: ranges for another number of tiles, which a new
quantizer accepts, are refused until it is reset. -/
theorem wrong_size_sticks (eps : ℚ) (bits : ℕ) (sym one : Bool) (mn mn₁ mn₂ mx₁ mx₂ : ℚ) :
    ((new bits sym one).setRange eps [mn] [mx₁, mx₂]).1 = false ∧
    (((new bits sym one).setRange eps [mn] [mx₁, mx₂]).2.setRange eps [mn₁, mn₂] [mx₁, mx₂]).1 = false ∧
    ((new bits sym one).setRange eps [mn₁, mn₂] [mx₁, mx₂]).1 = true := by
  have hu : (new bits sym one).uninitialized = true := by unfold new Quantizer.uninitialized; rfl
  have hf : ((new bits sym one).setRange eps [mn] [mx₁, mx₂]).1 = false := by
    rw [← Bool.not_eq_true, first_set_accepted_iff]; simp
  refine ⟨hf, ?_, by rw [first_set_accepted_iff]; simp⟩
  rw [setRange_uninit eps hu] at hf ⊢
  have hz := initialize_sized hu 1
  rcases setRange_sized eps hz [mn] [mx₁, mx₂] with h' | ⟨_, _, _, _, _, _, _, _, h'⟩
  · rw [List.length_singleton, h']
    rcases setRange_sized eps hz [mn₁, mn₂] [mx₁, mx₂] with h | ⟨rs, s, o, sc, hbr, hp, hc, -, -⟩
    · rw [h]
    · exfalso
      simp [broadcast] at hbr
      obtain ⟨hsl, -, -, -⟩ := params_lengths hp
      rw [← hbr] at hsl
      unfold copyInto at hc
      rw [if_neg (by simp [hsl])] at hc
      split at hc
      · simp at hsl
      · cases hc
  · rw [List.length_singleton, h'] at hf; cases hf

/-! ## Concrete cases -/

/-- A life that meets the hypotheses: two ranges, a failure, a range for all tiles, with a reset before. -/
example :
    let ops := [Op.set [-8] [7], Op.set [0, 0, 0] [1, 1, 1], Op.set [0, 0] [15, 30], Op.reset, Op.set [1] [1]]
    let l := life (1 / 1000) (new 4 true true) ops
    Clean l.1 ∧ lastRange l.1 = some ([-8], [7]) ∧ l.2.range = some [some (-8, 7), some (-8, 7)] := by
  refine ⟨?_, ?_, ?_⟩
  · have h : (life (1 / 1000) (new 4 true true)
        [Op.set [-8] [7], Op.set [0, 0, 0] [1, 1, 1], Op.set [0, 0] [15, 30], Op.reset, Op.set [1] [1]]).1.map (·.2)
        = [true, false, true, true, true] := by decide +kernel
    simp only [life, List.map_cons, List.map_nil, List.cons.injEq] at h
    obtain ⟨h₁, h₂, h₃, h₄, h₅, -⟩ := h
    simp only [life]
    rw [h₁, h₂, h₃, h₄, h₅]
    simp [Clean, lastRange]
  · have h : (life (1 / 1000) (new 4 true true)
        [Op.set [-8] [7], Op.set [0, 0, 0] [1, 1, 1], Op.set [0, 0] [15, 30], Op.reset, Op.set [1] [1]]).1.map (·.2)
        = [true, false, true, true, true] := by decide +kernel
    simp only [life, List.map_cons, List.map_nil, List.cons.injEq] at h
    obtain ⟨h₁, h₂, h₃, h₄, h₅, -⟩ := h
    simp only [life]
    rw [h₁]
    rfl
  · decide +kernel

end FF.LinQ
