/-
Range estimation from the smallest and largest values: range_setting/minmax.py.

Simplifications:
* a batch is given as the rows `tiles_to_rows` makes of it (modelled in `Verif.Tiling`): one row for
  each quantization parameter, none empty;
* numbers of the running estimator are elements of a linear order with infinities added; NaN is not
  modelled.  Numbers of the smoothed estimator are elements of an ordered field and thus finite;
* that the quantizer stores the range as scale and offset is the subject of `Verif.Quant`; here the
  range is what the estimator hands to the quantizer.
-/
import Mathlib.Order.WithBot
import Mathlib.Order.Lattice
import Mathlib.Algebra.Order.Field.Basic
import Mathlib.Tactic.Linarith
import Mathlib.Tactic.Ring
import Mathlib.Tactic.NormNum
import Mathlib.Data.List.Forall2
import Mathlib.Algebra.Order.Ring.Rat

set_option linter.unusedSectionVars false

namespace FF.MinMax

/-! ## Model -/

section running
variable {K : Type} [LinearOrder K]

/-- Numbers with infinities. -/
abbrev Ext (K : Type) := WithBot (WithTop K)

/-- `x.isinf()`. -/
def isInf (x : Ext K) : Bool := decide (x = ⊤ ∨ x = ⊥)

/-- `torch.min(row, -1).values`; the value for the empty row is not used. -/
def rowMin : List (Ext K) → Ext K
  | [] => ⊤
  | x :: xs => xs.foldl min x

/-- `torch.max(row, -1).values`. -/
def rowMax : List (Ext K) → Ext K
  | [] => ⊥
  | x :: xs => xs.foldl max x

/-- The buffers of the estimator; `none` is `None`. -/
structure St (α : Type) where
  min : Option (List α)
  max : Option (List α)

/-- `initialize_parameters`: minmax.py:206-217. -/
def buffers (s : St (Ext K)) (params : Nat) : List (Ext K) × List (Ext K) :=
  (s.min.getD (List.replicate params ⊤), s.max.getD (List.replicate params ⊥))

/-- `RunningMinMaxEstimator.estimate_step`: minmax.py:219-244.  The result is the new state, with
the range for the quantizer; `none` is the `NotImplementedError`. -/
def runningStep (s : St (Ext K)) (rows : List (List (Ext K))) :
    Option (St (Ext K) × (List (Ext K) × List (Ext K))) :=
  let (mn, mx) := buffers s rows.length
  let dataMin := rows.map rowMin
  let dataMax := rows.map rowMax
  if dataMin.any isInf || dataMax.any isInf then none
  else
    let mn' := List.zipWith min mn dataMin
    let mx' := List.zipWith max mx dataMax
    some (⟨some mn', some mx'⟩, (mn', mx'))

/-- The state and the range of the quantizer after a sequence of batches; batches that are refused
leave both as they were (except that buffers may have been created, which makes no difference). -/
def running (s : St (Ext K)) (range : Option (List (Ext K) × List (Ext K))) :
    List (List (List (Ext K))) → St (Ext K) × Option (List (Ext K) × List (Ext K))
  | [] => (s, range)
  | b :: bs => match runningStep s b with
    | none => running s range bs
    | some (s', r) => running s' (some r) bs

end running

section smoothed
variable {K : Type} [Field K] [LinearOrder K] [IsStrictOrderedRing K]

/-- Smallest and largest number of a row. -/
def lo : List K → K
  | [] => 0
  | x :: xs => xs.foldl min x

/-- Smallest and largest number of a row. -/
def hi : List K → K
  | [] => 0
  | x :: xs => xs.foldl max x

/-- `SmoothedMinMaxEstimator.estimate_step`: minmax.py:66-93.  A buffer that is `None` is filled with
infinities, which makes the estimator take over the extremes of the batch. -/
def smoothedStep (gamma : K) (s : St K) (rows : List (List K)) : St K :=
  match s.min, s.max with
  | some mn, some mx =>
    ⟨some (List.zipWith (fun d m => gamma * d + (1 - gamma) * m) (rows.map lo) mn),
     some (List.zipWith (fun d m => gamma * d + (1 - gamma) * m) (rows.map hi) mx)⟩
  | _, _ => ⟨some (rows.map lo), some (rows.map hi)⟩

/-- A sequence of batches. -/
def smoothed (gamma : K) (s : St K) (bs : List (List (List K))) : St K :=
  bs.foldl (smoothedStep gamma) s

end smoothed

/-! ## Specification -/

section spec

/-- `x` is one of the values seen for parameter `p`: in a batch, or in the initial range. -/
def Seen {α : Type} (init : Option (List α)) (bs : List (List (List α))) (p : Nat) (x : α) : Prop :=
  (∃ l, init = some l ∧ l[p]? = some x) ∨ ∃ b ∈ bs, ∃ row, b[p]? = some row ∧ x ∈ row

/-- `x` is the least value seen for parameter `p`. -/
def IsMin {α : Type} [LE α] (init : Option (List α)) (bs : List (List (List α))) (p : Nat) (x : α) :
    Prop :=
  Seen init bs p x ∧ ∀ y, Seen init bs p y → x ≤ y

/-- `x` is the greatest value seen for parameter `p`. -/
def IsMax {α : Type} [LE α] (init : Option (List α)) (bs : List (List (List α))) (p : Nat) (x : α) :
    Prop :=
  Seen init bs p x ∧ ∀ y, Seen init bs p y → y ≤ x

/-- All batches have `n` rows, none empty. -/
def Batches {α : Type} (n : Nat) (bs : List (List (List α))) : Prop :=
  ∀ b ∈ bs, b.length = n ∧ ∀ row ∈ b, row ≠ []

/-- The initial range, if there is one, has `n` entries. -/
def Sized {α : Type} (n : Nat) (s : St α) : Prop :=
  (∀ l, s.min = some l → l.length = n) ∧ (∀ l, s.max = some l → l.length = n)

/-- The batches without infinite values; `running_refuses_infinite` proves that these are the ones
that are accepted. -/
def finite {K : Type} [LinearOrder K] (b : List (List (Ext K))) : Bool :=
  b.all (fun row => row.all (fun x => decide (x ≠ ⊤) && decide (x ≠ ⊥)))

/-- `w₁ x₁ + … + wₖ xₖ` with weights `wᵢ = γ (1-γ)^(k-i)`. -/
def weightedSum {K : Type} [Field K] (gamma : K) : List K → K
  | [] => 0
  | x :: xs => gamma * (1 - gamma) ^ xs.length * x + weightedSum gamma xs

/-- The exponential moving average that starts at `x₀`: `(1-γ)^k x₀ + Σ γ (1-γ)^(k-i) xᵢ`. -/
def movingAverage {K : Type} [Field K] (gamma x0 : K) (xs : List K) : K :=
  (1 - gamma) ^ xs.length * x0 + weightedSum gamma xs

end spec

/-! ## Lemmas -/

section lemmas
variable {α : Type} [LinearOrder α]

theorem foldl_min_spec : ∀ (xs : List α) (x : α), xs.foldl min x ∈ x :: xs ∧
    ∀ y ∈ x :: xs, xs.foldl min x ≤ y
  | [], x => by simp
  | z :: xs, x => by
    obtain ⟨h1, h2⟩ := foldl_min_spec xs (min x z)
    refine ⟨?_, ?_⟩
    · rw [List.foldl_cons]
      rcases List.mem_cons.1 h1 with h | h
      · rw [h]
        rcases min_choice x z with h' | h' <;> rw [h'] <;> simp
      · simp [h]
    · intro y hy
      rw [List.foldl_cons]
      have h3 := h2 (min x z) (by simp)
      rcases List.mem_cons.1 hy with rfl | hy
      · exact h3.trans (min_le_left _ _)
      · rcases List.mem_cons.1 hy with rfl | hy
        · exact h3.trans (min_le_right _ _)
        · exact h2 y (by simp [hy])

theorem foldl_max_spec : ∀ (xs : List α) (x : α), xs.foldl max x ∈ x :: xs ∧
    ∀ y ∈ x :: xs, y ≤ xs.foldl max x
  | [], x => by simp
  | z :: xs, x => by
    obtain ⟨h1, h2⟩ := foldl_max_spec xs (max x z)
    refine ⟨?_, ?_⟩
    · rw [List.foldl_cons]
      rcases List.mem_cons.1 h1 with h | h
      · rw [h]
        rcases max_choice x z with h' | h' <;> rw [h'] <;> simp
      · simp [h]
    · intro y hy
      rw [List.foldl_cons]
      have h3 := h2 (max x z) (by simp)
      rcases List.mem_cons.1 hy with rfl | hy
      · exact (le_max_left _ _).trans h3
      · rcases List.mem_cons.1 hy with rfl | hy
        · exact (le_max_right _ _).trans h3
        · exact h2 y (by simp [hy])

end lemmas

section running_lemmas
variable {K : Type} [LinearOrder K]

theorem rowMin_spec {row : List (Ext K)} (h : row ≠ []) :
    rowMin row ∈ row ∧ ∀ y ∈ row, rowMin row ≤ y := by
  cases row with
  | nil => exact absurd rfl h
  | cons x xs => exact foldl_min_spec xs x

theorem rowMax_spec {row : List (Ext K)} (h : row ≠ []) :
    rowMax row ∈ row ∧ ∀ y ∈ row, y ≤ rowMax row := by
  cases row with
  | nil => exact absurd rfl h
  | cons x xs => exact foldl_max_spec xs x

theorem isInf_false {x : Ext K} : isInf x = false ↔ x ≠ ⊤ ∧ x ≠ ⊥ := by
  unfold isInf
  rw [decide_eq_false_iff_not, not_or]

theorem finite_row {row : List (Ext K)} (h : row ≠ []) :
    (!isInf (rowMin row) && !isInf (rowMax row)) =
      row.all (fun x => decide (x ≠ ⊤) && decide (x ≠ ⊥)) := by
  obtain ⟨h1, h2⟩ := rowMin_spec h
  obtain ⟨h3, h4⟩ := rowMax_spec h
  rw [Bool.eq_iff_iff, Bool.and_eq_true, Bool.not_eq_true', Bool.not_eq_true', isInf_false,
    isInf_false, List.all_eq_true]
  simp only [Bool.and_eq_true, decide_eq_true_eq]
  constructor
  · rintro ⟨⟨_, h5⟩, ⟨h6, _⟩⟩ x hx
    refine ⟨?_, ?_⟩
    · rintro rfl
      exact h6 (top_le_iff.1 (h4 _ hx))
    · rintro rfl
      exact h5 (le_bot_iff.1 (h2 _ hx))
  · intro hall
    exact ⟨hall _ h1, hall _ h3⟩

theorem runningStep_eq (s : St (Ext K)) (b : List (List (Ext K))) (hb : ∀ row ∈ b, row ≠ []) :
    runningStep s b = if finite b then
      some (⟨some (List.zipWith min (s.min.getD (List.replicate b.length ⊤)) (b.map rowMin)),
        some (List.zipWith max (s.max.getD (List.replicate b.length ⊥)) (b.map rowMax))⟩,
        (List.zipWith min (s.min.getD (List.replicate b.length ⊤)) (b.map rowMin),
         List.zipWith max (s.max.getD (List.replicate b.length ⊥)) (b.map rowMax))) else none := by
  unfold runningStep buffers
  dsimp only
  have : ((b.map rowMin).any isInf || (b.map rowMax).any isInf) = !finite b := by
    unfold finite
    induction b with
    | nil => rfl
    | cons row b ih =>
      have ih := ih (fun row hr => hb row (by simp [hr]))
      simp only [List.map_cons, List.any_cons, List.all_cons]
      rw [← finite_row (hb row (by simp))]
      cases isInf (rowMin row) <;> cases isInf (rowMax row) <;>
        simp_all
  rw [this]
  cases finite b <;> simp

theorem running_spec (n : Nat) : ∀ (bs : List (List (List (Ext K)))) (s : St (Ext K))
    (r : Option (List (Ext K) × List (Ext K))), Batches n bs → Sized n s →
    (s.min.isSome = true ↔ s.max.isSome = true) →
    (bs.filter finite ≠ [] ∨ s.min.isSome = true) →
    ∃ l u, running s r bs = (⟨some l, some u⟩, if bs.filter finite = [] then r else some (l, u)) ∧
      l.length = n ∧ u.length = n ∧
      (∀ p x, l[p]? = some x → IsMin s.min (bs.filter finite) p x) ∧
      (∀ p x, u[p]? = some x → IsMax s.max (bs.filter finite) p x)
  | [], s, r, _, hs, hss, hne => by
    have h1 : s.min.isSome = true := by simpa using hne
    have h2 := hss.1 h1
    obtain ⟨l, hl⟩ := Option.isSome_iff_exists.1 h1
    obtain ⟨u, hu⟩ := Option.isSome_iff_exists.1 h2
    refine ⟨l, u, ?_, hs.1 l hl, hs.2 u hu, ?_, ?_⟩
    · cases s; simp_all [running]
    · intro p x hx
      refine ⟨.inl ⟨l, hl, hx⟩, ?_⟩
      rintro y (⟨l', hl', hy⟩ | ⟨b, hb, _⟩)
      · rw [hl] at hl'; cases hl'
        rw [hx] at hy; cases hy
        exact le_rfl
      · simp at hb
    · intro p x hx
      refine ⟨.inl ⟨u, hu, hx⟩, ?_⟩
      rintro y (⟨l', hl', hy⟩ | ⟨b, hb, _⟩)
      · rw [hu] at hl'; cases hl'
        rw [hx] at hy; cases hy
        exact le_rfl
      · simp at hb
  | b :: bs, s, r, hb, hs, hss, hne => by
    have hbs : Batches n bs := fun b' hb' => hb b' (by simp [hb'])
    unfold running
    rw [runningStep_eq s b (hb b (by simp)).2]
    by_cases hf : finite b = true
    · rw [if_pos hf]
      dsimp only
      obtain ⟨hlen, hrow⟩ := hb b (by simp)
      have hmn : (List.zipWith min (s.min.getD (List.replicate b.length ⊤)) (b.map rowMin)).length
          = n := by
        rw [List.length_zipWith, List.length_map, hlen]
        cases hm : s.min with
        | none => simp
        | some l => simp [hs.1 l hm]
      have hmx : (List.zipWith max (s.max.getD (List.replicate b.length ⊥)) (b.map rowMax)).length
          = n := by
        rw [List.length_zipWith, List.length_map, hlen]
        cases hm : s.max with
        | none => simp
        | some l => simp [hs.2 l hm]
      obtain ⟨l, u, e, h1, h2, h3, h4⟩ := running_spec n bs
        ⟨some (List.zipWith min (s.min.getD (List.replicate b.length ⊤)) (b.map rowMin)),
          some (List.zipWith max (s.max.getD (List.replicate b.length ⊥)) (b.map rowMax))⟩
        (some (List.zipWith min (s.min.getD (List.replicate b.length ⊤)) (b.map rowMin),
          List.zipWith max (s.max.getD (List.replicate b.length ⊥)) (b.map rowMax)))
        hbs ⟨by intro l h; cases h; exact hmn, by intro l h; cases h; exact hmx⟩ (by simp)
        (.inr rfl)
      have hfil : (b :: bs).filter finite = b :: bs.filter finite := by
        rw [List.filter_cons_of_pos hf]
      rw [hfil]
      refine ⟨l, u, ?_, h1, h2, ?_, ?_⟩
      · rw [e]
        simp only [reduceCtorEq, if_false]
        by_cases hnil : bs.filter finite = []
        · rw [hnil] at h3 h4 ⊢
          simp only [if_true]
          -- nothing happened afterwards
          have hl : l = List.zipWith min (s.min.getD (List.replicate b.length ⊤)) (b.map rowMin) := by
            apply List.ext_getElem? 
            intro p
            cases hp : l[p]? with
            | none =>
              rw [List.getElem?_eq_none_iff] at hp
              symm
              rw [List.getElem?_eq_none_iff]
              omega
            | some x =>
              rcases (h3 p x hp).1 with ⟨l', hl', hx⟩ | ⟨b', hb', _⟩
              · cases hl'; exact hx.symm
              · cases hb'
          have hu : u = List.zipWith max (s.max.getD (List.replicate b.length ⊥)) (b.map rowMax) := by
            apply List.ext_getElem? 
            intro p
            cases hp : u[p]? with
            | none =>
              rw [List.getElem?_eq_none_iff] at hp
              symm
              rw [List.getElem?_eq_none_iff]
              omega
            | some x =>
              rcases (h4 p x hp).1 with ⟨l', hl', hx⟩ | ⟨b', hb', _⟩
              · cases hl'; exact hx.symm
              · cases hb'
          rw [hl, hu]
        · rw [if_neg hnil]
      · -- the least value
        intro p x hx
        obtain ⟨hseen, hle⟩ := h3 p x hx
        have hp : p < n := by
          have := (List.getElem?_eq_some_iff.1 hx).1
          omega
        have hbp : b[p]? = some b[p] := List.getElem?_eq_getElem (by omega)
        obtain ⟨hm1, hm2⟩ := rowMin_spec (hrow b[p] (List.getElem_mem _))
        have hcur : ∃ c, (List.zipWith min (s.min.getD (List.replicate b.length ⊤))
            (b.map rowMin))[p]? = some c ∧ c ≤ rowMin b[p] ∧
            (∀ y l', s.min = some l' → l'[p]? = some y → c ≤ y) ∧
            (c = rowMin b[p] ∨ ∃ l', s.min = some l' ∧ l'[p]? = some c) := by
          rw [List.getElem?_zipWith, List.getElem?_map, hbp]
          cases hm : s.min with
          | none =>
            refine ⟨min ⊤ (rowMin b[p]), ?_, min_le_right _ _, ?_, .inl ?_⟩
            · simp only [Option.getD_none, List.getElem?_replicate, Option.map_some]
              rw [if_pos (by omega)]
            · intro y l' h; cases h
            · exact min_eq_right le_top
          | some l0 =>
            have hl0 := hs.1 l0 hm
            have : l0[p]? = some l0[p] := List.getElem?_eq_getElem (by omega)
            refine ⟨min l0[p] (rowMin b[p]), ?_, min_le_right _ _, ?_, ?_⟩
            · simp [this]
            · intro y l' h hy
              cases h
              rw [this] at hy; cases hy
              exact min_le_left _ _
            · rcases min_choice l0[p] (rowMin b[p]) with h | h
              · right; rw [h]; exact ⟨l0, rfl, this⟩
              · left; exact h
        obtain ⟨c, hc, hc1, hc2, hc3⟩ := hcur
        refine ⟨?_, ?_⟩
        · rcases hseen with ⟨l', hl', hx'⟩ | ⟨b', hb', row, hrow', hxr⟩
          · cases hl'
            rw [hc] at hx'; cases hx'
            rcases hc3 with h | ⟨l', h, h'⟩
            · right; exact ⟨b, by simp, b[p], hbp, h ▸ hm1⟩
            · left; exact ⟨l', h, h'⟩
          · right; exact ⟨b', by simp [hb'], row, hrow', hxr⟩
        · have hxc : x ≤ c := hle c (.inl ⟨_, rfl, hc⟩)
          rintro y (⟨l', hl', hy⟩ | ⟨b', hb', row, hrow', hyr⟩)
          · exact hxc.trans (hc2 y l' hl' hy)
          · rcases List.mem_cons.1 hb' with rfl | hb'
            · rw [hbp] at hrow'; cases hrow'
              exact hxc.trans (hc1.trans (hm2 y hyr))
            · exact hle y (.inr ⟨b', hb', row, hrow', hyr⟩)
      · -- the greatest value
        intro p x hx
        obtain ⟨hseen, hle⟩ := h4 p x hx
        have hp : p < n := by
          have := (List.getElem?_eq_some_iff.1 hx).1
          omega
        have hbp : b[p]? = some b[p] := List.getElem?_eq_getElem (by omega)
        obtain ⟨hm1, hm2⟩ := rowMax_spec (hrow b[p] (List.getElem_mem _))
        have hcur : ∃ c, (List.zipWith max (s.max.getD (List.replicate b.length ⊥))
            (b.map rowMax))[p]? = some c ∧ rowMax b[p] ≤ c ∧
            (∀ y l', s.max = some l' → l'[p]? = some y → y ≤ c) ∧
            (c = rowMax b[p] ∨ ∃ l', s.max = some l' ∧ l'[p]? = some c) := by
          rw [List.getElem?_zipWith, List.getElem?_map, hbp]
          cases hm : s.max with
          | none =>
            refine ⟨max ⊥ (rowMax b[p]), ?_, le_max_right _ _, ?_, .inl ?_⟩
            · simp only [Option.getD_none, List.getElem?_replicate, Option.map_some]
              rw [if_pos (by omega)]
            · intro y l' h; cases h
            · exact max_eq_right bot_le
          | some l0 =>
            have hl0 := hs.2 l0 hm
            have : l0[p]? = some l0[p] := List.getElem?_eq_getElem (by omega)
            refine ⟨max l0[p] (rowMax b[p]), ?_, le_max_right _ _, ?_, ?_⟩
            · simp [this]
            · intro y l' h hy
              cases h
              rw [this] at hy; cases hy
              exact le_max_left _ _
            · rcases max_choice l0[p] (rowMax b[p]) with h | h
              · right; rw [h]; exact ⟨l0, rfl, this⟩
              · left; exact h
        obtain ⟨c, hc, hc1, hc2, hc3⟩ := hcur
        refine ⟨?_, ?_⟩
        · rcases hseen with ⟨l', hl', hx'⟩ | ⟨b', hb', row, hrow', hxr⟩
          · cases hl'
            rw [hc] at hx'; cases hx'
            rcases hc3 with h | ⟨l', h, h'⟩
            · right; exact ⟨b, by simp, b[p], hbp, h ▸ hm1⟩
            · left; exact ⟨l', h, h'⟩
          · right; exact ⟨b', by simp [hb'], row, hrow', hxr⟩
        · have hxc : c ≤ x := hle c (.inl ⟨_, rfl, hc⟩)
          rintro y (⟨l', hl', hy⟩ | ⟨b', hb', row, hrow', hyr⟩)
          · exact (hc2 y l' hl' hy).trans hxc
          · rcases List.mem_cons.1 hb' with rfl | hb'
            · rw [hbp] at hrow'; cases hrow'
              exact ((hm2 y hyr).trans hc1).trans hxc
            · exact hle y (.inr ⟨b', hb', row, hrow', hyr⟩)
    · rw [if_neg hf]
      have hfil : (b :: bs).filter finite = bs.filter finite := by
        rw [List.filter_cons_of_neg hf]
      rw [hfil] at hne ⊢
      exact running_spec n bs s r hbs hs hss hne

theorem isMin_unique {α : Type} [LinearOrder α] {init init' : Option (List α)}
    {bs bs' : List (List (List α))} {p : Nat} {x y : α} (h : IsMin init bs p x)
    (h' : IsMin init' bs' p y) (hs : ∀ z, Seen init bs p z ↔ Seen init' bs' p z) : x = y :=
  le_antisymm (h.2 y ((hs y).2 h'.1)) (h'.2 x ((hs x).1 h.1))

theorem isMax_unique {α : Type} [LinearOrder α] {init init' : Option (List α)}
    {bs bs' : List (List (List α))} {p : Nat} {x y : α} (h : IsMax init bs p x)
    (h' : IsMax init' bs' p y) (hs : ∀ z, Seen init bs p z ↔ Seen init' bs' p z) : x = y :=
  le_antisymm (h'.2 x ((hs x).1 h.1)) (h.2 y ((hs y).2 h'.1))

end running_lemmas

section smoothed_lemmas
variable {K : Type} [Field K] [LinearOrder K] [IsStrictOrderedRing K]

theorem lo_spec {row : List K} (h : row ≠ []) : lo row ∈ row ∧ ∀ y ∈ row, lo row ≤ y := by
  cases row with
  | nil => exact absurd rfl h
  | cons x xs => exact foldl_min_spec xs x

theorem hi_spec {row : List K} (h : row ≠ []) : hi row ∈ row ∧ ∀ y ∈ row, y ≤ hi row := by
  cases row with
  | nil => exact absurd rfl h
  | cons x xs => exact foldl_max_spec xs x

theorem movingAverage_cons (gamma x0 x : K) (xs : List K) :
    movingAverage gamma x0 (x :: xs) =
      movingAverage gamma (gamma * x + (1 - gamma) * x0) xs := by
  have : weightedSum gamma (x :: xs) =
      gamma * (1 - gamma) ^ xs.length * x + weightedSum gamma xs := rfl
  unfold movingAverage
  rw [this, List.length_cons, pow_succ]
  ring

theorem movingAverage_bounds {gamma : K} (h0 : 0 ≤ gamma) (h1 : gamma ≤ 1) {c : K} :
    ∀ {xs : List K} {x0 : K}, c ≤ x0 → (∀ x ∈ xs, c ≤ x) → c ≤ movingAverage gamma x0 xs
  | [], x0, h, _ => by simpa [movingAverage, weightedSum] using h
  | x :: xs, x0, h, hx => by
    rw [movingAverage_cons]
    refine movingAverage_bounds h0 h1 ?_ (fun y hy => hx y (by simp [hy]))
    have := hx x (by simp)
    nlinarith

theorem movingAverage_upper {gamma : K} (h0 : 0 ≤ gamma) (h1 : gamma ≤ 1) {c : K} :
    ∀ {xs : List K} {x0 : K}, x0 ≤ c → (∀ x ∈ xs, x ≤ c) → movingAverage gamma x0 xs ≤ c
  | [], x0, h, _ => by simpa [movingAverage, weightedSum] using h
  | x :: xs, x0, h, hx => by
    rw [movingAverage_cons]
    refine movingAverage_upper h0 h1 ?_ (fun y hy => hx y (by simp [hy]))
    have := hx x (by simp)
    nlinarith

theorem movingAverage_mono {gamma : K} (h0 : 0 ≤ gamma) (h1 : gamma ≤ 1) :
    ∀ {xs ys : List K} {x0 y0 : K}, x0 ≤ y0 → List.Forall₂ (· ≤ ·) xs ys →
    movingAverage gamma x0 xs ≤ movingAverage gamma y0 ys
  | [], _, x0, y0, h, .nil => by simpa [movingAverage, weightedSum] using h
  | x :: xs, y :: ys, x0, y0, h, .cons hxy hr => by
    rw [movingAverage_cons, movingAverage_cons]
    refine movingAverage_mono h0 h1 ?_ hr
    have := mul_le_mul_of_nonneg_left hxy h0
    have := mul_le_mul_of_nonneg_left h (by linarith : (0 : K) ≤ 1 - gamma)
    linarith

/-- The state of an initialised estimator. -/
theorem smoothed_some (gamma : K) (n : Nat) : ∀ (bs : List (List (List K))) (l u : List K),
    Batches n bs → l.length = n → u.length = n →
    ∃ l' u', smoothed gamma ⟨some l, some u⟩ bs = ⟨some l', some u'⟩ ∧ l'.length = n ∧ u'.length = n ∧
      (∀ (p : Nat) x, l[p]? = some x → ∃ xs, bs.map (fun b => (b[p]?).map lo) = xs.map some ∧
        l'[p]? = some (movingAverage gamma x xs)) ∧
      (∀ (p : Nat) x, u[p]? = some x → ∃ xs, bs.map (fun b => (b[p]?).map hi) = xs.map some ∧
        u'[p]? = some (movingAverage gamma x xs))
  | [], l, u, _, hl, hu => by
    refine ⟨l, u, rfl, hl, hu, ?_, ?_⟩ <;>
    · intro p x hx
      refine ⟨[], rfl, ?_⟩
      simpa [movingAverage, weightedSum] using hx
  | b :: bs, l, u, hb, hl, hu => by
    have hlen := (hb b (by simp)).1
    obtain ⟨l', u', e, h1, h2, h3, h4⟩ := smoothed_some gamma n bs
      (List.zipWith (fun d m => gamma * d + (1 - gamma) * m) (b.map lo) l)
      (List.zipWith (fun d m => gamma * d + (1 - gamma) * m) (b.map hi) u)
      (fun b' hb' => hb b' (by simp [hb'])) (by simp [hl, hlen]) (by simp [hu, hlen])
    refine ⟨l', u', e, h1, h2, ?_, ?_⟩
    · intro p x hx
      have hp : p < n := by
        have := (List.getElem?_eq_some_iff.1 hx).1
        omega
      have hbp : b[p]? = some b[p] := List.getElem?_eq_getElem (by omega)
      obtain ⟨xs, e1, e2⟩ := h3 p (gamma * lo b[p] + (1 - gamma) * x) (by
        rw [List.getElem?_zipWith, List.getElem?_map, hbp, hx]; rfl)
      refine ⟨lo b[p] :: xs, ?_, ?_⟩
      · rw [List.map_cons, List.map_cons, e1, hbp]; rfl
      · rw [movingAverage_cons, e2]
    · intro p x hx
      have hp : p < n := by
        have := (List.getElem?_eq_some_iff.1 hx).1
        omega
      have hbp : b[p]? = some b[p] := List.getElem?_eq_getElem (by omega)
      obtain ⟨xs, e1, e2⟩ := h4 p (gamma * hi b[p] + (1 - gamma) * x) (by
        rw [List.getElem?_zipWith, List.getElem?_map, hbp, hx]; rfl)
      refine ⟨hi b[p] :: xs, ?_, ?_⟩
      · rw [List.map_cons, List.map_cons, e1, hbp]; rfl
      · rw [movingAverage_cons, e2]

end smoothed_lemmas

/-! ## Properties -/

section properties_running
variable {K : Type} [LinearOrder K]

/-- **C44.**  A batch is refused if and only if it contains an infinite value, and then changes
nothing. -/
theorem running_refuses_infinite (s : St (Ext K)) {b : List (List (Ext K))}
    (hb : ∀ row ∈ b, row ≠ []) :
    runningStep s b = none ↔ ∃ row ∈ b, ∃ x ∈ row, x = ⊤ ∨ x = ⊥ := by
  rw [runningStep_eq s b hb]
  have hiff : finite b = true ↔ ¬ ∃ row ∈ b, ∃ x ∈ row, x = ⊤ ∨ x = ⊥ := by
    unfold finite
    simp only [List.all_eq_true, Bool.and_eq_true, decide_eq_true_eq]
    constructor
    · rintro h ⟨row, hr, x, hx, h1 | h1⟩
      · exact (h row hr x hx).1 h1
      · exact (h row hr x hx).2 h1
    · intro h row hr x hx
      exact ⟨fun h1 => h ⟨row, hr, x, hx, .inl h1⟩, fun h1 => h ⟨row, hr, x, hx, .inr h1⟩⟩
  by_cases h : finite b = true
  · rw [if_pos h]
    simp only [reduceCtorEq, false_iff]
    exact hiff.1 h
  · rw [if_neg h]
    simp only [true_iff]
    by_contra hn
    exact h (hiff.2 hn)

/-- **C44.**  After any sequence of batches, the range the running estimator gives the quantizer is, for
every parameter, the least and the greatest of the values of the initial range, if there is one, and of
all batches that were accepted. -/
theorem running_range_exact {n : Nat} {bs : List (List (List (Ext K)))} {s : St (Ext K)}
    (r : Option (List (Ext K) × List (Ext K))) (hb : Batches n bs) (hs : Sized n s)
    (hss : s.min.isSome = true ↔ s.max.isSome = true) (hne : bs.filter finite ≠ []) :
    ∃ l u, (running s r bs).2 = some (l, u) ∧ l.length = n ∧ u.length = n ∧
      (∀ p x, l[p]? = some x → IsMin s.min (bs.filter finite) p x) ∧
      (∀ p x, u[p]? = some x → IsMax s.max (bs.filter finite) p x) := by
  obtain ⟨l, u, e, h1, h2, h3, h4⟩ := running_spec n bs s r hb hs hss (.inl hne)
  refine ⟨l, u, ?_, h1, h2, h3, h4⟩
  rw [e, if_neg hne]

/-- **C44.**  The result does not depend on how the values come in batches, nor on their order or
repetition: estimators that have seen the same values give the same range. -/
theorem running_independent_of_batching {n : Nat} {bs bs' : List (List (List (Ext K)))}
    {s s' : St (Ext K)} (r r' : Option (List (Ext K) × List (Ext K)))
    (hb : Batches n bs) (hb' : Batches n bs') (hs : Sized n s) (hs' : Sized n s')
    (hss : s.min.isSome = true ↔ s.max.isSome = true)
    (hss' : s'.min.isSome = true ↔ s'.max.isSome = true)
    (hne : bs.filter finite ≠ []) (hne' : bs'.filter finite ≠ [])
    (hlo : ∀ p x, Seen s.min (bs.filter finite) p x ↔ Seen s'.min (bs'.filter finite) p x)
    (hhi : ∀ p x, Seen s.max (bs.filter finite) p x ↔ Seen s'.max (bs'.filter finite) p x) :
    (running s r bs).2 = (running s' r' bs').2 := by
  obtain ⟨l, u, e, h1, h2, h3, h4⟩ := running_range_exact r hb hs hss hne
  obtain ⟨l', u', e', h1', h2', h3', h4'⟩ := running_range_exact r' hb' hs' hss' hne'
  rw [e, e']
  have hl : l = l' := by
    apply List.ext_getElem (by omega)
    intro p hp hp'
    exact isMin_unique (h3 p _ (List.getElem?_eq_getElem hp)) (h3' p _ (List.getElem?_eq_getElem hp'))
      (hlo p)
  have hu : u = u' := by
    apply List.ext_getElem (by omega)
    intro p hp hp'
    exact isMax_unique (h4 p _ (List.getElem?_eq_getElem hp)) (h4' p _ (List.getElem?_eq_getElem hp'))
      (hhi p)
  rw [hl, hu]

end properties_running

section properties_smoothed
variable {K : Type} [Field K] [LinearOrder K] [IsStrictOrderedRing K]

/-- **C44.**  The smoothed estimator, started without a range, ends for every parameter at the
exponential moving averages of the least and of the greatest values of the batches, started with those
of the first batch. -/
theorem smoothed_is_moving_average (gamma : K) {n : Nat} {b : List (List K)}
    {bs : List (List (List K))} (hb : Batches n (b :: bs)) {s : St K}
    (hs : s.min = none ∨ s.max = none) :
    ∃ l u, smoothed gamma s (b :: bs) = ⟨some l, some u⟩ ∧ l.length = n ∧ u.length = n ∧
      ∀ p, p < n → ∃ row los his, b[p]? = some row ∧
        bs.map (fun b => (b[p]?).map lo) = los.map some ∧
        bs.map (fun b => (b[p]?).map hi) = his.map some ∧
        l[p]? = some (movingAverage gamma (lo row) los) ∧
        u[p]? = some (movingAverage gamma (hi row) his) := by
  have hlen := (hb b (by simp)).1
  have hfirst : smoothedStep gamma s b = ⟨some (b.map lo), some (b.map hi)⟩ := by
    unfold smoothedStep
    rcases hs with h | h
    · rw [h]
    · rw [h]; cases s.min <;> rfl
  obtain ⟨l, u, e, h1, h2, h3, h4⟩ := smoothed_some gamma n bs (b.map lo) (b.map hi)
    (fun b' hb' => hb b' (by simp [hb'])) (by simp [hlen]) (by simp [hlen])
  refine ⟨l, u, ?_, h1, h2, ?_⟩
  · show smoothed gamma (smoothedStep gamma s b) bs = _
    rw [hfirst, e]
  · intro p hp
    have hbp : b[p]? = some b[p] := List.getElem?_eq_getElem (by omega)
    obtain ⟨los, e1, e2⟩ := h3 p (lo b[p]) (by rw [List.getElem?_map, hbp]; rfl)
    obtain ⟨his, e3, e4⟩ := h4 p (hi b[p]) (by rw [List.getElem?_map, hbp]; rfl)
    exact ⟨b[p], los, his, hbp, e1, e3, e2, e4⟩

/-- **C44.**  Started with a range, the moving averages start there. -/
theorem smoothed_from_range (gamma : K) {n : Nat} {bs : List (List (List K))} (hb : Batches n bs)
    {l u : List K} (hl : l.length = n) (hu : u.length = n) :
    ∃ l' u', smoothed gamma ⟨some l, some u⟩ bs = ⟨some l', some u'⟩ ∧
      l'.length = n ∧ u'.length = n ∧
      (∀ (p : Nat) x, l[p]? = some x → ∃ los, bs.map (fun b => (b[p]?).map lo) = los.map some ∧
        l'[p]? = some (movingAverage gamma x los)) ∧
      (∀ (p : Nat) x, u[p]? = some x → ∃ his, bs.map (fun b => (b[p]?).map hi) = his.map some ∧
        u'[p]? = some (movingAverage gamma x his)) :=
  smoothed_some gamma n bs l u hb hl hu

/-- **C44.**  For a smoothing factor in `[0, 1]`, the smoothed range stays in the hull of what was seen:
it is a range (lower end below upper end), its lower end is above every lower bound and its upper end
below every upper bound of the values seen. -/
theorem smoothed_in_hull {gamma : K} (h0 : 0 ≤ gamma) (h1 : gamma ≤ 1) {n : Nat} {b : List (List K)}
    {bs : List (List (List K))} (hb : Batches n (b :: bs)) {s : St K} (hs : s.min = none ∨ s.max = none) :
    ∃ l u, smoothed gamma s (b :: bs) = ⟨some l, some u⟩ ∧ l.length = n ∧ u.length = n ∧
      ∀ p x y, l[p]? = some x → u[p]? = some y → x ≤ y ∧
        (∀ c, (∀ z, Seen none (b :: bs) p z → c ≤ z) → c ≤ x) ∧
        (∀ c, (∀ z, Seen none (b :: bs) p z → z ≤ c) → y ≤ c) := by
  obtain ⟨l, u, e, hl, hu, hp⟩ := smoothed_is_moving_average gamma hb hs
  refine ⟨l, u, e, hl, hu, ?_⟩
  intro p x y hx hy
  have hpn : p < n := by
    have := (List.getElem?_eq_some_iff.1 hx).1
    omega
  obtain ⟨row, los, his, h2, h3, h4, h5, h6⟩ := hp p hpn
  rw [hx] at h5
  rw [hy] at h6
  cases h5
  cases h6
  have hrow : row ≠ [] := (hb b (by simp)).2 row (List.mem_of_getElem? h2)
  -- the lists of extremes, batch by batch
  have hall : ∀ {bs : List (List (List K))} {los his : List K}, Batches n bs →
      bs.map (fun b => (b[p]?).map lo) = los.map some →
      bs.map (fun b => (b[p]?).map hi) = his.map some →
      List.Forall₂ (· ≤ ·) los his ∧
      (∀ z ∈ los, ∃ b ∈ bs, ∃ row, b[p]? = some row ∧ z ∈ row) ∧
      (∀ z ∈ his, ∃ b ∈ bs, ∃ row, b[p]? = some row ∧ z ∈ row) := by
    intro bs
    induction bs with
    | nil =>
      intro los his _ e1 e2
      simp at e1 e2
      rw [e1, e2]
      exact ⟨.nil, by simp, by simp⟩
    | cons b bs ih =>
      intro los his hb e1 e2
      cases los with
      | nil => simp at e1
      | cons x los =>
        cases his with
        | nil => simp at e2
        | cons y his =>
          simp only [List.map_cons, List.cons.injEq] at e1 e2
          obtain ⟨g1, g2, g3⟩ := ih (fun b' hb' => hb b' (by simp [hb'])) e1.2 e2.2
          obtain ⟨r, hr, hx⟩ := Option.map_eq_some_iff.1 e1.1
          obtain ⟨r', hr', hy⟩ := Option.map_eq_some_iff.1 e2.1
          rw [hr] at hr'
          cases hr'
          have hrne : r ≠ [] := (hb b (by simp)).2 r (List.mem_of_getElem? hr)
          obtain ⟨a1, a2⟩ := lo_spec hrne
          obtain ⟨b1, b2⟩ := hi_spec hrne
          subst hx
          subst hy
          refine ⟨.cons (a2 _ b1) g1, ?_, ?_⟩
          · intro z hz
            rcases List.mem_cons.1 hz with rfl | hz
            · exact ⟨b, by simp, r, hr, a1⟩
            · obtain ⟨b', hb', rest⟩ := g2 z hz
              exact ⟨b', by simp [hb'], rest⟩
          · intro z hz
            rcases List.mem_cons.1 hz with rfl | hz
            · exact ⟨b, by simp, r, hr, b1⟩
            · obtain ⟨b', hb', rest⟩ := g3 z hz
              exact ⟨b', by simp [hb'], rest⟩
  obtain ⟨g1, g2, g3⟩ := hall (fun b' hb' => hb b' (by simp [hb'])) h3 h4
  obtain ⟨a1, a2⟩ := lo_spec hrow
  obtain ⟨b1, b2⟩ := hi_spec hrow
  refine ⟨movingAverage_mono h0 h1 (a2 _ b1) g1, ?_, ?_⟩
  · intro c hc
    refine movingAverage_bounds h0 h1 (hc _ (.inr ⟨b, by simp, row, h2, a1⟩)) ?_
    intro z hz
    obtain ⟨b', hb', r, hr, hzr⟩ := g2 z hz
    exact hc z (.inr ⟨b', by simp [hb'], r, hr, hzr⟩)
  · intro c hc
    refine movingAverage_upper h0 h1 (hc _ (.inr ⟨b, by simp, row, h2, b1⟩)) ?_
    intro z hz
    obtain ⟨b', hb', r, hr, hzr⟩ := g3 z hz
    exact hc z (.inr ⟨b', by simp [hb'], r, hr, hzr⟩)

end properties_smoothed

/-! ## Concrete cases -/

/-- Three batches of two rows; the second is refused. -/
def demoBatches : List (List (List (Ext ℤ))) :=
  [[[(3 : ℤ), (1 : ℤ)], [(0 : ℤ)]], [[⊤], [(5 : ℤ)]], [[(-2 : ℤ)], [(7 : ℤ), (4 : ℤ)]]]

example : Batches 2 demoBatches := by
  intro b hb
  simp only [demoBatches, List.mem_cons, List.not_mem_nil, or_false] at hb
  rcases hb with rfl | rfl | rfl <;> simp

example : (demoBatches.filter finite).length = 2 := by decide

example : (running ⟨none, none⟩ none demoBatches).2 =
    some ([((-2 : ℤ) : Ext ℤ), ((0 : ℤ) : Ext ℤ)], [((3 : ℤ) : Ext ℤ), ((7 : ℤ) : Ext ℤ)]) := by decide

/-- The initial range counts. -/
example : (running ⟨some [(-9 : ℤ), (1 : ℤ)], some [(0 : ℤ), (2 : ℤ)]⟩ none demoBatches).2 =
    some ([((-9 : ℤ) : Ext ℤ), ((0 : ℤ) : Ext ℤ)], [((3 : ℤ) : Ext ℤ), ((7 : ℤ) : Ext ℤ)]) := by decide

example : smoothed (1 / 2 : ℚ) ⟨none, none⟩ [[[1, 3]], [[5]], [[-3, 1]]] =
    ⟨some [0], some [5 / 2]⟩ := by
  simp [smoothed, smoothedStep, lo, hi]
  norm_num

end FF.MinMax
