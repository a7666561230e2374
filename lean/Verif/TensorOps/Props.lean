import Verif.TensorOps.IndexLemmas
import Mathlib.Data.List.Sort

/-! # Property theorems about operations on quantized tensors (C14–C16, C66, C67) -/

namespace FF.TOps
open FF.Tens FF.Tiling FF.Quant FF.Gran

/-- **C14.** Whenever multiplication by a scalar stays quantized, the codes are untouched and the dequantized value is the
original dequantized value times the scalar (including the case that dequantization fails). -/
theorem scalar_multiply_value (q q' : QTensor) (a : ℚ) (h : scalarMultiply q a = some q') :
    q'.data = q.data ∧ q'.dequantize = q.dequantize.map (Tensor.map (· * a)) := by
  unfold scalarMultiply at h
  split_ifs at h
  simp only [Option.some.injEq] at h
  subst h
  refine ⟨rfl, ?_⟩
  unfold QTensor.dequantize
  simp only [bind, Except.bind]
  cases tileSize q.gran q.data.shape with
  | error e => rfl
  | ok tile => exact dequantizeByTile_mul _ _ _ _ _

/-- **C14.** It stays quantized exactly for per-tensor quantization. -/
theorem scalar_multiply_applies_iff (q : QTensor) (a : ℚ) : (scalarMultiply q a).isSome ↔ q.gran = .perTensor := by
  unfold scalarMultiply isPerTensor
  by_cases h : q.gran = .perTensor <;> simp [h]

example : ((scalarMultiply ⟨⟨[2], fun k => k⟩, [1 / 2], some [3], .perTensor⟩ 4).bind fun q => q.dequantize.toOption.map
    fun v => (List.range 2).map v.get) = some [6, 8] := by decide +kernel

/-! ### Data movement -/

/-- Specification: a data-movement operation. It computes, from the input shape alone, the output shape and for each output
index the input index the element is taken from. -/
structure Move where
  run : List ℕ → Except TErr (List ℕ × (List ℕ → List ℕ))
  ok : ∀ s out m, run s = .ok (out, m) → ∀ idx, InBounds out idx → InBounds s (m idx)

/-- Perform a data movement on a tensor. -/
def Move.apply {α : Type} (mv : Move) (t : Tensor α) : Except TErr (Tensor α) := do
  let (out, m) ← mv.run t.shape
  return ⟨out, fun k => t.at (m (unravel out k))⟩

/-- Basic indexing is a data movement. -/
def Move.getitem (items : List Item) : Move := ⟨indexShape items, fun _ _ _ h _ hi => indexShape_inBounds h hi⟩

theorem getitem_is_move {α : Type} (items : List Item) (t : Tensor α) : torchGetitem t items = (Move.getitem items).apply t := rfl

/-- `reshape`/`view`/`view_as` is a data movement. -/
def Move.reshape (shape : List ℕ) : Move where
  run s := if shape.prod = s.prod then .ok (shape, fun idx => unravel s (ravel shape idx)) else .error .runtimeError
  ok := by
    intro s out m h idx hi
    split_ifs at h with hp
    simp only [Except.ok.injEq, Prod.mk.injEq] at h
    obtain ⟨rfl, rfl⟩ := h
    exact unravel_inBounds (by rw [← hp]; exact ravel_lt hi)

theorem reshape_is_move {α : Type} (shape : List ℕ) (t : Tensor α) :
    (∀ u, t.reshape shape = .ok u → ∃ u', (Move.reshape shape).apply t = .ok u' ∧ u.Same u') ∧
    ((∃ u', (Move.reshape shape).apply t = .ok u') → ∃ u, t.reshape shape = .ok u) := by
  unfold Tensor.reshape Move.apply Move.reshape Tensor.numel
  by_cases h : shape.prod = t.shape.prod
  · simp only [h, if_true, bind, Except.bind, pure, Except.pure, Except.ok.injEq]
    refine ⟨?_, fun _ => ⟨_, rfl⟩⟩
    rintro u rfl
    refine ⟨_, rfl, rfl, fun idx hi => ?_⟩
    simp only [Tensor.at]
    dsimp only at hi
    rw [unravel_ravel hi, ravel_unravel]
    rw [← h]; exact ravel_lt hi
  · simp [h, bind, Except.bind]

/-- Swap two entries of a list. -/
def swap (l : List ℕ) (a b : ℕ) : List ℕ := (l.set a (l.getD b 0)).set b (l.getD a 0)

theorem swap_getElem? (l : List ℕ) (a b k : ℕ) (ha : a < l.length) (hb : b < l.length) :
    (swap l a b)[k]? = if k = b then l[a]? else if k = a then l[b]? else l[k]? := by
  unfold swap
  simp only [List.getElem?_set, List.length_set, List.getD_eq_getElem?_getD]
  have h1 : (some (l[a]?.getD 0)) = l[a]? := by rw [List.getElem?_eq_getElem ha]; rfl
  have h2 : (some (l[b]?.getD 0)) = l[b]? := by rw [List.getElem?_eq_getElem hb]; rfl
  by_cases hkb : k = b
  · subst hkb; simp [hb, h1]
  · simp only [hkb, if_false, Ne.symm hkb]
    by_cases hka : k = a
    · subst hka; simp [ha, h2]
    · simp [hka, Ne.symm hka]

/-- `transpose(d0, d1)` is a data movement. -/
def Move.transpose (d0 d1 : ℤ) : Move where
  run s :=
    match pyIndex s.length d0, pyIndex s.length d1 with
    | some a, some b => .ok (swap s a b, fun idx => swap idx a b)
    | _, _ => .error .indexError
  ok := by
    intro s out m h idx hi
    cases ha : pyIndex s.length d0 with
    | none => simp [ha] at h
    | some a =>
      cases hb : pyIndex s.length d1 with
      | none => simp [ha, hb] at h
      | some b =>
        simp only [ha, hb, Except.ok.injEq, Prod.mk.injEq] at h
        obtain ⟨rfl, rfl⟩ := h
        have hal := pyIndex_lt ha
        have hbl := pyIndex_lt hb
        have hlen : idx.length = s.length := by rw [hi.length_eq]; simp [swap]
        rw [inBounds_iff] at hi ⊢
        refine ⟨by simp [swap, hlen], ?_⟩
        intro k x d hx hd
        rw [swap_getElem? idx a b k (by omega) (by omega)] at hx
        have key : ∀ j, (swap s a b)[j]? = if j = b then s[a]? else if j = a then s[b]? else s[j]? :=
          fun j => swap_getElem? s a b j hal hbl
        split_ifs at hx with h1 h2
        · subst h1
          refine hi.2 a x d hx ?_
          rw [key]
          by_cases h3 : a = k
          · rw [if_pos h3, h3]; exact hd
          · rw [if_neg h3, if_pos rfl]; exact hd
        · subst h2
          refine hi.2 b x d hx ?_
          rw [key]; simp [hd]
        · refine hi.2 k x d hx ?_
          rw [key]; simp [h1, h2, hd]

/-- **C66.** Any data movement applied to a per-tensor quantized tensor (indexing, view, reshape, transpose, expand, ...) keeps
the parameters and commutes with dequantization. -/
theorem per_tensor_move_value (q q' : QTensor) (mv : Move) (s : ℚ) (hs : q.scale = [s]) (o : Option ℚ)
    (ho : q.offset = o.map fun x => [x]) (h : perTensorOp mv.apply q = some (.ok q')) :
    ∃ v v' w, q.dequantize = .ok v ∧ q'.dequantize = .ok v' ∧ mv.apply v = .ok w ∧ v'.Same w := by
  unfold perTensorOp at h
  split_ifs at h with hp
  simp only [Option.some.injEq, applyAndReattach, bind, Except.bind] at h
  cases hm : mv.apply q.data with
  | error e => simp [hm] at h
  | ok d =>
    simp only [hm, pure, Except.pure, Except.ok.injEq] at h
    subst h
    have hg : q.gran = .perTensor := by simpa [isPerTensor] using hp
    obtain ⟨v, hv, hsame⟩ := per_tensor_value q hg s hs o ho
    obtain ⟨v', hv', hsame'⟩ := per_tensor_value { q with data := d } hg s hs o ho
    refine ⟨v, v', ?_⟩
    unfold Move.apply at hm ⊢
    have hshape : v.shape = q.data.shape := hsame.1
    rw [hshape]
    cases hr : mv.run q.data.shape with
    | error e => simp [hr, bind, Except.bind] at hm
    | ok r =>
      simp only [hr, bind, Except.bind, pure, Except.pure, Except.ok.injEq] at hm
      subst hm
      refine ⟨_, hv, hv', rfl, hsame'.1, ?_⟩
      intro idx hi
      rw [hsame'.2 idx hi]
      have hi' : InBounds r.1 idx := by rw [hsame'.1] at hi; exact hi
      have hb := mv.ok _ _ _ hr idx hi'
      have h1 : ∀ {γ : Type} (t : Tensor γ), (⟨r.1, fun k => t.at (r.2 (unravel r.1 k))⟩ : Tensor γ).at idx = t.at (r.2 idx) := by
        intro γ t; show t.at _ = _; rw [unravel_ravel hi']
      rw [h1]
      have h2 := hsame.2 (r.2 idx) (by rw [hshape]; exact hb)
      rw [h2]
      show dequantizeScalar s o ((⟨r.1, fun k => q.data.at (r.2 (unravel r.1 k))⟩ : Tensor ℤ).at idx) = _
      rw [h1]
      rfl

example : ((perTensorOp (Move.transpose 0 (-1)).apply ⟨⟨[2, 3], fun k => k⟩, [1 / 2], some [1], .perTensor⟩).bind fun r =>
    (r.bind QTensor.dequantize).toOption.map fun v => (v.shape, (List.range 6).map v.get))
      = some ([3, 2], [1 / 2, 2, 1, 5 / 2, 3 / 2, 3]) := by decide +kernel

/-! ### Concatenation -/

theorem catLoop_spec (qs : List QTensor) (s : List ℚ) (o : Option (List ℚ)) (h : catLoop (some s) o qs = true) :
    ∀ q ∈ qs, q.gran = .perTensor ∧ q.scale = s ∧ (o.isSome → q.offset = o) := by
  induction qs generalizing s o with
  | nil => simp
  | cons q qs ih =>
    unfold catLoop at h
    by_cases h1 : (!isPerTensor q) = true
    · rw [if_pos h1] at h; simp at h
    rw [if_neg h1] at h
    have hp : q.gran = .perTensor := by simpa [isPerTensor] using h1
    have h2 : q.scale = s ∧ (o.isSome → q.offset = o) ∧ catLoop (some q.scale) q.offset qs = true := by
      cases o with
      | none => simpa using h
      | some x => simpa [and_assoc] using h
    obtain ⟨hsc, hof', h⟩ := h2
    intro q' hq'
    rcases List.mem_cons.1 hq' with rfl | hq'
    · exact ⟨hp, hsc, hof'⟩
    · obtain ⟨a, b, c⟩ := ih _ _ h q' hq'
      refine ⟨a, by rw [b, hsc], fun ho => ?_⟩
      have := hof' ho
      rw [c (by rw [this]; exact ho), this]

/-- What acceptance guarantees: per-tensor, one common scale, and a common offset if the first tensor has one. -/
theorem catPredicate_spec (q0 : QTensor) (qs : List QTensor) (h : catPredicate (q0 :: qs) = true) :
    ∀ q ∈ q0 :: qs, q.gran = .perTensor ∧ q.scale = q0.scale ∧ (q0.offset.isSome → q.offset = q0.offset) := by
  unfold catPredicate catLoop at h
  split_ifs at h with h1
  have hp : q0.gran = .perTensor := by simpa [isPerTensor] using h1
  intro q hq
  rcases List.mem_cons.1 hq with rfl | hq
  · exact ⟨hp, rfl, fun _ => rfl⟩
  · exact catLoop_spec qs _ _ h q hq

/-- The property C15 for one list of inputs: whenever concatenation is kept quantized and succeeds, dequantizing the result
equals concatenating the dequantized inputs. -/
def CatFaithful (qs : List QTensor) (dim : ℤ) : Prop :=
  ∀ q' vs, cat qs dim = some (.ok q') → List.Forall₂ (fun q v => QTensor.dequantize q = .ok v) qs vs →
    ∃ v' w, q'.dequantize = .ok v' ∧ torchCat vs dim = .ok w ∧ v'.Same w

/-- **C15 (partial).** Concatenation is faithful for inputs with one scale each (and at most one offset) whenever the first
input has an offset or no input has one. What is missing: see `cat_mixed_offsets_unfaithful`. -/
theorem cat_faithful_partial (q0 : QTensor) (qs : List QTensor) (dim : ℤ)
    (hs : ∀ q ∈ q0 :: qs, q.scale.length = 1) (ho : ∀ q ∈ q0 :: qs, ∀ l ∈ q.offset, l.length = 1)
    (hoff : q0.offset.isSome ∨ ∀ q ∈ q0 :: qs, q.offset = none) : CatFaithful (q0 :: qs) dim := by
  intro q' vs hcat hvs
  unfold cat at hcat
  split_ifs at hcat with hpred
  have hspec := catPredicate_spec q0 qs hpred
  simp only [Option.some.injEq, bind, Except.bind, List.map_cons] at hcat
  cases ht : torchCat (q0.data :: qs.map QTensor.data) dim with
  | error e => simp [ht] at hcat
  | ok out =>
    simp only [ht, Except.ok.injEq] at hcat
    subst hcat
    obtain ⟨s, hsc⟩ := List.length_eq_one_iff.1 (hs q0 (by simp))
    obtain ⟨o, hoo⟩ : ∃ o : Option ℚ, q0.offset = o.map fun x => [x] := by
      cases hq : q0.offset with
      | none => exact ⟨none, rfl⟩
      | some l =>
        obtain ⟨x, hx⟩ := List.length_eq_one_iff.1 (ho q0 (by simp) l (by simp [hq]))
        exact ⟨some x, by simp [hx]⟩
    have hall : ∀ q ∈ q0 :: qs, q.gran = .perTensor ∧ q.scale = [s] ∧ q.offset = o.map fun x => [x] := by
      intro q hq
      obtain ⟨a, b, c⟩ := hspec q hq
      refine ⟨a, by rw [b, hsc], ?_⟩
      rcases hoff with h | h
      · rw [c h, hoo]
      · rw [h q hq, ← h q0 (by simp), hoo]
    have h0 := hall q0 (by simp)
    obtain ⟨v', hv', hsame'⟩ := per_tensor_value { q0 with data := out } h0.1 s h0.2.1 o h0.2.2
    have hmap : torchCat (((q0 :: qs).map QTensor.data).map (Tensor.map (dequantizeScalar s o))) dim
        = .ok (out.map (dequantizeScalar s o)) := by rw [torchCat_map, List.map_cons, ht]; rfl
    have hsames : List.Forall₂ Tensor.Same (((q0 :: qs).map QTensor.data).map (Tensor.map (dequantizeScalar s o))) vs := by
      clear ht hv' hsame' hmap hpred hspec hs ho hoff h0
      generalize q0 :: qs = l at hall hvs
      induction hvs with
      | nil => exact .nil
      | @cons q v l vs hq _ ih =>
        obtain ⟨a, b, c⟩ := hall q (by simp)
        obtain ⟨v2, hv2, hs2⟩ := per_tensor_value q a s b o c
        rw [hq] at hv2
        obtain rfl := Except.ok.inj hv2
        refine .cons ⟨hs2.1.symm, fun idx hi => (hs2.2 idx (by rw [hs2.1]; exact hi)).symm⟩ (ih fun q hq => hall q (by simp [hq]))
    obtain ⟨w, hw, hws⟩ := torchCat_same hsames dim hmap
    refine ⟨v', w, hv', hw, hsame'.1.trans hws.1, fun idx hi => ?_⟩
    rw [hsame'.2 idx hi]
    exact hws.2 idx (by rw [hsame'.1] at hi; exact hi)

example : ((cat [⟨⟨[2], fun k => k⟩, [1 / 2], some [1], .perTensor⟩, ⟨⟨[1], fun k => k⟩, [1 / 2], some [1], .perTensor⟩] 0).bind
    fun r => r.toOption.map fun q => (q.data.shape, (List.range 3).map q.data.get)) = some ([3], [0, 1, 0]) := by
  decide +kernel

/-- **C15, deviation.** With an absent offset first and a present offset second the inputs are accepted as "the same parameters"
and the second input is read with the wrong offset. -/
theorem cat_mixed_offsets_unfaithful : ∃ qs dim, ¬ CatFaithful qs dim := by
  refine ⟨[⟨⟨[1], fun _ => 0⟩, [1], none, .perTensor⟩, ⟨⟨[1], fun _ => 0⟩, [1], some [5], .perTensor⟩], 0, ?_⟩
  intro h
  have := h ⟨⟨[2], _⟩, [1], none, .perTensor⟩ [⟨[1], _⟩, ⟨[1], _⟩] rfl (.cons rfl (.cons rfl .nil))
  obtain ⟨v', w, hv, hw, hsame⟩ := this
  have e1 : v'.at [1] = 0 := by
    have := Except.ok.inj hv
    rw [← this]; decide +kernel
  have e2 : w.at [1] = 5 := by
    have := Except.ok.inj hw
    rw [← this]; decide +kernel
  have e3 : v'.shape = [2] := by
    have := Except.ok.inj hv
    rw [← this]
  have := hsame.2 [1] (by rw [e3]; exact .cons (by decide) .nil)
  rw [e1, e2] at this
  exact absurd this (by norm_num)

end FF.TOps
