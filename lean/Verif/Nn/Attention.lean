import Mathlib.Analysis.SpecialFunctions.Exp
import Mathlib.Analysis.SpecialFunctions.Sqrt
import Mathlib.Algebra.BigOperators.Field
import Mathlib.Tactic.Ring
import Mathlib.Tactic.Positivity

/-! # Scaled dot product attention (C90)

Models `nn/functional/custom/sdpa.py`: `scaled_dot_product_attention`, `scaled_dot_product_attention_math`, `_get_quantized_attn_bias`,
`_quantized_safe_softmax`. Numbers are exact reals; `torch.softmax` and `torch.matmul` are taken to be exact, and `float("-inf")` is `none`. -/

namespace FF.Attention

open scoped BigOperators Classical

noncomputable section

/-! ### Model -/

/-- A matrix. -/
abbrev Mat (m n : ℕ) := Fin m → Fin n → ℝ

/-- A matrix of numbers or minus infinity. Plus infinity is left out. -/
abbrev XMat (m n : ℕ) := Fin m → Fin n → Option ℝ

inductive Err
  | strictGqa
  | zeroDivision
  | domain
  | maskAndCausal
  | shape
  deriving DecidableEq

/-- `attn_mask`, already broadcast to heads, rows and columns. -/
inductive Mask (L S : ℕ)
  | absent
  | bool (b : ℕ → Fin L → Fin S → Bool)
  | float (b : ℕ → XMat L S)

/-- The quantizers, on tensors with one matrix for each head; the identity if there is none or a stub. Simplification: `dropout_p` is 0, so that
`functional.dropout` is the identity (280-286), and there is no quantizer for it. -/
structure Quantizers (L S E Ev : ℕ) where
  query : List (Mat L E) → List (Mat L E) := id
  key : List (Mat E S) → List (Mat E S) := id
  scores : List (Mat L S) → List (Mat L S) := id
  bias : (ℕ → XMat L S) → ℕ → XMat L S := id
  masked : List (XMat L S) → List (XMat L S) := id
  weights : List (Mat L S) → List (Mat L S) := id
  output : List (Mat L Ev) → List (Mat L Ev) := id

/-- `torch.matmul` on matrices. -/
def mm {m n p : ℕ} (A : Mat m n) (B : Mat n p) : Mat m p := fun i j => ∑ x, A i x * B x j

/-- `torch.matmul` for each head, where a single head is broadcast. -/
def bmm {m n p : ℕ} (A : List (Mat m n)) (B : List (Mat n p)) : Except Err (List (Mat m p)) :=
  if A.length = B.length then .ok (List.zipWith mm A B)
  else if A.length = 1 then .ok (B.flatMap fun b => A.map (mm · b))
  else if B.length = 1 then .ok (A.flatMap fun a => B.map (mm a))
  else .error .shape

/-- `repeat_interleave` along the heads. -/
def repeatInterleave {α : Type} (n : ℕ) (l : List α) : List α := l.flatMap (List.replicate n)

/-- `enable_gqa` in `scaled_dot_product_attention_math` (229-235). -/
def repeatKV {L S E Ev : ℕ} (gqa strict : Bool) (q : List (Mat L E)) (k : List (Mat S E)) (v : List (Mat S Ev)) : Except Err (List (Mat S E) × List (Mat S Ev)) :=
  if gqa then
    if strict then .error .strictGqa
    else if k.length = 0 ∨ v.length = 0 then .error .zeroDivision
    else .ok (repeatInterleave (q.length / k.length) k, repeatInterleave (q.length / v.length) v)
  else .ok (k, v)

/-- `scale_factor` and `scale_factor_sqrt` (238-239). -/
def scaleSqrt (E : ℕ) (scale : Option ℝ) : Except Err ℝ :=
  match scale with
  | none => if E = 0 then .error .zeroDivision else .ok (Real.sqrt (1 / Real.sqrt E))
  | some s => if s < 0 then .error .domain else .ok (Real.sqrt s)

/-- `_get_quantized_attn_bias` without the quantizer (299-334). -/
def attnBias {L S : ℕ} (negInf : Option ℝ) (causal : Bool) (mask : Mask L S) : Except Err (ℕ → XMat L S) :=
  match mask, causal with
  | .bool _, true | .float _, true => .error .maskAndCausal
  | .bool b, false => .ok fun h l s => if b h l s then some 0 else negInf
  | .float b, false => .ok b
  | .absent, true => .ok fun _ l s => if s.val ≤ l.val then some 0 else negInf
  | .absent, false => .ok fun _ _ _ => some 0

/-- `functional.softmax` of a row. `nan` stands for what a row of minus infinities gives. -/
def softmax {S : ℕ} (nan : ℝ) (t : Fin S → Option ℝ) : Fin S → ℝ := fun s =>
  if ∀ s, t s = none then nan
  else
    match t s with
    | none => 0
    | some x => Real.exp x / ∑ s', (match t s' with | none => 0 | some y => Real.exp y)

/-- `_quantized_safe_softmax` without the quantizer (337-360). -/
def safeSoftmax {S : ℕ} (nan : ℝ) (negInf : Option ℝ) (t : Fin S → Option ℝ) : Fin S → ℝ :=
  let masked : Fin S → Prop := fun s =>
    match negInf, t s with
    | none, x => x = none
    | some _, none => True
    | some n, some x => x ≤ n
  if ∀ s, masked s then fun _ => 0 else softmax nan t

/-- `scaled_dot_product_attention_math` (126-296), for one batch. Simplifications: `strict_quantization` only where it is looked at; that operators need
quantizers if it is set is left to the operators; no conversion of types. -/
def math {L S E Ev : ℕ} (Q : Quantizers L S E Ev) (nan : ℝ) (negInf : Option ℝ) (strict gqa causal : Bool) (mask : Mask L S) (scale : Option ℝ)
    (q : List (Mat L E)) (k : List (Mat S E)) (v : List (Mat S Ev)) : Except Err (List (Mat L Ev)) := do
  let (k, v) ← repeatKV gqa strict q k v
  let r ← scaleSqrt E scale
  let q := Q.query (q.map fun A l e => A l e * r)
  let k := Q.key (k.map fun A e s => A s e * r)
  let scores ← bmm q k
  let scores := Q.scores scores
  let bias ← attnBias negInf causal mask
  let bias := Q.bias bias
  let masked := Q.masked (scores.mapIdx fun h A l s => (bias h l s).map (A l s + ·))
  let weights := Q.weights (masked.map fun A l => safeSoftmax nan negInf (A l))
  let out ← bmm weights v
  return Q.output out

/-- `scaled_dot_product_attention` (22-123): `torchSdpa` is what `_torch_sdpa_fallback` gives or raises, `active` whether some quantizer is. -/
def sdpa {α ε : Type} (strict fallback active : Bool) (torchSdpa mathSdpa : Except ε α) : Except ε α := do
  if !strict && fallback && !active then
    let _ ← torchSdpa
  mathSdpa

/-! ### Specification -/

/-- Attention of one query to those positions that have a score: the average of the values, weighted by the exponentials of the scores; zero if there is no
such position. -/
def Average {S Ev : ℕ} (score : Fin S → Option ℝ) (v : Mat S Ev) (j : Fin Ev) : ℝ :=
  (∑ s, (match score s with | none => 0 | some x => Real.exp x * v s j)) / ∑ s, (match score s with | none => 0 | some x => Real.exp x)

/-- What the mask adds to the score of position `s` for row `l`, if it may be attended to. -/
def addend {L S : ℕ} (causal : Bool) (mask : Mask L S) (h : ℕ) (l : Fin L) (s : Fin S) : Option ℝ :=
  match mask with
  | .absent => if causal && decide (l.val < s.val) then none else some 0
  | .bool b => if b h l s then some 0 else none
  | .float b => b h l s

/-- The scale is that given or one over the root of the size of the embedding. -/
def scaleOf (E : ℕ) (scale : Option ℝ) : ℝ := scale.getD (1 / Real.sqrt E)

/-- The arguments are such that attention is defined. -/
structure Valid {L S E Ev : ℕ} (gqa causal : Bool) (mask : Mask L S) (scale : Option ℝ) (q : List (Mat L E)) (k : List (Mat S E)) (v : List (Mat S Ev)) (n : ℕ) : Prop where
  /-- Each head of keys and values serves `n` heads of queries; one, unless grouped queries are enabled. -/
  heads : q.length = k.length * n
  values : v.length = k.length
  pos : 0 < n ∧ 0 < k.length
  grouped : gqa = false → n = 1
  size : scale = none → 0 < E
  scale : ∀ s, scale = some s → 0 ≤ s
  mask : causal = true → mask = .absent

/-- A quantizer that treats every element for itself, by its position. -/
def Elementwise {m n : ℕ} (Q : List (Mat m n) → List (Mat m n)) (g : ℕ → Fin m → Fin n → ℝ → ℝ) : Prop :=
  ∀ t : List (Mat m n), (Q t).length = t.length ∧ ∀ (h : ℕ) (A : Mat m n), t[h]? = some A → (Q t)[h]? = some fun i j => g h i j (A i j)

/-! ### Lemmas -/

theorem repeat_length {α : Type} (n : ℕ) (l : List α) : (repeatInterleave n l).length = l.length * n := by
  induction l with
  | nil => simp [repeatInterleave]
  | cons a l ih =>
    simp only [repeatInterleave, List.flatMap_cons, List.length_append, List.length_replicate, List.length_cons] at ih ⊢
    rw [ih, Nat.succ_mul]
    omega

theorem repeat_get {α : Type} {n : ℕ} (hn : 0 < n) (l : List α) (i : ℕ) : (repeatInterleave n l)[i]? = l[i / n]? := by
  induction l generalizing i with
  | nil => simp [repeatInterleave]
  | cons a l ih =>
    simp only [repeatInterleave, List.flatMap_cons] at ih ⊢
    by_cases hi : i < n
    · rw [List.getElem?_append_left (by simpa using hi), Nat.div_eq_of_lt hi]
      simp [hi]
    · rw [List.getElem?_append_right (by simpa using hi), List.length_replicate, ih, ← List.getElem?_cons_succ (a := a) (l := l)]
      congr 1
      have : i = (i - n) + n := by omega
      conv_rhs => rw [this]
      rw [Nat.add_div_right _ hn]

theorem repeatKV_ok {L S E Ev : ℕ} {gqa causal : Bool} {mask : Mask L S} {scale : Option ℝ} {q : List (Mat L E)} {k : List (Mat S E)} {v : List (Mat S Ev)} {n : ℕ}
    (hv : Valid gqa causal mask scale q k v n) : ∃ k' v', repeatKV gqa false q k v = .ok (k', v') ∧ k'.length = q.length ∧ v'.length = q.length ∧
      ∀ h, k'[h]? = k[h / n]? ∧ v'[h]? = v[h / n]? := by
  unfold repeatKV
  cases gqa with
  | false =>
    have h1 := hv.grouped rfl
    subst h1
    refine ⟨k, v, rfl, by simp [hv.heads], by simp [hv.heads, hv.values], fun h => by simp⟩
  | true =>
    have hk : k.length ≠ 0 := Nat.ne_of_gt hv.pos.2
    have hd : q.length / k.length = n := by rw [hv.heads, Nat.mul_div_cancel_left _ hv.pos.2]
    simp only [if_true, Bool.false_eq_true, if_false, hv.values, hk, or_self, hd]
    refine ⟨_, _, rfl, by rw [repeat_length, hv.heads], by rw [repeat_length, hv.values, hv.heads], fun h => ⟨repeat_get hv.pos.1 _ _, repeat_get hv.pos.1 _ _⟩⟩

theorem scaleSqrt_ok {L S E Ev : ℕ} {gqa causal : Bool} {mask : Mask L S} {scale : Option ℝ} {q : List (Mat L E)} {k : List (Mat S E)} {v : List (Mat S Ev)} {n : ℕ}
    (hv : Valid gqa causal mask scale q k v n) : scaleSqrt E scale = .ok (Real.sqrt (scaleOf E scale)) ∧ 0 ≤ scaleOf E scale := by
  unfold scaleSqrt scaleOf
  cases scale with
  | none =>
    have := hv.size rfl
    rw [if_neg (Nat.ne_of_gt this)]
    exact ⟨rfl, by simp⟩
  | some s =>
    have := hv.scale s rfl
    simp only [not_lt.2 this, if_false]
    exact ⟨rfl, this⟩

theorem attnBias_ok {L S : ℕ} {causal : Bool} {mask : Mask L S} (hm : causal = true → mask = .absent) : attnBias none causal mask = .ok (addend causal mask) := by
  unfold attnBias
  cases causal with
  | true =>
    rw [hm rfl]
    simp only [Except.ok.injEq]
    funext h l s
    simp only [addend, Bool.true_and, decide_eq_true_eq]
    by_cases hs : s.val ≤ l.val
    · rw [if_pos hs, if_neg (by omega)]
    · rw [if_neg hs, if_pos (by omega)]
  | false =>
    cases mask with
    | absent =>
      simp only [Except.ok.injEq]
      funext h l s
      simp [addend]
    | bool b =>
      simp only [Except.ok.injEq]
      funext h l s
      simp only [addend]
    | float b => rfl

theorem bmm_eq {m n p : ℕ} {A : List (Mat m n)} {B : List (Mat n p)} (h : A.length = B.length) : bmm A B = .ok (List.zipWith mm A B) := by
  rw [bmm, if_pos h]

/-- The weights of a row with these scores. -/
def weight {S : ℕ} (t : Fin S → Option ℝ) (s : Fin S) : ℝ :=
  match t s with
  | none => 0
  | some x => Real.exp x / ∑ s', (match t s' with | none => 0 | some y => Real.exp y)

theorem safeSoftmax_eq {S : ℕ} (nan : ℝ) (t : Fin S → Option ℝ) : safeSoftmax nan none t = weight t := by
  unfold safeSoftmax
  simp only
  split
  · rename_i h
    funext s
    simp [weight, h s]
  · rename_i h
    funext s
    rw [softmax, if_neg h, weight]

theorem weight_sum {S Ev : ℕ} (t : Fin S → Option ℝ) (v : Mat S Ev) (j : Fin Ev) : ∑ s, weight t s * v s j = Average t v j := by
  unfold Average
  rw [Finset.sum_div]
  refine Finset.sum_congr rfl fun s _ => ?_
  unfold weight
  cases t s with
  | none => simp
  | some x => simp only; ring

/-- The result, head by head, for quantizers that treat every element for itself. -/
theorem math_eq {L S E Ev : ℕ} {Q : Quantizers L S E Ev} {gq gk gs gw go} (hq : Elementwise Q.query gq) (hk : Elementwise Q.key gk) (hs : Elementwise Q.scores gs)
    (hw : Elementwise Q.weights gw) (ho : Elementwise Q.output go) (hb : Q.bias = id) (hm : Q.masked = id)
    {gqa causal : Bool} {mask : Mask L S} {scale : Option ℝ} {q : List (Mat L E)} {k : List (Mat S E)} {v : List (Mat S Ev)} {n : ℕ}
    (hv : Valid gqa causal mask scale q k v n) (nan : ℝ) :
    ∃ out, math Q nan none false gqa causal mask scale q k v = .ok out ∧ out.length = q.length ∧
      ∀ (h : ℕ) (A : Mat L E) (B : Mat S E) (C : Mat S Ev), q[h]? = some A → k[h / n]? = some B → v[h / n]? = some C → out[h]? = some fun l j =>
        go h l j (∑ s, gw h l s (weight (fun s => (addend causal mask h l s).map
          (gs h l s (∑ e, gq h l e (A l e * Real.sqrt (scaleOf E scale)) * gk h e s (B s e * Real.sqrt (scaleOf E scale))) + ·)) s) * C s j) := by
  obtain ⟨k', v', hr, hkl, hvl, hget⟩ := repeatKV_ok hv
  unfold math
  simp only [bind, Except.bind, pure, Except.pure, hr, (scaleSqrt_ok hv).1, attnBias_ok hv.mask, hb, hm, id, safeSoftmax_eq]
  generalize Real.sqrt (scaleOf E scale) = r
  have lq := (hq (q.map fun A l e => A l e * r)).1
  have lk := (hk (k'.map fun A e s => A s e * r)).1
  rw [List.length_map] at lq lk
  rw [bmm_eq (by rw [lq, lk, hkl])]
  simp only
  set sc := List.zipWith mm (Q.query (q.map fun A l e => A l e * r)) (Q.key (k'.map fun A e s => A s e * r)) with hsc
  have lsc : sc.length = q.length := by rw [hsc, List.length_zipWith, lq, lk, hkl, Nat.min_self]
  have lqs := (hs sc).1
  set mk := (Q.scores sc).mapIdx fun h A l s => (addend causal mask h l s).map (A l s + ·) with hmk
  have lmk : mk.length = q.length := by rw [hmk, List.length_mapIdx, lqs, lsc]
  have lw := (hw (mk.map fun A l => weight (A l))).1
  rw [List.length_map, lmk] at lw
  rw [bmm_eq (by rw [lw, hvl])]
  have lz : (List.zipWith mm (Q.weights (mk.map fun A l => weight (A l))) v').length = q.length := by rw [List.length_zipWith, lw, hvl, Nat.min_self]
  refine ⟨_, rfl, by rw [(ho _).1, lz], fun h A B C hA hB hC => ?_⟩
  obtain ⟨gk1, gv1⟩ := hget h
  rw [hB] at gk1
  rw [hC] at gv1
  have e1 := (hq (q.map fun A l e => A l e * r)).2 h _ (by rw [List.getElem?_map, hA]; rfl)
  have e2 := (hk (k'.map fun A e s => A s e * r)).2 h _ (by rw [List.getElem?_map, gk1]; rfl)
  have e3 : sc[h]? = some (mm (fun l e => gq h l e (A l e * r)) fun e s => gk h e s (B s e * r)) := by
    rw [hsc, List.getElem?_zipWith_eq_some]
    exact ⟨_, _, e1, e2, rfl⟩
  have e4 := (hs sc).2 h _ e3
  have e5 : mk[h]? = some fun l s => (addend causal mask h l s).map (gs h l s (mm (fun l e => gq h l e (A l e * r)) (fun e s => gk h e s (B s e * r)) l s) + ·) := by
    rw [hmk, List.getElem?_mapIdx, e4]
    rfl
  have e6 := (hw (mk.map fun A l => weight (A l))).2 h _ (by rw [List.getElem?_map, e5]; rfl)
  have e7 : (List.zipWith mm (Q.weights (mk.map fun A l => weight (A l))) v')[h]? = some _ :=
    List.getElem?_zipWith_eq_some.2 ⟨_, _, e6, gv1, rfl⟩
  rw [(ho _).2 h _ e7]
  rfl

theorem elementwise_id {m n : ℕ} : Elementwise (m := m) (n := n) id fun _ _ _ x => x := fun _ => ⟨rfl, fun _ _ h => h⟩

/-! ### Properties -/

/-- **C90.** Without quantizers, the result is attention: for each head of queries and each row, the average of the values of the head that serves it, weighted
by the exponentials of the scaled products of query and keys plus the mask; zero where everything is masked. -/
theorem is_attention {L S E Ev : ℕ} (gqa causal : Bool) (mask : Mask L S) (scale : Option ℝ) (q : List (Mat L E)) (k : List (Mat S E)) (v : List (Mat S Ev)) (n : ℕ)
    (hv : Valid gqa causal mask scale q k v n) (nan : ℝ) :
    ∃ out, math {} nan none false gqa causal mask scale q k v = .ok out ∧ out.length = q.length ∧
      ∀ (h : ℕ) (A : Mat L E) (B : Mat S E) (C : Mat S Ev), q[h]? = some A → k[h / n]? = some B → v[h / n]? = some C → out[h]? = some fun l j =>
        Average (fun s => (addend causal mask h l s).map fun b => scaleOf E scale * (∑ e, A l e * B s e) + b) C j := by
  obtain ⟨out, h1, h2, h3⟩ := math_eq (Q := ({} : Quantizers L S E Ev)) elementwise_id elementwise_id elementwise_id elementwise_id elementwise_id rfl rfl hv nan
  refine ⟨out, h1, h2, fun h A B C hA hB hC => ?_⟩
  rw [h3 h A B C hA hB hC]
  congr 1
  funext l j
  rw [weight_sum]
  congr 1
  funext s
  congr 1
  funext b
  congr 1
  rw [Finset.mul_sum]
  refine Finset.sum_congr rfl fun e _ => ?_
  have := Real.mul_self_sqrt (scaleSqrt_ok hv).2
  calc A l e * Real.sqrt (scaleOf E scale) * (B s e * Real.sqrt (scaleOf E scale))
      = (Real.sqrt (scaleOf E scale) * Real.sqrt (scaleOf E scale)) * (A l e * B s e) := by ring
    _ = scaleOf E scale * (A l e * B s e) := by rw [this]

/-- **C90 (partial).** Keys and values that are masked for a row do not affect it, also with quantizers that treat every element for itself, if that of the
weights keeps zero.

Missing: quantizers of the mask or of the masked scores, see the deviations, and those that depend on all elements. -/
theorem masked_irrelevant_partial {L S E Ev : ℕ} {Q : Quantizers L S E Ev} {gq gk gs gw go} (hq : Elementwise Q.query gq) (hk : Elementwise Q.key gk)
    (hs : Elementwise Q.scores gs) (hw : Elementwise Q.weights gw) (ho : Elementwise Q.output go) (hb : Q.bias = id) (hm : Q.masked = id)
    (hzero : ∀ h l s, gw h l s 0 = 0)
    (gqa causal : Bool) (mask : Mask L S) (scale : Option ℝ) (q : List (Mat L E)) (k k' : List (Mat S E)) (v v' : List (Mat S Ev)) (n : ℕ)
    (hv : Valid gqa causal mask scale q k v n) (hv' : Valid gqa causal mask scale q k' v' n) (nan : ℝ) (out out' : List (Mat L Ev))
    (h1 : math Q nan none false gqa causal mask scale q k v = .ok out) (h2 : math Q nan none false gqa causal mask scale q k' v' = .ok out')
    (h : ℕ) (l : Fin L) (B B' : Mat S E) (C C' : Mat S Ev)
    (hB : k[h / n]? = some B) (hB' : k'[h / n]? = some B') (hC : v[h / n]? = some C) (hC' : v'[h / n]? = some C')
    (hsame : ∀ s, addend causal mask h l s ≠ none → B s = B' s ∧ C s = C' s) :
    (out[h]?.map fun o => o l) = out'[h]?.map fun o => o l := by
  obtain ⟨o1, e1, l1, g1⟩ := math_eq hq hk hs hw ho hb hm hv nan
  obtain ⟨o2, e2, l2, g2⟩ := math_eq hq hk hs hw ho hb hm hv' nan
  rw [h1] at e1
  rw [h2] at e2
  cases e1
  cases e2
  by_cases hh : h < q.length
  · obtain ⟨A, hA⟩ : ∃ A, q[h]? = some A := ⟨_, List.getElem?_eq_getElem hh⟩
    rw [g1 h A B C hA hB hC, g2 h A B' C' hA hB' hC']
    simp only [Option.map_some, Option.some.injEq]
    funext j
    congr 1
    have hscore : (fun s => (addend causal mask h l s).map
          (gs h l s (∑ e, gq h l e (A l e * Real.sqrt (scaleOf E scale)) * gk h e s (B s e * Real.sqrt (scaleOf E scale))) + ·)) =
        fun s => (addend causal mask h l s).map
          (gs h l s (∑ e, gq h l e (A l e * Real.sqrt (scaleOf E scale)) * gk h e s (B' s e * Real.sqrt (scaleOf E scale))) + ·) := by
      funext s
      cases ha : addend causal mask h l s with
      | none => rfl
      | some b => rw [(hsame s (by simp [ha])).1]
    rw [hscore]
    refine Finset.sum_congr rfl fun s _ => ?_
    cases ha : addend causal mask h l s with
    | none =>
      have : weight (fun s => (addend causal mask h l s).map
          (gs h l s (∑ e, gq h l e (A l e * Real.sqrt (scaleOf E scale)) * gk h e s (B' s e * Real.sqrt (scaleOf E scale))) + ·)) s = 0 := by
        simp [weight, ha]
      rw [this, hzero, zero_mul, zero_mul]
    | some b => rw [(hsame s (by simp [ha])).2]
  · rw [List.getElem?_eq_none (by omega), List.getElem?_eq_none (by omega)]

/-- **C90 (partial).** With `is_causal`, a row depends on the keys and values up to its own position only.

Missing: as for `masked_irrelevant_partial`. -/
theorem causal_partial {L S E Ev : ℕ} {Q : Quantizers L S E Ev} {gq gk gs gw go} (hq : Elementwise Q.query gq) (hk : Elementwise Q.key gk)
    (hs : Elementwise Q.scores gs) (hw : Elementwise Q.weights gw) (ho : Elementwise Q.output go) (hb : Q.bias = id) (hm : Q.masked = id)
    (hzero : ∀ h l s, gw h l s 0 = 0)
    (gqa : Bool) (scale : Option ℝ) (q : List (Mat L E)) (k k' : List (Mat S E)) (v v' : List (Mat S Ev)) (n : ℕ)
    (hv : Valid gqa true .absent scale q k v n) (hv' : Valid gqa true .absent scale q k' v' n) (nan : ℝ) (out out' : List (Mat L Ev))
    (h1 : math Q nan none false gqa true .absent scale q k v = .ok out) (h2 : math Q nan none false gqa true .absent scale q k' v' = .ok out')
    (h : ℕ) (l : Fin L) (B B' : Mat S E) (C C' : Mat S Ev)
    (hB : k[h / n]? = some B) (hB' : k'[h / n]? = some B') (hC : v[h / n]? = some C) (hC' : v'[h / n]? = some C')
    (hsame : ∀ s : Fin S, s.val ≤ l.val → B s = B' s ∧ C s = C' s) :
    (out[h]?.map fun o => o l) = out'[h]?.map fun o => o l := by
  refine masked_irrelevant_partial hq hk hs hw ho hb hm hzero gqa true .absent scale q k k' v v' n hv hv' nan out out' h1 h2 h l B B' C C' hB hB' hC hC' fun s ha => ?_
  refine hsame s (Nat.le_of_not_lt fun hlt => ha ?_)
  simp [addend, hlt]

theorem attention_bounds {S Ev : ℕ} {score : Fin S → Option ℝ} {v : Mat S Ev} {j : Fin Ev} (hne : ∃ s, score s ≠ none) {a b : ℝ}
    (hab : ∀ s, score s ≠ none → a ≤ v s j ∧ v s j ≤ b) : a ≤ Average score v j ∧ Average score v j ≤ b := by
  unfold Average
  have hpos : 0 < ∑ s, (match score s with | none => 0 | some x => Real.exp x) := by
    refine Finset.sum_pos' (fun s _ => ?_) ?_
    · cases score s with
      | none => exact le_refl _
      | some x => exact (Real.exp_pos x).le
    · obtain ⟨s, hs⟩ := hne
      refine ⟨s, Finset.mem_univ _, ?_⟩
      cases h : score s with
      | none => exact absurd h hs
      | some x => exact Real.exp_pos x
  constructor
  · rw [le_div_iff₀ hpos, Finset.mul_sum]
    refine Finset.sum_le_sum fun s _ => ?_
    cases h : score s with
    | none => simp
    | some x =>
      have := (hab s (by simp [h])).1
      have hx := (Real.exp_pos x).le
      simp only
      rw [mul_comm]
      exact mul_le_mul_of_nonneg_left this hx
  · rw [div_le_iff₀ hpos, Finset.mul_sum]
    refine Finset.sum_le_sum fun s _ => ?_
    cases h : score s with
    | none => simp
    | some x =>
      have := (hab s (by simp [h])).2
      have hx := (Real.exp_pos x).le
      simp only
      rw [mul_comm b]
      exact mul_le_mul_of_nonneg_left this hx

/-- **C90.** Without quantizers every element of the result lies within the values that its row attends to, and a row that attends to nothing is zero. -/
theorem within_values {L S E Ev : ℕ} (gqa causal : Bool) (mask : Mask L S) (scale : Option ℝ) (q : List (Mat L E)) (k : List (Mat S E)) (v : List (Mat S Ev)) (n : ℕ)
    (hv : Valid gqa causal mask scale q k v n) (nan : ℝ) (out : List (Mat L Ev)) (hout : math {} nan none false gqa causal mask scale q k v = .ok out)
    (h : ℕ) (O : Mat L Ev) (C : Mat S Ev) (hO : out[h]? = some O) (hC : v[h / n]? = some C) (l : Fin L) (j : Fin Ev) :
    ((∀ s, addend causal mask h l s = none) → O l j = 0) ∧
    ∀ a b : ℝ, (∃ s, addend causal mask h l s ≠ none) → (∀ s, addend causal mask h l s ≠ none → a ≤ C s j ∧ C s j ≤ b) → a ≤ O l j ∧ O l j ≤ b := by
  obtain ⟨out', h1, h2, h3⟩ := is_attention gqa causal mask scale q k v n hv nan
  rw [hout] at h1
  cases h1
  have hh : h < q.length := by rw [← h2]; exact (List.getElem?_eq_some_iff.1 hO).1
  have hk : h / n < k.length := by rw [← hv.values]; exact (List.getElem?_eq_some_iff.1 hC).1
  have := h3 h _ _ C (List.getElem?_eq_getElem hh) (List.getElem?_eq_getElem hk) hC
  rw [hO] at this
  cases this
  refine ⟨fun hall => ?_, fun a b hne hab => attention_bounds ?_ ?_⟩
  · simp [Average, hall]
  · obtain ⟨s, hs⟩ := hne
    exact ⟨s, by simpa using hs⟩
  · intro s hs
    exact hab s (by simpa using hs)

/-- **C90.** A mask together with `is_causal` is refused, and so are grouped queries under strict quantization. -/
theorem refused {L S E Ev : ℕ} (Q : Quantizers L S E Ev) (nan : ℝ) (negInf : Option ℝ) (strict gqa : Bool) (mask : Mask L S) (scale : Option ℝ)
    (q : List (Mat L E)) (k : List (Mat S E)) (v : List (Mat S Ev)) (out : List (Mat L Ev)) :
    (mask ≠ .absent → math Q nan negInf strict gqa true mask scale q k v ≠ .ok out) ∧
    ∀ causal, math Q nan negInf true true causal mask scale q k v = .error .strictGqa := by
  refine ⟨fun hm h => ?_, fun causal => by simp [math, repeatKV, bind, Except.bind]⟩
  have hb : attnBias negInf true mask = .error .maskAndCausal := by
    cases mask with
    | absent => exact absurd rfl hm
    | bool b => rfl
    | float b => rfl
  unfold math at h
  simp only [bind, Except.bind, hb] at h
  split at h
  · simp at h
  · split at h
    · simp at h
    · split at h <;> simp at h

/-- **C90.** Whether the fall back to torch is allowed makes no difference to the result if torch's gives a result at all. -/
theorem fallback_same {α ε : Type} (strict active : Bool) (t m : Except ε α) (x : α) (ht : t = .ok x) (fallback : Bool) :
    sdpa strict fallback active t m = sdpa strict false active t m := by
  subst ht
  unfold sdpa
  cases strict <;> cases fallback <;> cases active <;> rfl

/-! ### Deviations -/

/-- One head, one query, two keys, all zero, and these values. -/
def two (negInf : Option ℝ) (Q : Quantizers 1 2 1 1) (x y : ℝ) : Except Err (List (Mat 1 1)) :=
  math Q 0 negInf false false false (.bool fun _ _ s => s.val == 0) (some 1) [fun _ _ => 0] [fun _ _ => 0] [fun s _ => if s.val = 0 then x else y]

theorem two_finite {n : ℝ} (hn : n < 0) (x y : ℝ) : two (some n) {} x y = .ok [fun _ _ => (x + Real.exp n * y) / (1 + Real.exp n)] := by
  have hne : ¬ (0 : ℝ) ≤ n := not_le.2 hn
  simp only [two, math, repeatKV, scaleSqrt, attnBias, bind, Except.bind, pure, Except.pure, bmm, Bool.false_eq_true, if_false, not_lt.2 zero_le_one, id]
  simp only [List.zipWith_cons_cons, List.zipWith_nil_right, List.map_cons, List.map_nil, List.length_cons, List.length_nil, if_true, List.mapIdx_cons, List.mapIdx_nil,
    Except.ok.injEq, List.cons.injEq, and_true]
  funext i j
  simp [mm, safeSoftmax, softmax, hne]
  ring

theorem two_quantized (n : ℝ) (x y : ℝ) :
    two none { bias := fun b h l s => some ((b h l s).getD n) } x y = .ok [fun _ _ => (x + Real.exp n * y) / (1 + Real.exp n)] := by
  simp only [two, math, repeatKV, scaleSqrt, attnBias, bind, Except.bind, pure, Except.pure, bmm, Bool.false_eq_true, if_false, not_lt.2 zero_le_one, id]
  simp only [List.zipWith_cons_cons, List.zipWith_nil_right, List.map_cons, List.map_nil, List.length_cons, List.length_nil, if_true, List.mapIdx_cons, List.mapIdx_nil,
    Except.ok.injEq, List.cons.injEq, and_true]
  funext i j
  simp [mm, safeSoftmax, softmax]
  ring

/-- **C90, deviation.** With a finite `neg_inf`, masked keys and values affect the result: the second position is masked, yet its value counts. -/
theorem finite_neg_inf_leaks (n : ℝ) (hn : n < 0) (x y y' : ℝ) (hy : y ≠ y') : two (some n) {} x y ≠ two (some n) {} x y' := by
  rw [two_finite hn, two_finite hn]
  intro h
  have h := congrFun (congrFun (List.head_eq_of_cons_eq (Except.ok.inj h)) 0) 0
  have hp : (0 : ℝ) < 1 + Real.exp n := by positivity
  simp only [div_left_inj' hp.ne', add_right_inj, mul_eq_mul_left_iff, (Real.exp_pos n).ne', or_false] at h
  exact hy h

/-- **C90, deviation.** So they do with a quantizer for the mask, which has to give a number for minus infinity. -/
theorem mask_quantizer_leaks (n x y y' : ℝ) (hy : y ≠ y') :
    two none { bias := fun b h l s => some ((b h l s).getD n) } x y ≠ two none { bias := fun b h l s => some ((b h l s).getD n) } x y' := by
  rw [two_quantized, two_quantized]
  intro h
  have h := congrFun (congrFun (List.head_eq_of_cons_eq (Except.ok.inj h)) 0) 0
  have hp : (0 : ℝ) < 1 + Real.exp n := by positivity
  simp only [div_left_inj' hp.ne', add_right_inj, mul_eq_mul_left_iff, (Real.exp_pos n).ne', or_false] at h
  exact hy h

/-- **C90, deviation.** With a finite `neg_inf`, a row for which everything is masked is not zero if a score is positive: here it is the masked value. -/
theorem finite_neg_inf_row (n x : ℝ) :
    math (L := 1) (S := 1) (E := 1) (Ev := 1) {} 0 (some n) false false false (.bool fun _ _ _ => false) (some 1) [fun _ _ => 1] [fun _ _ => 1] [fun _ _ => x] =
      .ok [fun _ _ => x] := by
  simp only [math, repeatKV, scaleSqrt, attnBias, bind, Except.bind, pure, Except.pure, bmm, Bool.false_eq_true, if_false, not_lt.2 zero_le_one, id]
  simp only [List.zipWith_cons_cons, List.zipWith_nil_right, List.map_cons, List.map_nil, List.length_cons, List.length_nil, if_true, List.mapIdx_cons, List.mapIdx_nil,
    Except.ok.injEq, List.cons.injEq, and_true]
  funext i j
  have : ¬ ((1 : ℝ) ≤ 0) := not_le.2 one_pos
  simp [mm, safeSoftmax, this]
  simp [softmax]

/-- **C90, deviation.** A negative scale is refused, although attention is defined for it. -/
theorem negative_scale_refused {L S E Ev : ℕ} (Q : Quantizers L S E Ev) (nan : ℝ) (negInf : Option ℝ) (causal : Bool) (mask : Mask L S) (x : ℝ) (hx : x < 0)
    (q : List (Mat L E)) (k : List (Mat S E)) (v : List (Mat S Ev)) : math Q nan negInf false false causal mask (some x) q k v = .error .domain := by
  simp [math, repeatKV, scaleSqrt, bind, Except.bind, hx]

/-- **C90, deviation.** What torch's function gives is never the result, and if it fails so does the call. -/
theorem fallback_discarded {α ε : Type} (x : α) (e : ε) (m : Except ε α) : sdpa false true false (.ok x) m = m ∧ sdpa false true false (.error e) m = .error e :=
  ⟨rfl, rfl⟩

/-- **C90, deviation.** Grouped queries with a single head of queries and more heads of keys and values are not refused: the result has no heads. -/
theorem no_heads {L S E Ev : ℕ} (q : Mat L E) (k : List (Mat S E)) (v : List (Mat S Ev)) (hk : 2 ≤ k.length) (hv : 2 ≤ v.length) (nan : ℝ) (causal : Bool) :
    math {} nan none false true causal .absent (some 1) [q] k v = .ok [] := by
  have h1 : 1 / k.length = 0 := Nat.div_eq_of_lt hk
  have h2 : 1 / v.length = 0 := Nat.div_eq_of_lt hv
  have hr : ∀ {α : Type} (l : List α), repeatInterleave 0 l = [] := fun l => by simp [repeatInterleave]
  cases causal <;> simp [math, repeatKV, scaleSqrt, attnBias, bind, Except.bind, pure, Except.pure, bmm, h1, h2, hr, not_lt.2 (zero_le_one (α := ℝ)),
    show k ≠ [] by rintro rfl; simp at hk, show v ≠ [] by rintro rfl; simp at hv]

/-! ### Concrete cases -/

/-- Four heads of queries on two of keys and values, causal. -/
theorem sample_valid : Valid (L := 3) (S := 3) (E := 2) (Ev := 2) true true .absent none [fun _ _ => 1, fun _ _ => 2, fun _ _ => 3, fun _ _ => 4]
    [fun _ _ => 1, fun _ _ => 2] [fun s _ => s.val, fun _ _ => 2] 2 :=
  ⟨rfl, rfl, by simp, by simp, by simp, by simp, by simp⟩

example : ∃ out : List (Mat 3 2), math (S := 3) (E := 2) {} 0 none false true true .absent none [fun _ _ => 1, fun _ _ => 2, fun _ _ => 3, fun _ _ => 4]
    [fun _ _ => 1, fun _ _ => 2] [fun s _ => s.val, fun _ _ => 2] = .ok out ∧ ∃ O, out[1]? = some O ∧ O 1 0 = 1 / 2 := by
  obtain ⟨out, h1, _, h3⟩ := is_attention true true .absent none _ _ _ 2 sample_valid 0
  refine ⟨out, h1, _, h3 1 _ _ _ rfl rfl rfl, ?_⟩
  simp [Average, addend, Fin.sum_univ_three]
  rw [← one_div, div_eq_div_iff (by positivity) (by norm_num)]
  ring

/-- A quantizer that rounds, for the theorems about quantizers. -/
example : Elementwise (m := 2) (n := 2) (List.map fun A i j => (⌊A i j⌋ : ℝ)) fun _ _ _ x => ⌊x⌋ :=
  fun t => ⟨by simp, fun h A hA => by rw [List.getElem?_map, hA]; rfl⟩

end

end FF.Attention
