/-
Range estimation by searching a grid of candidate ranges: range_setting/min_error.py.

Simplifications:
* numbers are elements of an ordered field; `floor(sqrt(n))` is the integer square root;
* the error of a batch for a candidate range — quantizing, dequantizing, comparing — is an arbitrary
  function that gives one number for each parameter;
* of several minimal errors `torch.min` may return any index; the model takes the first.
-/
import Verif.RangeSetting.MinMax
import Mathlib.Algebra.BigOperators.Group.List.Basic
import Mathlib.Data.List.Induction
import Mathlib.Tactic.Linarith
import Mathlib.Tactic.FieldSimp

set_option linter.unusedSectionVars false

namespace FF.MinError

variable {K : Type} [Field K] [LinearOrder K] [IsStrictOrderedRing K] {B : Type}

/-! ## Model: the search grid -/

/-- `torch.linspace(a, b, n)`. -/
def linspace (a b : K) (n : Nat) : List K :=
  (List.range n).map (fun i : Nat => if n = 1 then a else a + (b - a) * (i : K) / ((n - 1 : Nat) : K))

/-- `steps.unsqueeze(1) * row.unsqueeze(0)`. -/
def outer (steps row : List K) : List (List K) := steps.map (fun s => row.map (fun x => s * x))

/-- `t.repeat(k, 1)`. -/
def repeatRows (k : Nat) (t : List (List K)) : List (List K) := (List.replicate k t).flatten

/-- `t.repeat_interleave(k, dim=0)`. -/
def interleaveRows (k : Nat) (t : List (List K)) : List (List K) := t.flatMap (List.replicate k)

/-- `floor(sqrt(n))`, as used in min_error.py:115. -/
def isqrt : Nat → Nat
  | 0 => 0
  | n + 1 => if (isqrt n + 1) ^ 2 ≤ n + 1 then isqrt n + 1 else isqrt n

/-- `_UniformSearchGrid.__call__`: min_error.py:79-142.  `rows` are the tiles of the first batch. -/
def uniformGrid (rel abs : K) (rows : List (List K)) (symmetric : Bool) (n : Nat) :
    List (List K) × List (List K) :=
  let maxData := rows.map (fun row => rel * MinMax.hi row + abs)
  let minData := rows.map (fun row => rel * MinMax.lo row - abs)
  let negative := minData.any (fun x => x < 0)
  if !negative then
    (List.replicate n (List.replicate rows.length 0), outer (linspace (1 / (n : K)) 1 n) maxData)
  else if !symmetric then
    let nMin := isqrt n
    let nMax := nMin + n - nMin ^ 2
    let stepsMin := linspace 1 (6 / 10) nMin
    let stepsMax := linspace (6 / 10) 1 nMax
    let minT := outer stepsMin (minData.map (fun x => rel * x + abs))
    let maxT := outer stepsMax (maxData.map (fun x => rel * x + abs))
    (repeatRows nMax minT, interleaveRows nMin maxT)
  else
    let maxAbs := List.zipWith max (minData.map (fun x => |x|)) (maxData.map (fun x => |x|))
    let maxT := outer (linspace (1 / (n : K)) 1 n) maxAbs
    (maxT.map (fun row => row.map (fun x => -x)), maxT)

/-! ## Model: the estimator -/

/-- The state of `_MinAvgErrorGridEstimator`: thresholds, accumulated errors, number of steps and the
range of the quantizer. -/
structure St (K : Type) where
  minT : List (List K)
  maxT : List (List K)
  cum : List (List K)
  steps : Nat
  range : Option (List K × List K)

/-- `setup_estimator`: min_error.py:190-203. -/
def setup (gen : B → List (List K) × List (List K)) (range : Option (List K × List K)) (b : B) :
    St K :=
  let g := gen b
  ⟨g.1, g.2, g.1.map (fun row => row.map (fun _ => 0)), 0, range⟩

/-- The loop of `estimate_step` from candidate `i` on, `k` candidates: min_error.py:214-223; `none` is
the `IndexError`. -/
def evaluate (err : List K → List K → List K) (minT maxT : List (List K)) :
    Nat → Nat → List (List K) → Option (List (List K))
  | 0, _, cum => some cum
  | k + 1, i, cum =>
    match minT[i]?, maxT[i]? with
    | some lo, some hi =>
      evaluate err minT maxT k (i + 1) (cum.modify i (fun row => List.zipWith (· + ·) row (err lo hi)))
    | _, _ => none

/-- Position and value of the first least element. -/
def argminFrom (i : Nat) (best : Nat × K) : List K → Nat × K
  | [] => best
  | x :: xs => argminFrom (i + 1) (if x < best.2 then (i, x) else best) xs

/-- The position of the least element. -/
def argmin : List K → Nat
  | [] => 0
  | x :: xs => (argminFrom 1 (0, x) xs).1

/-- Column `p` of a matrix. -/
def column (m : List (List K)) (p : Nat) : List K := m.map (fun row => (row[p]?).getD 0)

/-- `_update_quantizer_ranges`: min_error.py:205-211. -/
def select (minT maxT cum : List (List K)) : List K × List K :=
  let params := (minT.head?.getD []).length
  let best := (List.range params).map (fun p => argmin (column cum p))
  (best.mapIdx (fun p i => (((minT[i]?).getD [])[p]?).getD 0),
   best.mapIdx (fun p i => (((maxT[i]?).getD [])[p]?).getD 0))

/-- Whether the update policy asks for an update: min_error.py:226. -/
def wants (policy : Option (Nat → Bool)) (steps : Nat) : Bool :=
  match policy with
  | none => true
  | some f => f steps

/-- `estimate_step`: min_error.py:213-227. -/
def estimateStep (n : Nat) (policy : Option (Nat → Bool)) (err : B → List K → List K → List K)
    (s : St K) (b : B) : Option (St K) :=
  match evaluate (err b) s.minT s.maxT n 0 s.cum with
  | none => none
  | some cum =>
    let steps := s.steps + 1
    some { s with cum := cum, steps := steps,
                  range := if wants policy steps then some (select s.minT s.maxT cum) else s.range }

/-- `SimpleEstimatorStep.forward` over a sequence of batches: common.py:197-219; the first batch sets
up the grid. -/
def run (n : Nat) (policy : Option (Nat → Bool)) (gen : B → List (List K) × List (List K))
    (err : B → List K → List K → List K) (range : Option (List K × List K)) :
    List B → Option (St K)
  | [] => some ⟨[], [], [], 0, range⟩
  | b :: bs => (b :: bs).foldl (fun s x => s.bind (fun s => estimateStep n policy err s x))
      (some (setup gen range b))

/-! ## Specification -/

/-- The error of candidate `j` for parameter `p`, summed over the batches. -/
def total (err : B → List K → List K → List K) (minT maxT : List (List K)) (bs : List B) (j p : Nat) :
    K :=
  (bs.map (fun b => ((err b ((minT[j]?).getD []) ((maxT[j]?).getD []))[p]?).getD 0)).sum

/-- A grid of `rows` candidates for `params` parameters. -/
structure Grid (rows params : Nat) (g : List (List K) × List (List K)) : Prop where
  minRows : g.1.length = rows
  maxRows : g.2.length = rows
  minParams : ∀ row ∈ g.1, row.length = params
  maxParams : ∀ row ∈ g.2, row.length = params

/-! ## Lemmas -/

theorem argminFrom_spec : ∀ (xs : List K) (i : Nat) (best : Nat × K) (pre : List K),
    pre.length = i → pre[best.1]? = some best.2 → (∀ y ∈ pre, best.2 ≤ y) →
    (pre ++ xs)[(argminFrom i best xs).1]? = some (argminFrom i best xs).2 ∧
      ∀ y ∈ pre ++ xs, (argminFrom i best xs).2 ≤ y
  | [], i, best, pre, _, h2, h3 => by simpa [argminFrom] using ⟨h2, h3⟩
  | x :: xs, i, best, pre, h1, h2, h3 => by
    have happ : pre ++ x :: xs = (pre ++ [x]) ++ xs := by simp
    unfold argminFrom
    rw [happ]
    refine argminFrom_spec xs (i + 1) _ (pre ++ [x]) (by simp [h1]) ?_ ?_
    · split
      · dsimp only
        rw [← h1, List.getElem?_concat_length]
      · rw [List.getElem?_append_left]
        · exact h2
        · exact (List.getElem?_eq_some_iff.1 h2).1
    · intro y hy
      rw [List.mem_append, List.mem_singleton] at hy
      split
      · rename_i hlt
        rcases hy with hy | rfl
        · exact (le_of_lt hlt).trans (h3 y hy)
        · exact le_refl _
      · rename_i hlt
        rcases hy with hy | rfl
        · exact h3 y hy
        · exact not_lt.1 hlt

theorem argmin_spec {xs : List K} (h : xs ≠ []) :
    ∃ v, xs[argmin xs]? = some v ∧ ∀ y ∈ xs, v ≤ y := by
  cases xs with
  | nil => exact absurd rfl h
  | cons x xs =>
    obtain ⟨h1, h2⟩ := argminFrom_spec xs 1 (0, x) [x] rfl rfl (by simp)
    exact ⟨_, h1, h2⟩

theorem evaluate_spec (err : List K → List K → List K) (minT maxT : List (List K)) :
    ∀ (k i : Nat) (cum : List (List K)), i + k ≤ minT.length → i + k ≤ maxT.length →
    ∃ cum', evaluate err minT maxT k i cum = some cum' ∧ cum'.length = cum.length ∧
      ∀ j, cum'[j]? = if i ≤ j ∧ j < i + k then
        (cum[j]?).map (fun row =>
          List.zipWith (· + ·) row (err ((minT[j]?).getD []) ((maxT[j]?).getD [])))
        else cum[j]?
  | 0, i, cum, _, _ => by
    refine ⟨cum, rfl, rfl, ?_⟩
    intro j
    rw [if_neg (by omega)]
  | k + 1, i, cum, h1, h2 => by
    have e1 : minT[i]? = some minT[i] := List.getElem?_eq_getElem (by omega)
    have e2 : maxT[i]? = some maxT[i] := List.getElem?_eq_getElem (by omega)
    obtain ⟨cum', e, hl, hj⟩ := evaluate_spec err minT maxT k (i + 1)
      (cum.modify i (fun row => List.zipWith (· + ·) row (err minT[i] maxT[i]))) (by omega) (by omega)
    refine ⟨cum', ?_, ?_, ?_⟩
    · rw [evaluate, e1, e2]
      exact e
    · rw [hl, List.length_modify]
    · intro j
      rw [hj j, List.getElem?_modify]
      by_cases hji : i = j
      · subst hji
        rw [if_neg (by omega), if_pos (by omega), e1, e2]
        cases cum[i]? <;> simp
      · by_cases hc : i + 1 ≤ j ∧ j < i + 1 + k
        · rw [if_pos hc, if_pos (by omega)]
          cases cum[j]? <;> simp [hji]
        · rw [if_neg hc, if_neg (by omega)]
          cases cum[j]? <;> simp [hji]

/-- The state after some batches, for a grid of `rows ≥ n` candidates. -/
structure Inv (n rows params : Nat) (err : B → List K → List K → List K)
    (g : List (List K) × List (List K)) (bs : List B) (s : St K) : Prop where
  minT : s.minT = g.1
  maxT : s.maxT = g.2
  steps : s.steps = bs.length
  len : s.cum.length = rows
  row : ∀ j row, s.cum[j]? = some row → row.length = params ∧
    ∀ p, p < params → row[p]? = some (if j < n then total err g.1 g.2 bs j p else 0)

theorem estimateStep_inv {n rows params : Nat} {policy : Option (Nat → Bool)}
    {err : B → List K → List K → List K} {g : List (List K) × List (List K)} {bs : List B} {s : St K}
    (hg : Grid rows params g) (hn : n ≤ rows) (herr : ∀ b lo hi, (err b lo hi).length = params)
    (h : Inv n rows params err g bs s) (b : B) :
    ∃ s', estimateStep n policy err s b = some s' ∧ Inv n rows params err g (bs ++ [b]) s' ∧
      s'.range = if wants policy (bs.length + 1) then
        some (select g.1 g.2 s'.cum) else s.range := by
  obtain ⟨cum', e, hl, hj⟩ := evaluate_spec (err b) s.minT s.maxT n 0 s.cum
    (by rw [h.minT, hg.minRows]; omega) (by rw [h.maxT, hg.maxRows]; omega)
  refine ⟨⟨s.minT, s.maxT, cum', s.steps + 1,
    if wants policy (s.steps + 1) then some (select s.minT s.maxT cum') else s.range⟩, ?_, ⟨h.minT, h.maxT, ?_, ?_, ?_⟩, ?_⟩
  · unfold estimateStep
    rw [e]
  · simp [h.steps]
  · dsimp only
    rw [hl, h.len]
  · intro j row hrow
    dsimp only at hrow
    rw [hj j] at hrow
    by_cases hjn : j < n
    · rw [if_pos (by omega)] at hrow
      obtain ⟨r0, hr0, rfl⟩ := Option.map_eq_some_iff.1 hrow
      obtain ⟨g1, g2⟩ := h.row j r0 hr0
      refine ⟨by simp [g1, herr], ?_⟩
      intro p hp
      rw [List.getElem?_zipWith, g2 p hp, if_pos hjn, if_pos hjn, h.minT, h.maxT]
      have : (err b ((g.1[j]?).getD []) ((g.2[j]?).getD []))[p]? =
          some ((err b ((g.1[j]?).getD []) ((g.2[j]?).getD []))[p]'(by rw [herr]; exact hp)) :=
        List.getElem?_eq_getElem _
      rw [this]
      simp [total, this]
    · rw [if_neg (by omega)] at hrow
      obtain ⟨g1, g2⟩ := h.row j row hrow
      refine ⟨g1, ?_⟩
      intro p hp
      rw [g2 p hp, if_neg hjn, if_neg hjn]
  · dsimp only
    rw [h.steps, h.minT, h.maxT]

theorem run_inv {n rows params : Nat} {policy : Option (Nat → Bool)}
    {err : B → List K → List K → List K} {gen : B → List (List K) × List (List K)}
    {range : Option (List K × List K)} {b0 : B}
    (hg : Grid rows params (gen b0)) (hn : n ≤ rows)
    (herr : ∀ b lo hi, (err b lo hi).length = params) (bs : List B) :
    ∃ s, (bs.foldl (fun s x => s.bind (fun s => estimateStep n policy err s x))
        (some (setup gen range b0)) = some s) ∧ Inv n rows params err (gen b0) bs s := by
  induction bs using List.reverseRec with
  | nil =>
    refine ⟨setup gen range b0, rfl, ⟨rfl, rfl, rfl, by simp [setup, hg.minRows], ?_⟩⟩
    intro j row hrow
    simp only [setup, List.getElem?_map, Option.map_eq_some_iff] at hrow
    obtain ⟨r, hr, rfl⟩ := hrow
    have hlen := hg.minParams r (List.mem_of_getElem? hr)
    refine ⟨by simp [hlen], ?_⟩
    intro p hp
    have : r[p]? = some r[p] := List.getElem?_eq_getElem (by omega)
    simp only [List.getElem?_map, this, Option.map_some, total, List.map_nil, List.sum_nil, ite_self]
  | append_singleton bs b ih =>
    obtain ⟨s, e, hi⟩ := ih
    obtain ⟨s', e', hi', _⟩ := estimateStep_inv (policy := policy) hg hn herr hi b
    refine ⟨s', ?_, hi'⟩
    rw [List.foldl_append, e]
    simpa using e'

/-- What is selected after some batches. -/
theorem select_spec {n rows params : Nat} {err : B → List K → List K → List K}
    {g : List (List K) × List (List K)} {bs : List B} {s : St K} (hg : Grid rows params g)
    (hrows : 0 < rows) (h : Inv n rows params err g bs s) :
    (select g.1 g.2 s.cum).1.length = params ∧ (select g.1 g.2 s.cum).2.length = params ∧
    ∀ p, p < params → ∃ i, i < rows ∧
      (select g.1 g.2 s.cum).1[p]? = some ((((g.1[i]?).getD [])[p]?).getD 0) ∧
      (select g.1 g.2 s.cum).2[p]? = some ((((g.2[i]?).getD [])[p]?).getD 0) ∧
      ∀ j, j < rows → (if i < n then total err g.1 g.2 bs i p else 0) ≤
        (if j < n then total err g.1 g.2 bs j p else 0) := by
  have hhead : (g.1.head?.getD []).length = params := by
    cases hg1 : g.1 with
    | nil => have := hg.minRows; rw [hg1] at this; simp at this; omega
    | cons r rs => exact hg.minParams r (by rw [hg1]; simp)
  have hcol : ∀ p, p < params → ∀ j, j < rows → (column s.cum p)[j]? =
      some (if j < n then total err g.1 g.2 bs j p else 0) := by
    intro p hp j hj
    have : s.cum[j]? = some (s.cum[j]'(by rw [h.len]; exact hj)) :=
      List.getElem?_eq_getElem _
    unfold column
    rw [List.getElem?_map, this, Option.map_some, (h.row j _ this).2 p hp]
    rfl
  have hcl : ∀ p, (column s.cum p).length = rows := by
    intro p; simp [column, h.len]
  refine ⟨by simp [select, hhead], by simp [select, hhead], ?_⟩
  intro p hp
  obtain ⟨v, hv, hmin⟩ := argmin_spec (xs := column s.cum p) (by
    intro hnil
    have := hcl p
    rw [hnil] at this
    simp at this
    omega)
  have hi : argmin (column s.cum p) < rows := by
    have := (List.getElem?_eq_some_iff.1 hv).1
    rw [hcl] at this
    exact this
  refine ⟨argmin (column s.cum p), hi, ?_, ?_, ?_⟩
  · simp [select, hhead, hp]
  · simp [select, hhead, hp]
  · intro j hj
    rw [hcol p hp _ hi] at hv
    cases hv
    exact hmin _ (List.mem_of_getElem? (hcol p hp j hj))

theorem run_eq (n : Nat) (policy : Option (Nat → Bool)) (gen : B → List (List K) × List (List K))
    (err : B → List K → List K → List K) (range : Option (List K × List K)) (b0 : B) (bs : List B) :
    run n policy gen err range (b0 :: bs) =
      (b0 :: bs).foldl (fun s x => s.bind (fun s => estimateStep n policy err s x))
        (some (setup gen range b0)) := rfl

/-- One more batch. -/
theorem run_snoc {n rows params : Nat} {policy : Option (Nat → Bool)}
    {err : B → List K → List K → List K} {gen : B → List (List K) × List (List K)}
    {range : Option (List K × List K)} {b0 : B}
    (hg : Grid rows params (gen b0)) (hn : n ≤ rows)
    (herr : ∀ b lo hi, (err b lo hi).length = params) (bs : List B) (b : B)
    (hb : (bs ++ [b]).head? = some b0) :
    ∃ s s', (bs = [] → s.range = range) ∧ (bs ≠ [] → run n policy gen err range bs = some s) ∧
      run n policy gen err range (bs ++ [b]) = some s' ∧
      Inv n rows params err (gen b0) (bs ++ [b]) s' ∧
      s'.range = if wants policy (bs.length + 1) then
        some (select (gen b0).1 (gen b0).2 s'.cum) else s.range := by
  obtain ⟨s, e, hi⟩ := run_inv (policy := policy) (range := range) hg hn herr bs
  obtain ⟨s', e', hi', hr⟩ := estimateStep_inv (policy := policy) hg hn herr hi b
  have hfold : (bs ++ [b]).foldl (fun s x => s.bind (fun s => estimateStep n policy err s x))
      (some (setup gen range b0)) = some s' := by
    rw [List.foldl_append, e]
    simpa using e'
  refine ⟨s, s', ?_, ?_, ?_, hi', hr⟩
  · rintro rfl
    cases e
    rfl
  · intro hne
    cases bs with
    | nil => exact absurd rfl hne
    | cons b1 bs =>
      simp at hb
      subst hb
      exact e
  · cases bs with
    | nil =>
      simp at hb
      subst hb
      exact hfold
    | cons b1 bs =>
      simp at hb
      subst hb
      exact hfold

/-! ## Properties -/

/-- **C45.**  If the search grid has exactly `n` candidates, then after any sequence of batches the range
given to the quantizer is, for every parameter, a candidate range whose error summed over all batches is
least among all candidates.  (For grids with more candidates than are evaluated see the deviation.) -/
theorem grid_search_minimal_partial {n params : Nat} {err : B → List K → List K → List K}
    {gen : B → List (List K) × List (List K)} {range : Option (List K × List K)} {b0 : B}
    {bs : List B} (hg : Grid n params (gen b0)) (hn : 0 < n)
    (herr : ∀ b lo hi, (err b lo hi).length = params) :
    ∃ s lo hi, run n none gen err range (b0 :: bs) = some s ∧ s.range = some (lo, hi) ∧
      lo.length = params ∧ hi.length = params ∧
      ∀ p, p < params → ∃ i, i < n ∧
        lo[p]? = some ((((gen b0).1[i]?.getD [])[p]?).getD 0) ∧
        hi[p]? = some ((((gen b0).2[i]?.getD [])[p]?).getD 0) ∧
        ∀ j, j < n → total err (gen b0).1 (gen b0).2 (b0 :: bs) i p ≤
          total err (gen b0).1 (gen b0).2 (b0 :: bs) j p := by
  obtain ⟨bs', b, hbb⟩ : ∃ bs' b, b0 :: bs = bs' ++ [b] :=
    ⟨(b0 :: bs).dropLast, (b0 :: bs).getLast (by simp), (List.dropLast_append_getLast _).symm⟩
  obtain ⟨_, s, _, _, e, hi, hr⟩ := run_snoc (policy := none) (range := range) hg (Nat.le_refl n) herr
    bs' b (by rw [← hbb]; rfl)
  rw [← hbb] at e hi
  obtain ⟨h1, h2, h3⟩ := select_spec hg hn hi
  refine ⟨s, _, _, e, by simpa [wants] using hr, h1, h2, ?_⟩
  intro p hp
  obtain ⟨i, hin, g1, g2, g3⟩ := h3 p hp
  refine ⟨i, hin, g1, g2, ?_⟩
  intro j hj
  have := g3 j hj
  rwa [if_pos hin, if_pos hj] at this

/-- **C45.**  With an update policy, the range after a batch is a best candidate for all batches so far if
the policy asks for an update at this step, and otherwise what it was. -/
theorem update_policy_followed {n params : Nat} {f : Nat → Bool} {err : B → List K → List K → List K}
    {gen : B → List (List K) × List (List K)} {range : Option (List K × List K)} {b0 : B}
    {bs : List B} {b : B} (hb : (bs ++ [b]).head? = some b0) (hg : Grid n params (gen b0)) (hn : 0 < n)
    (herr : ∀ b lo hi, (err b lo hi).length = params) :
    ∃ s s', (bs = [] → s.range = range) ∧ (bs ≠ [] → run n (some f) gen err range bs = some s) ∧
      run n (some f) gen err range (bs ++ [b]) = some s' ∧
      (f (bs.length + 1) = false → s'.range = s.range) ∧
      (f (bs.length + 1) = true → ∃ lo hi, s'.range = some (lo, hi) ∧
        ∀ p, p < params → ∃ i, i < n ∧
          lo[p]? = some ((((gen b0).1[i]?.getD [])[p]?).getD 0) ∧
          hi[p]? = some ((((gen b0).2[i]?.getD [])[p]?).getD 0) ∧
          ∀ j, j < n → total err (gen b0).1 (gen b0).2 (bs ++ [b]) i p ≤
            total err (gen b0).1 (gen b0).2 (bs ++ [b]) j p) := by
  obtain ⟨s, s', h1, h2, h3, hi, hr⟩ := run_snoc (policy := some f) (range := range) hg (Nat.le_refl n)
    herr bs b hb
  refine ⟨s, s', h1, h2, h3, ?_, ?_⟩
  · intro hf
    rw [hr]
    simp [wants, hf]
  · intro hf
    obtain ⟨g1, g2, g3⟩ := select_spec hg hn hi
    refine ⟨_, _, by rw [hr]; simp [wants, hf]; rfl, ?_⟩
    intro p hp
    obtain ⟨i, hin, k1, k2, k3⟩ := g3 p hp
    refine ⟨i, hin, k1, k2, ?_⟩
    intro j hj
    have := k3 j hj
    rwa [if_pos hin, if_pos hj] at this

/-! ## The uniform grid -/

/-- `isqrt n` is the greatest number whose square is at most `n`. -/
theorem isqrt_spec : ∀ n, isqrt n ^ 2 ≤ n ∧ n < (isqrt n + 1) ^ 2
  | 0 => by simp [isqrt]
  | n + 1 => by
    obtain ⟨h1, h2⟩ := isqrt_spec n
    unfold isqrt
    split
    · rename_i h
      refine ⟨h, ?_⟩
      nlinarith
    · rename_i h
      exact ⟨by omega, by omega⟩

theorem linspace_length (a b : K) (n : Nat) : (linspace a b n).length = n := by simp [linspace]

theorem outer_length (s r : List K) : (outer s r).length = s.length := by simp [outer]

theorem outer_row {s r row : List K} (h : row ∈ outer s r) : row.length = r.length := by
  simp only [outer, List.mem_map] at h
  obtain ⟨_, _, rfl⟩ := h
  simp

theorem repeatRows_length (k : Nat) (t : List (List K)) : (repeatRows k t).length = k * t.length := by
  simp [repeatRows]

theorem interleaveRows_length (k : Nat) (t : List (List K)) :
    (interleaveRows k t).length = k * t.length := by
  induction t with
  | nil => rfl
  | cons r t ih =>
    have : interleaveRows k (r :: t) = List.replicate k r ++ interleaveRows k t := rfl
    rw [this, List.length_append, ih, List.length_replicate, List.length_cons, Nat.mul_succ]
    omega

/-- The number of candidates of the uniform grid for a quantizer with an offset and data below zero. -/
def asymmetricSize (n : Nat) : Nat := isqrt n * (isqrt n + n - isqrt n ^ 2)

theorem asymmetricSize_eq_iff (n : Nat) : asymmetricSize n = n ↔ (∃ k, n = k * k) ∨ n < 4 := by
  have h1 := (isqrt_spec n).1
  have h2 := (isqrt_spec n).2
  obtain ⟨d, hd⟩ := Nat.exists_eq_add_of_le h1
  unfold asymmetricSize
  generalize isqrt n = f at h1 h2 hd
  have hsz : f + n - f ^ 2 = f + d := by omega
  rw [hsz]
  constructor
  · intro h
    have hfd : f * d = d := by nlinarith
    rcases Nat.eq_zero_or_pos d with h0 | h0
    · exact Or.inl ⟨f, by rw [hd, h0, Nat.pow_two]; rfl⟩
    · have : f = 1 := by
        have : f * d = 1 * d := by omega
        exact Nat.eq_of_mul_eq_mul_right h0 this
      subst this
      right
      simpa using h2
  · rintro (⟨k, hk⟩ | h)
    · have hf : f = k := by
        have a1 : f ≤ k := by
          by_contra hc
          have : k < f := by omega
          nlinarith
        have a2 : k ≤ f := by
          by_contra hc
          have : f + 1 ≤ k := by omega
          have : (f + 1) * (f + 1) ≤ k * k := Nat.mul_le_mul this this
          have e : (f + 1) ^ 2 = (f + 1) * (f + 1) := by rw [Nat.pow_two]
          omega
        omega
      subst hf
      have : d = 0 := by nlinarith
      subst this
      rw [hk]
      simp
    · have : f < 2 := by
        by_contra hc
        have : 2 ≤ f := by omega
        nlinarith
      have : f = 0 ∨ f = 1 := by omega
      rcases this with rfl | rfl
      · simp at h2
        omega
      · omega

theorem asymmetricSize_ge (n : Nat) : n ≤ asymmetricSize n := by
  have h1 := (isqrt_spec n).1
  obtain ⟨d, hd⟩ := Nat.exists_eq_add_of_le h1
  have h3 : n = 0 ∨ 0 < isqrt n := by
    rcases Nat.eq_zero_or_pos n with h | h
    · exact Or.inl h
    · right
      rcases Nat.eq_zero_or_pos (isqrt n) with h0 | h0
      · have := (isqrt_spec n).2
        rw [h0] at this
        simp at this
        omega
      · exact h0
  unfold asymmetricSize
  generalize isqrt n = f at h1 hd h3
  have hsz : f + n - f ^ 2 = f + d := by omega
  rw [hsz]
  rcases h3 with h3 | h3
  · omega
  · nlinarith

/-- Some tile reaches below zero once the margin is taken off. -/
def Negative (rel abs : K) (rows : List (List K)) : Prop :=
  ∃ row ∈ rows, rel * MinMax.lo row - abs < 0

/-- **C45.**  The uniform grid has as many candidates as asked for, except for a quantizer with an offset
on data that reaches below zero; there it has `⌊√n⌋ · (⌊√n⌋ + n − ⌊√n⌋²)`. -/
theorem uniform_grid_size (rel abs : K) (rows : List (List K)) (symmetric : Bool) (n : Nat) :
    (symmetric = true ∨ ¬ Negative rel abs rows →
      Grid n rows.length (uniformGrid rel abs rows symmetric n)) ∧
    (symmetric = false → Negative rel abs rows →
      Grid (asymmetricSize n) rows.length (uniformGrid rel abs rows symmetric n)) := by
  have hneg : ((rows.map (fun row => rel * MinMax.lo row - abs)).any (fun x => decide (x < 0))) = true ↔
      Negative rel abs rows := by
    simp [Negative]
  unfold uniformGrid
  dsimp only
  by_cases hN : Negative rel abs rows
  · rw [hneg.2 hN]
    cases symmetric with
    | true =>
      refine ⟨fun _ => ?_, by simp⟩
      simp only [Bool.not_true, Bool.false_eq_true, if_false]
      refine ⟨?_, ?_, ?_, ?_⟩
      · simp [outer_length, linspace_length]
      · simp [outer_length, linspace_length]
      · intro row h
        simp only [List.mem_map] at h
        obtain ⟨r, hr, rfl⟩ := h
        have := outer_row hr
        simpa using this
      · intro row h
        have := outer_row h
        simpa using this
    | false =>
      refine ⟨fun h => absurd hN (by simpa using h), fun _ _ => ?_⟩
      simp only [Bool.not_true, Bool.false_eq_true, if_false, Bool.not_false, if_true]
      refine ⟨?_, ?_, ?_, ?_⟩
      · rw [repeatRows_length, outer_length, linspace_length, asymmetricSize, Nat.mul_comm]
      · rw [interleaveRows_length, outer_length, linspace_length, asymmetricSize]
      · intro row h
        simp only [repeatRows, List.mem_flatten, List.mem_replicate] at h
        obtain ⟨l, ⟨_, rfl⟩, hr⟩ := h
        simpa using outer_row hr
      · intro row h
        simp only [interleaveRows, List.mem_flatMap, List.mem_replicate] at h
        obtain ⟨r, hr, _, rfl⟩ := h
        simpa using outer_row hr
  · have hf : ((rows.map (fun row => rel * MinMax.lo row - abs)).any (fun x => decide (x < 0))) = false := by
      rw [Bool.eq_false_iff]
      exact fun h => hN (hneg.1 h)
    rw [hf]
    refine ⟨fun _ => ?_, fun _ h => absurd h hN⟩
    simp only [Bool.not_false, if_true]
    refine ⟨by simp, by simp [outer_length, linspace_length], ?_, ?_⟩
    · intro row h
      simp only [List.mem_replicate] at h
      obtain ⟨_, rfl⟩ := h
      simp
    · intro row h
      simpa using outer_row h

/-- **C45.**  With the uniform grid the range is a best one among the candidates whenever the quantizer is
symmetric, the first batch does not reach below zero, or the number of candidates is a square. -/
theorem uniform_search_minimal_partial {rel abs : K} {symmetric : Bool} {n params : Nat}
    {tiles : B → List (List K)} {err : B → List K → List K → List K}
    {range : Option (List K × List K)} {b0 : B} {bs : List B} (hn : 0 < n)
    (hp : (tiles b0).length = params) (herr : ∀ b lo hi, (err b lo hi).length = params)
    (h : symmetric = true ∨ ¬ Negative rel abs (tiles b0) ∨ ∃ k, n = k * k) :
    ∃ s lo hi, run n none (fun b => uniformGrid rel abs (tiles b) symmetric n) err range (b0 :: bs) =
        some s ∧ s.range = some (lo, hi) ∧ lo.length = params ∧ hi.length = params ∧
      ∀ p, p < params → ∃ i, i < n ∧
        lo[p]? = some ((((uniformGrid rel abs (tiles b0) symmetric n).1[i]?.getD [])[p]?).getD 0) ∧
        hi[p]? = some ((((uniformGrid rel abs (tiles b0) symmetric n).2[i]?.getD [])[p]?).getD 0) ∧
        ∀ j, j < n →
          total err (uniformGrid rel abs (tiles b0) symmetric n).1
              (uniformGrid rel abs (tiles b0) symmetric n).2 (b0 :: bs) i p ≤
            total err (uniformGrid rel abs (tiles b0) symmetric n).1
              (uniformGrid rel abs (tiles b0) symmetric n).2 (b0 :: bs) j p := by
  have hg : Grid n params (uniformGrid rel abs (tiles b0) symmetric n) := by
    obtain ⟨g1, g2⟩ := uniform_grid_size rel abs (tiles b0) symmetric n
    rw [hp] at g1 g2
    by_cases hs : symmetric = true ∨ ¬ Negative rel abs (tiles b0)
    · exact g1 hs
    · rw [not_or, not_not] at hs
      have hk : ∃ k, n = k * k := by
        rcases h with h | h | h
        · exact absurd h hs.1
        · exact absurd hs.2 h
        · exact h
      have := g2 (by simpa using hs.1) hs.2
      rwa [(asymmetricSize_eq_iff n).2 (Or.inl hk)] at this
  exact grid_search_minimal_partial (gen := fun b => uniformGrid rel abs (tiles b) symmetric n) hg hn herr

/-- **C45, deviation.**  If the grid has more candidates than are evaluated — the uniform grid for every
number of candidates above four that is not a square, with an offset and data below zero — and every
evaluated candidate has a positive error, then a candidate that was never evaluated is chosen. -/
theorem unevaluated_candidate_chosen {n rows params : Nat} {err : B → List K → List K → List K}
    {gen : B → List (List K) × List (List K)} {range : Option (List K × List K)} {b0 : B}
    {bs : List B} (hg : Grid rows params (gen b0)) (hn : n < rows)
    (herr : ∀ b lo hi, (err b lo hi).length = params)
    (hpos : ∀ j p, j < n → p < params → 0 < total err (gen b0).1 (gen b0).2 (b0 :: bs) j p) :
    ∃ s lo hi, run n none gen err range (b0 :: bs) = some s ∧ s.range = some (lo, hi) ∧
      ∀ p, p < params → ∃ i, n ≤ i ∧ i < rows ∧
        lo[p]? = some ((((gen b0).1[i]?.getD [])[p]?).getD 0) ∧
        hi[p]? = some ((((gen b0).2[i]?.getD [])[p]?).getD 0) := by
  obtain ⟨bs', b, hbb⟩ : ∃ bs' b, b0 :: bs = bs' ++ [b] :=
    ⟨(b0 :: bs).dropLast, (b0 :: bs).getLast (by simp), (List.dropLast_append_getLast _).symm⟩
  obtain ⟨_, s, _, _, e, hi, hr⟩ := run_snoc (policy := none) (range := range) hg (Nat.le_of_lt hn) herr
    bs' b (by rw [← hbb]; rfl)
  rw [← hbb] at e hi
  obtain ⟨h1, h2, h3⟩ := select_spec hg (by omega) hi
  have hrange : s.range = some ((select (gen b0).1 (gen b0).2 s.cum).1,
      (select (gen b0).1 (gen b0).2 s.cum).2) := by simpa [wants] using hr
  refine ⟨s, _, _, e, hrange, ?_⟩
  intro p hp
  obtain ⟨i, hir, g1, g2, g3⟩ := h3 p hp
  refine ⟨i, ?_, hir, g1, g2⟩
  by_contra hc
  have := g3 n hn
  rw [if_pos (by omega), if_neg (by omega)] at this
  exact absurd (hpos i p (by omega) hp) (not_lt.2 this)

/-- **C45, deviation.**  The uniform grid for an asymmetric quantizer and data below zero has unevaluated
candidates for every number of candidates above four that is not a square. -/
theorem uniform_grid_too_large {rel abs : K} {rows : List (List K)} {n : Nat}
    (hN : Negative rel abs rows) (h4 : 4 ≤ n) (hsq : ¬ ∃ k, n = k * k) :
    ∃ size, n < size ∧ Grid size rows.length (uniformGrid rel abs rows false n) := by
  refine ⟨asymmetricSize n, ?_, (uniform_grid_size rel abs rows false n).2 rfl hN⟩
  have h1 := asymmetricSize_ge n
  have h2 := asymmetricSize_eq_iff n
  rcases Nat.lt_or_ge n (asymmetricSize n) with h | h
  · exact h
  · exfalso
    rcases h2.1 (by omega) with h | h
    · exact hsq h
    · omega

/-! ## The candidates of the uniform grid -/

theorem linspace_get {a b : K} {n i : Nat} (h : i < n) : (linspace a b n)[i]? =
    some (if n = 1 then a else a + (b - a) * (i : K) / ((n - 1 : Nat) : K)) := by
  unfold linspace
  rw [List.getElem?_map, List.getElem?_range h]
  rfl

/-- `linspace(1/n, 1, n)` are the fractions `1/n, 2/n, …, 1`. -/
theorem linspace_fraction {n i : Nat} (h : i < n) :
    (linspace (1 / (n : K)) 1 n)[i]? = some (((i : K) + 1) / (n : K)) := by
  rw [linspace_get h]
  congr 1
  have hn : (n : K) ≠ 0 := by
    have : n ≠ 0 := by omega
    exact_mod_cast this
  split
  · rename_i h1
    subst h1
    have : i = 0 := by omega
    subst this
    simp
  · rename_i h1
    have e : ((n - 1 : Nat) : K) = (n : K) - 1 := by
      rw [Nat.cast_sub (by omega)]
      simp
    have hm : (n : K) - 1 ≠ 0 := by
      rw [← e]
      have : n - 1 ≠ 0 := by omega
      exact_mod_cast this
    rw [e]
    field_simp
    ring

theorem outer_get {s r : List K} {i p : Nat} {x y : K} (hi : s[i]? = some x) (hp : r[p]? = some y) :
    (((outer s r)[i]?).getD [])[p]? = some (x * y) := by
  simp [outer, hi, hp]

theorem flatten_replicate_get {α : Type} (t : List α) : ∀ (k r : Nat), r < k * t.length →
    ((List.replicate k t).flatten)[r]? = t[r % t.length]?
  | 0, r, h => by simp at h
  | k + 1, r, h => by
    rw [List.replicate_succ, List.flatten_cons]
    by_cases hr : r < t.length
    · rw [List.getElem?_append_left hr, Nat.mod_eq_of_lt hr]
    · rw [List.getElem?_append_right (by omega), flatten_replicate_get t k (r - t.length) (by
        rw [Nat.succ_mul] at h
        omega)]
      congr 1
      exact (Nat.mod_eq_sub_mod (by omega)).symm

theorem interleave_get {k : Nat} (hk : 0 < k) : ∀ (t : List (List K)) (r : Nat), r < k * t.length →
    (interleaveRows k t)[r]? = t[r / k]?
  | [], r, h => by simp at h
  | x :: t, r, h => by
    have : interleaveRows k (x :: t) = List.replicate k x ++ interleaveRows k t := rfl
    rw [this]
    by_cases hr : r < k
    · rw [List.getElem?_append_left (by simpa using hr), Nat.div_eq_of_lt hr]
      simp [hr]
    · rw [List.getElem?_append_right (by simpa using hr), List.length_replicate,
        interleave_get hk t (r - k) (by
          rw [List.length_cons, Nat.mul_succ] at h
          omega)]
      have : r / k = (r - k) / k + 1 := Nat.div_eq_sub_div hk (by omega)
      rw [this]
      rfl

/-- Element `p` of row `i`, or zero. -/
def at2 (m : List (List K)) (i p : Nat) : K := (((m[i]?).getD [])[p]?).getD 0

/-- **C69.**  The candidates for a symmetric quantizer are `(-M·k/n, M·k/n)` for `k = 1, …, n`, where `M`
is the largest absolute value of the range of the first batch with margins.  For data not reaching below
zero they are `(0, M·k/n)`. -/
theorem uniform_grid_candidates (rel abs : K) {rows : List (List K)} {p : Nat} {row : List K}
    (hrow : rows[p]? = some row) (n i : Nat) (hi : i < n) :
    (¬ Negative rel abs rows → ∀ symmetric,
      at2 (uniformGrid rel abs rows symmetric n).1 i p = 0 ∧
      at2 (uniformGrid rel abs rows symmetric n).2 i p =
        ((i : K) + 1) / (n : K) * (rel * MinMax.hi row + abs)) ∧
    (Negative rel abs rows →
      at2 (uniformGrid rel abs rows true n).2 i p =
        ((i : K) + 1) / (n : K) * max |rel * MinMax.lo row - abs| |rel * MinMax.hi row + abs| ∧
      at2 (uniformGrid rel abs rows true n).1 i p = - at2 (uniformGrid rel abs rows true n).2 i p) := by
  have hneg : ((rows.map (fun row => rel * MinMax.lo row - abs)).any (fun x => decide (x < 0))) = true ↔
      Negative rel abs rows := by
    simp [Negative]
  have hpl : p < rows.length := (List.getElem?_eq_some_iff.1 hrow).1
  refine ⟨fun hN symmetric => ?_, fun hN => ?_⟩
  · have hf : ((rows.map (fun row => rel * MinMax.lo row - abs)).any (fun x => decide (x < 0))) = false := by
      rw [Bool.eq_false_iff]
      exact fun h => hN (hneg.1 h)
    unfold uniformGrid at2
    dsimp only
    rw [hf]
    simp only [Bool.not_false, if_true]
    refine ⟨by simp [hi, hpl], ?_⟩
    rw [outer_get (linspace_fraction hi) (by rw [List.getElem?_map, hrow]; rfl)]
    rfl
  · unfold uniformGrid at2
    dsimp only
    rw [hneg.2 hN]
    simp only [Bool.not_true, Bool.false_eq_true, if_false]
    have h2 := outer_get (linspace_fraction (K := K) hi) (r := List.zipWith max
        ((rows.map (fun row => rel * MinMax.lo row - abs)).map (fun x => |x|))
        ((rows.map (fun row => rel * MinMax.hi row + abs)).map (fun x => |x|))) (p := p)
        (y := max |rel * MinMax.lo row - abs| |rel * MinMax.hi row + abs|) (by
      rw [List.getElem?_zipWith]
      simp [hrow])
    refine ⟨by rw [h2]; rfl, ?_⟩
    rw [h2, List.getElem?_map]
    cases ht : (outer (linspace (1 / (n : K)) 1 n) (List.zipWith max
        ((rows.map (fun row => rel * MinMax.lo row - abs)).map (fun x => |x|))
        ((rows.map (fun row => rel * MinMax.hi row + abs)).map (fun x => |x|))))[i]? with
    | none => rw [ht] at h2; simp at h2
    | some r =>
      rw [ht] at h2
      simp only [Option.getD_some] at h2
      simp only [Option.map_some, Option.getD_some, List.getElem?_map, h2]

/-- **C69.**  The candidates for a quantizer with an offset, for data reaching below zero: all pairs of a
lower bound scaled by one of `⌊√n⌋` factors from 1 down to 0.6 and an upper bound scaled by one of
`⌊√n⌋ + n − ⌊√n⌋²` factors from 0.6 up to 1. -/
theorem uniform_grid_candidates_asymmetric (rel abs : K) {rows : List (List K)} {p : Nat} {row : List K}
    (hrow : rows[p]? = some row) (hN : Negative rel abs rows) (n r : Nat)
    (hr : r < asymmetricSize n) :
    at2 (uniformGrid rel abs rows false n).1 r p =
      (if isqrt n = 1 then 1
        else 1 - 4 / 10 * ((r % isqrt n : Nat) : K) / ((isqrt n - 1 : Nat) : K)) *
        (rel * (rel * MinMax.lo row - abs) + abs) ∧
    at2 (uniformGrid rel abs rows false n).2 r p =
      (if isqrt n + n - isqrt n ^ 2 = 1 then 6 / 10
        else 6 / 10 + 4 / 10 * ((r / isqrt n : Nat) : K) / ((isqrt n + n - isqrt n ^ 2 - 1 : Nat) : K)) *
        (rel * (rel * MinMax.hi row + abs) + abs) := by
  have hneg : ((rows.map (fun row => rel * MinMax.lo row - abs)).any (fun x => decide (x < 0))) = true ↔
      Negative rel abs rows := by
    simp [Negative]
  unfold uniformGrid at2
  dsimp only
  rw [hneg.2 hN]
  simp only [Bool.not_true, Bool.false_eq_true, if_false, Bool.not_false, if_true]
  unfold asymmetricSize at hr
  generalize hf : isqrt n = f at hr ⊢
  generalize hm : f + n - f ^ 2 = m at hr ⊢
  have hf0 : 0 < f := by
    rcases Nat.eq_zero_or_pos f with h | h
    · rw [h] at hr
      simp at hr
    · exact h
  constructor
  · have hlen : (outer (linspace (1 : K) (6 / 10) f)
        ((rows.map (fun row => rel * MinMax.lo row - abs)).map (fun x => rel * x + abs))).length = f := by
      rw [outer_length, linspace_length]
    unfold repeatRows
    rw [flatten_replicate_get _ _ _ (by rw [hlen, Nat.mul_comm]; exact hr), hlen,
      outer_get (linspace_get (a := (1 : K)) (Nat.mod_lt r hf0)) (y := rel * (rel * MinMax.lo row - abs) + abs)
        (by simp [hrow])]
    simp only [Option.getD_some]
    split
    · rfl
    · congr 1
      ring
  · rw [interleave_get hf0 _ _ (by rw [outer_length, linspace_length]; exact hr),
      outer_get (linspace_get (a := (6 / 10 : K)) (Nat.div_lt_of_lt_mul hr))
        (y := rel * (rel * MinMax.hi row + abs) + abs) (by simp [hrow])]
    simp only [Option.getD_some]
    split
    · rfl
    · congr 1
      ring

/-- **C69.**  With the default relative margin, some evaluated candidate covers all data of the first
batch, if there are at least two candidates and their number is a square or the quantizer is symmetric or
the data does not reach below zero. -/
theorem uniform_grid_covers {abs : K} (habs : 0 ≤ abs) {rows : List (List K)} {p : Nat} {row : List K}
    (hrow : rows[p]? = some row) (hne : row ≠ []) {symmetric : Bool} {n : Nat} (hn : 2 ≤ n)
    (h : symmetric = true ∨ ¬ Negative 1 abs rows ∨ ∃ k, n = k * k) :
    ∃ i, i < n ∧ ∀ x ∈ row, at2 (uniformGrid 1 abs rows symmetric n).1 i p ≤ x ∧
      x ≤ at2 (uniformGrid 1 abs rows symmetric n).2 i p := by
  obtain ⟨_, hlo⟩ := MinMax.lo_spec hne
  obtain ⟨_, hhi⟩ := MinMax.hi_spec hne
  have hn0 : (n : K) ≠ 0 := by
    have : n ≠ 0 := by omega
    exact_mod_cast this
  have hfrac : (((n - 1 : Nat) : K) + 1) / (n : K) = 1 := by
    rw [Nat.cast_sub (by omega)]
    simp [hn0]
  have hlast := uniform_grid_candidates 1 abs hrow n (n - 1) (by omega)
  by_cases hN : Negative 1 abs rows
  · cases symmetric with
    | true =>
      refine ⟨n - 1, by omega, fun x hx => ?_⟩
      obtain ⟨e1, e2⟩ := hlast.2 hN
      rw [e2, e1, hfrac]
      have a1 := le_max_left |1 * MinMax.lo row - abs| |1 * MinMax.hi row + abs|
      have a2 := le_max_right |1 * MinMax.lo row - abs| |1 * MinMax.hi row + abs|
      have a3 := neg_abs_le (1 * MinMax.lo row - abs)
      have a4 := le_abs_self (1 * MinMax.hi row + abs)
      have a5 := hlo x hx
      have a6 := hhi x hx
      constructor <;> linarith
    | false =>
      have hk : ∃ k, n = k * k := by
        rcases h with h | h | h
        · cases h
        · exact absurd hN h
        · exact h
      have hsz := (asymmetricSize_eq_iff n).2 (Or.inl hk)
      have hsz' := hsz
      unfold asymmetricSize at hsz'
      have h1 := (isqrt_spec n).1
      have h2 := (isqrt_spec n).2
      have hf : 2 ≤ isqrt n := by
        by_contra hc
        obtain ⟨k, hk⟩ := hk
        have : isqrt n ≤ 1 := by omega
        have h3 : n < 4 := by
          have : (isqrt n + 1) ^ 2 ≤ (1 + 1) ^ 2 := Nat.pow_le_pow_left (by omega) 2
          omega
        have : k < 2 := by
          by_contra hc
          nlinarith
        have : k * k ≤ 1 * 1 := Nat.mul_le_mul (by omega) (by omega)
        omega
      have hsq : isqrt n ^ 2 = n := by
        have h3 : isqrt n * (isqrt n + n - isqrt n ^ 2) = isqrt n * isqrt n +
            isqrt n * (n - isqrt n ^ 2) := by
          rw [← Nat.mul_add]
          congr 1
          omega
        rw [h3, ← Nat.pow_two] at hsz'
        generalize hd : n - isqrt n ^ 2 = d at hsz'
        have : 2 * d ≤ isqrt n * d := Nat.mul_le_mul hf (Nat.le_refl d)
        omega
      have hm : isqrt n + n - isqrt n ^ 2 = isqrt n := by omega
      have hff : isqrt n * isqrt n = n := by rw [← Nat.pow_two]; exact hsq
      have hlt : (isqrt n - 1) * isqrt n < n := by
        have : (isqrt n - 1) * isqrt n = n - isqrt n := by rw [Nat.sub_mul, hff, Nat.one_mul]
        omega
      refine ⟨(isqrt n - 1) * isqrt n, hlt, fun x hx => ?_⟩
      obtain ⟨e1, e2⟩ := uniform_grid_candidates_asymmetric 1 abs hrow hN n
        ((isqrt n - 1) * isqrt n) (by rw [hsz]; exact hlt)
      rw [e1, e2, hm, if_neg (by omega), if_neg (by omega), Nat.mul_mod_left,
        Nat.mul_div_cancel _ (by omega)]
      have hc : ((isqrt n - 1 : Nat) : K) ≠ 0 := by
        have : isqrt n - 1 ≠ 0 := by omega
        exact_mod_cast this
      rw [mul_div_assoc, mul_div_assoc, div_self hc]
      have a5 := hlo x hx
      have a6 := hhi x hx
      constructor
      · simp only [Nat.cast_zero, zero_div, mul_zero, sub_zero, one_mul]
        linarith
      · have : (6 / 10 + 4 / 10 * 1 : K) = 1 := by norm_num
        rw [this]
        linarith
  · refine ⟨n - 1, by omega, fun x hx => ?_⟩
    obtain ⟨e1, e2⟩ := hlast.1 hN symmetric
    rw [e2, e1, hfrac]
    have a5 := hlo x hx
    have a6 := hhi x hx
    have a7 : 0 ≤ 1 * MinMax.lo row - abs := by
      by_contra hc
      exact hN ⟨row, List.mem_of_getElem? hrow, not_le.1 hc⟩
    constructor <;> linarith

/-! ## Concrete cases -/

/-- Distance of the clipping range from the data range: the error of a batch for a candidate. -/
def gap (b : List (List ℚ)) (lo hi : List ℚ) : List ℚ :=
  List.zipWith (fun row lh => |MinMax.lo row - lh.1| + |MinMax.hi row - lh.2|) b (List.zip lo hi)

/-- Two channels, two batches, four candidates for an asymmetric quantizer: both channels get a best
candidate, and not the same one. -/
example : (run 4 none (fun b => uniformGrid (1 : ℚ) (1 / 2) b false 4) gap none
      [[[-1, 1], [-2, 2]], [[-1, 1], [-2, 5]]]).map (fun s => (s.minT.length, s.range)) =
    some (4, some ([-1, -2], [6 / 5, 3])) := by decide +kernel

/-- The grid of the case above meets the hypothesis of the theorem. -/
example : Grid 4 2 (uniformGrid (1 : ℚ) (1 / 2) [[-1, 1], [-2, 2]] false 4) :=
  (uniform_grid_size (1 : ℚ) (1 / 2) [[-1, 1], [-2, 2]] false 4).2 rfl
    ⟨[-1, 1], by simp, by decide +kernel⟩

/-- With an update every second step, the third batch changes nothing. -/
example : (run 4 (some (fun i => i % 2 == 0)) (fun b => uniformGrid (1 : ℚ) (1 / 2) b false 4) gap none
      [[[-1, 1], [-2, 2]], [[-1, 1], [-2, 5]], [[-1, 7], [-2, 1]]]).map (fun s => (s.steps, s.range)) =
    some (3, some ([-1, -2], [6 / 5, 3])) := by decide +kernel

/-- Five candidates asked for, six in the grid: the chosen range has seven times the error of the best. -/
example : (run 5 none (fun b => uniformGrid (1 : ℚ) (1 / 2) b false 5) gap none
      [[[-1, 1]], [[-1, 1]]]).map (fun s => (s.minT.length, s.range)) = some (6, some ([-3 / 5], [2])) ∧
    total gap (uniformGrid (1 : ℚ) (1 / 2) [[-1, 1]] false 5).1
      (uniformGrid (1 : ℚ) (1 / 2) [[-1, 1]] false 5).2 [[[-1, 1]], [[-1, 1]]] 5 0 = 14 / 5 ∧
    total gap (uniformGrid (1 : ℚ) (1 / 2) [[-1, 1]] false 5).1
      (uniformGrid (1 : ℚ) (1 / 2) [[-1, 1]] false 5).2 [[[-1, 1]], [[-1, 1]]] 0 0 = 2 / 5 := by
  decide +kernel

end FF.MinError
