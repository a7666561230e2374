/-!
# Chunks of tokens, and limited iteration

Models `tokenize_dataset` (`src/fastforward/testing/data.py:20-81`): how the tokens of a dataset are cut into samples; and `sliced_tqdm` (84-100).

Simplifications: the tokenizer is any function from a text to columns of tokens; `Dataset.map` with `batch_size=None` calls the function once with all rows.
-/

namespace FF.Chunks

/-! ## Model -/

variable {T : Type}

/-- The columns of a dataset, in order; each has a list of tokens per row. -/
abbrev Cols (T : Type) := List (String × List (List T))

inductive Err where
  | zeroDivision
  | keyError
  | indexError
  | valueError
  deriving DecidableEq, Repr

/-- `"\n\n".join(examples["text"])` (data.py:42). -/
def join : List (List Char) → List Char
  | [] => []
  | [t] => t
  | t :: ts => t ++ '\n' :: '\n' :: join ts

/-- `list(chain(*rows))` (data.py:47). -/
def concat : List (List T) → List T
  | [] => []
  | l :: ls => l ++ concat ls

/-- `[t[i : i + n] for i in range(0, k * n, n)]` (data.py:58-61). -/
def chunks (n : Nat) : Nat → List T → List (List T)
  | 0, _ => []
  | k + 1, t => t.take n :: chunks n k (t.drop n)

/-- `_group_texts` (data.py:44-64). -/
def groupTexts (n : Nat) (cols : Cols T) : Except Err (Cols T) :=
  match cols with
  | [] => .error .indexError
  | c :: cs =>
    if n = 0 then .error .zeroDivision
    else
      let k := (concat c.2).length / n
      let result := (c :: cs).map fun d => (d.1, chunks n k (concat d.2))
      match result.find? fun d => d.1 = "input_ids" with
      | none => .error .keyError
      | some d => .ok (result.filter (fun d => d.1 ≠ "label") ++ [("label", d.2)])

/-- `tokenize_dataset` (data.py:20-81). -/
def tokenizeDataset (tokenizer : List Char → Cols T) (n : Nat) (texts : List (List Char)) : Except Err (Cols T) := groupTexts n (tokenizer (join texts))

/-- `sliced_tqdm` (data.py:84-100): the items, and the total that the progress bar shows. -/
def sliced {A : Type} (items : List A) (limit : Option Int) : Except Err (List A × Int) :=
  let numel : Int := match limit with
    | some n => if n ≠ 0 then n else items.length
    | none => items.length
  match limit with
  | none => .ok (items, numel)
  | some n => if n < 0 then .error .valueError else .ok (items.take n.toNat, numel)

/-! ## Specification -/

/-- `a` is cut into pieces of length `n`, with a rest that is too short. -/
def Cut (n : Nat) (a : List T) (pieces : List (List T)) : Prop := (∀ p ∈ pieces, p.length = n) ∧ ∃ rest, pieces.flatten ++ rest = a ∧ rest.length < n

/-- A column of a dataset. -/
def Column (cols : Cols T) (x : String) (rows : List (List T)) : Prop := (x, rows) ∈ cols

/-- All columns have as many tokens. -/
def Aligned (cols : Cols T) (k : Nat) : Prop := ∀ c ∈ cols, c.2.flatten.length = k

/-! ## Lemmas -/

theorem concat_eq : ∀ l : List (List T), concat l = l.flatten
  | [] => rfl
  | a :: l => by simp [concat, concat_eq l]

theorem chunks_cut {n : Nat} : ∀ (k : Nat) (t : List T), k * n ≤ t.length → (∀ p ∈ chunks n k t, p.length = n) ∧ (chunks n k t).flatten = t.take (k * n)
  | 0, t, _ => by simp [chunks]
  | k + 1, t, h => by
    rw [Nat.succ_mul] at h
    obtain ⟨h1, h2⟩ := chunks_cut (n := n) k (t.drop n) (by rw [List.length_drop]; omega)
    refine ⟨fun p hp => ?_, ?_⟩
    · rcases List.mem_cons.1 hp with rfl | hp
      · rw [List.length_take]; omega
      · exact h1 p hp
    · rw [chunks, List.flatten_cons, h2, Nat.succ_mul, Nat.add_comm, List.take_add]

theorem chunks_spec {n : Nat} (hn : 0 < n) (t : List T) : Cut n t (chunks n (t.length / n) t) := by
  have hle : t.length / n * n ≤ t.length := Nat.div_mul_le_self _ _
  obtain ⟨h1, h2⟩ := chunks_cut (t.length / n) t hle
  refine ⟨h1, t.drop (t.length / n * n), by rw [h2, List.take_append_drop], ?_⟩
  rw [List.length_drop]
  have := Nat.mod_lt t.length hn
  have e := Nat.div_add_mod t.length n
  rw [Nat.mul_comm] at e
  omega

/-! ## Properties -/

/-- **C141 (partial).** Every column of the result is the column of tokens cut into samples of the given length: no token is lost, repeated or moved, except for a rest
that is shorter than a sample.

Missing: columns of different lengths (`uneven_columns`). -/
theorem every_token_partial (tokenizer : List Char → Cols T) (n k : Nat) (texts : List (List Char)) (out : Cols T)
    (h : tokenizeDataset tokenizer n texts = .ok out) (ha : Aligned (tokenizer (join texts)) k) (x : String) (hx : x ≠ "label") (rows : List (List T)) :
    Column out x rows ↔ ∃ src, Column (tokenizer (join texts)) x src ∧ Cut n src.flatten rows := by
  unfold tokenizeDataset groupTexts at h
  split at h
  · cases h
  · rename_i c cs hc
    split at h
    · cases h
    · rename_i hn
      have hn : 0 < n := Nat.pos_of_ne_zero hn
      have hlen : (concat c.2).length = k := by rw [concat_eq]; exact ha c (by rw [hc]; exact List.mem_cons_self)
      simp only [hlen] at h
      split at h
      · cases h
      · cases h
        rw [hc] at ha ⊢
        have unique : ∀ d ∈ c :: cs, ∀ rows, Cut n d.2.flatten rows → rows = chunks n (k / n) (concat d.2) := by
          intro d hd rows hr
          have hk := ha d hd
          obtain ⟨h1, rest, h2, h3⟩ := hr
          have hcount : rows.length = k / n := by
            have hfl : rows.flatten.length = rows.length * n := by
              clear h2
              induction rows with
              | nil => simp
              | cons a l ih =>
                rw [List.flatten_cons, List.length_append, ih fun p hp => h1 p (List.mem_cons_of_mem _ hp), h1 a List.mem_cons_self, List.length_cons, Nat.succ_mul, Nat.add_comm]
            have : rows.length * n + rest.length = k := by rw [← hk, ← h2, List.length_append, hfl]
            rw [← this, Nat.add_comm, Nat.add_mul_div_right _ _ hn, Nat.div_eq_of_lt h3, Nat.zero_add]
          rw [concat_eq, ← h2, ← hcount]
          clear hcount h2 hk
          induction rows with
          | nil => rfl
          | cons a l ih =>
            have la := h1 a List.mem_cons_self
            rw [List.length_cons, chunks, List.flatten_cons, List.append_assoc]
            congr 1
            · rw [← la, List.take_left]
            · have := ih fun p hp => h1 p (List.mem_cons_of_mem _ hp)
              rw [← la, List.drop_left, la]
              exact this
        unfold Column
        rw [List.mem_append, List.mem_filter, List.mem_map]
        constructor
        · rintro (⟨⟨d, hd, e⟩, _⟩ | e)
          · cases e
            refine ⟨d.2, hd, ?_⟩
            have := chunks_spec hn d.2.flatten
            rw [ha d hd] at this
            rw [concat_eq]
            exact this
          · simp only [List.mem_singleton, Prod.mk.injEq] at e
            exact absurd e.1 hx
        · rintro ⟨src, hs, hcut⟩
          exact .inl ⟨⟨(x, src), hs, by rw [unique (x, src) hs rows hcut]⟩, by simpa using hx⟩

/-- **C141.** The labels are the tokens. -/
theorem labels (tokenizer : List Char → Cols T) (n : Nat) (texts : List (List Char)) (out : Cols T) (h : tokenizeDataset tokenizer n texts = .ok out) :
    ∃ rows, Column out "input_ids" rows ∧ ∀ rows', Column out "label" rows' ↔ rows' = rows := by
  unfold tokenizeDataset groupTexts at h
  split at h
  · cases h
  · split at h
    · cases h
    · simp only at h
      split at h
      · cases h
      · rename_i d hd
        cases h
        have hm := List.mem_of_find?_eq_some hd
        have hp := List.find?_some hd
        simp only [decide_eq_true_eq] at hp
        refine ⟨d.2, ?_, fun rows' => ?_⟩
        · unfold Column
          rw [List.mem_append, List.mem_filter]
          exact .inl ⟨by rw [← hp]; exact hm, by simp⟩
        · unfold Column
          rw [List.mem_append, List.mem_filter]
          simp

/-- **C141 (partial).** With a limit that is positive and not beyond the end, as many items are given and announced; without, all of them.

Missing: a limit of zero (`zero_announces_all`) and limits beyond the end (`beyond_the_end`). -/
theorem limited_partial {A : Type} (items : List A) (limit : Option Int) (h : ∀ n, limit = some n → 0 < n ∧ n ≤ items.length) :
    ∃ l total, sliced items limit = .ok (l, total) ∧ l = items.take total.toNat ∧ total = l.length ∧ ∀ n, limit = some n → total = n := by
  cases limit with
  | none => exact ⟨items, items.length, rfl, by simp, rfl, fun n h => by cases h⟩
  | some n =>
    obtain ⟨h1, h2⟩ := h n rfl
    have h3 : ¬ n < 0 := by omega
    have h4 : n ≠ 0 := by omega
    refine ⟨items.take n.toNat, n, by simp [sliced, h3, h4], rfl, ?_, fun m hm => by cases hm; rfl⟩
    rw [List.length_take]
    omega

/-! ## Deviations -/

/-- **C141, deviation.** Columns are cut by the length of the first: tokens of a longer column are lost. -/
theorem uneven_columns (a : T) (k : Nat) :
    groupTexts 1 [("attention_mask", []), ("input_ids", [List.replicate k a])] = .ok [("attention_mask", []), ("input_ids", []), ("label", [])] := by
  simp [groupTexts, concat, chunks]

/-- **C141, deviation.** With a limit of zero, nothing is given and the whole length announced. -/
theorem zero_announces_all {A : Type} (items : List A) : sliced items (some 0) = .ok ([], (items.length : Int)) := by
  simp [sliced]

/-- **C141, deviation.** A limit beyond the end is announced although there are fewer items. -/
theorem beyond_the_end {A : Type} (items : List A) (k : Nat) :
    sliced items (some (items.length + k + 1 : Int)) = .ok (items, (items.length + k + 1 : Int)) := by
  have h1 : ¬ (items.length + k + 1 : Int) < 0 := by omega
  have h2 : (items.length + k + 1 : Int) ≠ 0 := by omega
  have h3 : items.length ≤ (items.length + k + 1 : Int).toNat := by omega
  simp [sliced, h1, h2, List.take_of_length_le h3]

/-! ## Concrete cases -/

example : tokenizeDataset (fun t => [("input_ids", [t]), ("attention_mask", [t.map fun _ => '1'])]) 3 [['a', 'b'], ['c', 'd', 'e']] =
    .ok [("input_ids", [['a', 'b', '\n'], ['\n', 'c', 'd']]), ("attention_mask", [['1', '1', '1'], ['1', '1', '1']]), ("label", [['a', 'b', '\n'], ['\n', 'c', 'd']])] := by
  rfl

example : Aligned (T := Char) [("input_ids", [['a', 'b'], ['c']]), ("attention_mask", [['1', '1', '1']])] 3 := by
  unfold Aligned; simp

example : sliced [1, 2, 3] (some 2) = .ok ([1, 2], 2) := by rfl

end FF.Chunks
