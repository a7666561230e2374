import Mathlib.Data.Nat.Digits.Defs
import Mathlib.Data.Nat.Digits.Lemmas

/-!
# Names of generated quantizers

Models `QuantizerReferenceCollection.disambiguate_all_names` (`_autoquant/pybuilder/quantizer_collection.py:108-149`).
-/

namespace FF.Names

/-! ## Model -/

/-- What `quantizer_collection.py:120-134` uses of a `QuantizerMetadata`: the key of its group (`None`, a module class, or a function)
and the base name. -/
structure Meta (S : Type) where
  scope : S
  name : List Char
deriving DecidableEq

/-- The prefix of `quantizer_collection.py:38`. -/
def pre : List Char := "quantizer_".toList

/-- `str(n)`. -/
def decimal (n : ℕ) : List Char := (Nat.digits 10 n).reverse.map (fun d => Char.ofNat (48 + d))

/-- `quantizer_collection.py:138-140`: the prefix is added unless it is there already. -/
def full (name : List Char) : List Char := (if pre.isPrefixOf name then [] else pre) ++ name

/-- `quantizer_collection.py:136-144` `get_name`. -/
def getName (name : List Char) (idx count : ℕ) : List Char :=
  if count > 1 then full name ++ '_' :: decimal (idx + 1) else full name

section
variable {S : Type} [DecidableEq S]

/-- The number of quantizers of the group and base name of `m` in `ms`. -/
def count (ms : List (Meta S)) (m : Meta S) : ℕ := (ms.filter (fun m' => decide (m' = m))).length

/-- `quantizer_collection.py:108-149`: the name of the `i`-th quantizer. Its position among the quantizers of the same group and base
name is the number of earlier ones. -/
def nameAt (ms : List (Meta S)) (i : ℕ) : Option (List Char) :=
  (ms[i]?).map (fun m => getName m.name (count (ms.take i) m) (count ms m))

end

/-! ## Lemmas -/

theorem digitChar_inj {a b : ℕ} (ha : a < 10) (hb : b < 10) (h : Char.ofNat (48 + a) = Char.ofNat (48 + b)) : a = b := by
  have : ∀ a : Fin 10, ∀ b : Fin 10, Char.ofNat (48 + a.1) = Char.ofNat (48 + b.1) → a = b := by decide
  have := this ⟨a, ha⟩ ⟨b, hb⟩ h
  exact congrArg Fin.val this

theorem digitChar_ne {a : ℕ} (ha : a < 10) : Char.ofNat (48 + a) ≠ '_' := by
  have : ∀ a : Fin 10, Char.ofNat (48 + a.1) ≠ '_' := by decide
  exact this ⟨a, ha⟩

theorem map_digits_inj : ∀ (l l' : List ℕ), (∀ d ∈ l, d < 10) → (∀ d ∈ l', d < 10) →
    l.map (fun d => Char.ofNat (48 + d)) = l'.map (fun d => Char.ofNat (48 + d)) → l = l'
  | [], [], _, _, _ => rfl
  | [], _ :: _, _, _, h => by cases h
  | _ :: _, [], _, _, h => by cases h
  | a :: l, b :: l', h1, h2, h => by
    rw [List.map_cons, List.map_cons, List.cons.injEq] at h
    rw [digitChar_inj (h1 a (.head _)) (h2 b (.head _)) h.1,
      map_digits_inj l l' (fun d hd => h1 d (.tail _ hd)) (fun d hd => h2 d (.tail _ hd)) h.2]

theorem decimal_inj {a b : ℕ} (h : decimal a = decimal b) : a = b := by
  unfold decimal at h
  have := map_digits_inj _ _
    (fun d hd => Nat.digits_lt_base (by decide) (List.mem_reverse.1 hd))
    (fun d hd => Nat.digits_lt_base (by decide) (List.mem_reverse.1 hd)) h
  exact Nat.digits_inj_iff.1 (List.reverse_injective this)

theorem decimal_no_underscore (n : ℕ) : '_' ∉ decimal n := by
  unfold decimal
  intro h
  obtain ⟨d, hd, he⟩ := List.mem_map.1 h
  exact digitChar_ne (Nat.digits_lt_base (by decide) (List.mem_reverse.1 hd)) he

theorem suffix_inj {p p' a b : List Char} (ha : '_' ∉ a) (hb : '_' ∉ b) (h : p ++ '_' :: a = p' ++ '_' :: b) : p = p' ∧ a = b := by
  rcases List.append_eq_append_iff.1 h with ⟨c, h1, h2⟩ | ⟨c, h1, h2⟩
  · cases c with
    | nil =>
      rw [List.nil_append, List.cons.injEq] at h2
      rw [List.append_nil] at h1
      exact ⟨h1.symm, h2.2⟩
    | cons x c =>
      rw [List.cons_append, List.cons.injEq] at h2
      exact absurd (h2.2 ▸ List.mem_append_right c (.head _)) ha
  · cases c with
    | nil =>
      rw [List.nil_append, List.cons.injEq] at h2
      rw [List.append_nil] at h1
      exact ⟨h1, h2.2.symm⟩
    | cons x c =>
      rw [List.cons_append, List.cons.injEq] at h2
      exact absurd (h2.2 ▸ List.mem_append_right c (.head _)) hb

section
variable {S : Type} [DecidableEq S]

theorem count_take_lt (ms : List (Meta S)) (m : Meta S) (i j : ℕ) (hij : i < j) (hi : ms[i]? = some m) :
    count (ms.take i) m < count (ms.take j) m := by
  unfold count
  obtain ⟨k, rfl⟩ := Nat.exists_eq_add_of_lt hij
  have hlt := (List.getElem?_eq_some_iff.1 hi).1
  have : ms.take (i + k + 1) = ms.take i ++ (m :: (ms.drop (i + 1)).take k) := by
    rw [Nat.add_assoc, List.take_add]
    congr 1
    rw [List.drop_eq_getElem_cons hlt, List.take_succ_cons, (List.getElem?_eq_some_iff.1 hi).2]
  rw [this, List.filter_append, List.length_append, List.filter_cons, if_pos (by simp), List.length_cons]
  omega

theorem count_take_le (ms : List (Meta S)) (m : Meta S) (j : ℕ) : count (ms.take j) m ≤ count ms m := by
  unfold count
  conv_rhs => rw [← List.take_append_drop j ms, List.filter_append, List.length_append]
  omega

/-- The base names of a scope do not clash: two different ones have different prefixed names, and the prefixed name of one is not the
numbered name of another. -/
def NoClash (ms : List (Meta S)) : Prop :=
  ∀ a ∈ ms, ∀ b ∈ ms, a.scope = b.scope → a.name ≠ b.name →
    full a.name ≠ full b.name ∧ ∀ k : ℕ, 1 ≤ k → k ≤ count ms a → 1 < count ms a → count ms b = 1 → full a.name ++ '_' :: decimal k ≠ full b.name

/-! ## Properties -/

/-- **C59 (partial).** Two different quantizers of a scope get different names, provided base names do not clash among each other. -/
theorem names_distinct_partial (ms : List (Meta S)) (hc : NoClash ms) (i j : ℕ) (a b : Meta S) (hij : i ≠ j) (ha : ms[i]? = some a)
    (hb : ms[j]? = some b) (hs : a.scope = b.scope) : nameAt ms i ≠ nameAt ms j := by
  have pos : ∀ m : Meta S, ∀ i, ms[i]? = some m → count (ms.take i) m + 1 ≤ count ms m := by
    intro m i hm
    have := count_take_lt ms m i (i + 1) (Nat.lt_succ_self i) hm
    have := count_take_le ms m (i + 1)
    omega
  have hma := List.mem_of_getElem? ha
  have hmb := List.mem_of_getElem? hb
  have pa := pos a i ha
  have pb := pos b j hb
  unfold nameAt
  rw [ha, hb]
  simp only [Option.map_some, ne_eq, Option.some.injEq]
  unfold getName
  intro h
  by_cases hn : a.name = b.name
  · have hab : a = b := by
      cases a; cases b
      simp only at hs hn
      rw [hs, hn]
    subst hab
    have hlt : 1 < count ms a := by
      rcases Nat.lt_or_gt_of_ne hij with hlt | hlt
      · have := count_take_lt ms a i j hlt ha
        omega
      · have := count_take_lt ms a j i hlt hb
        omega
    rw [if_pos hlt, if_pos hlt] at h
    have := decimal_inj (suffix_inj (decimal_no_underscore _) (decimal_no_underscore _) h).2
    rcases Nat.lt_or_gt_of_ne hij with hlt | hlt
    · have := count_take_lt ms a i j hlt ha
      omega
    · have := count_take_lt ms a j i hlt hb
      omega
  · have h1 := hc a hma b hmb hs hn
    have h2 := hc b hmb a hma hs.symm (Ne.symm hn)
    by_cases ca : 1 < count ms a
    · rw [if_pos ca] at h
      by_cases cb : 1 < count ms b
      · rw [if_pos cb] at h
        exact h1.1 (suffix_inj (decimal_no_underscore _) (decimal_no_underscore _) h).1
      · rw [if_neg cb] at h
        exact h1.2 _ (by omega) pa ca (by omega) h
    · rw [if_neg ca] at h
      by_cases cb : 1 < count ms b
      · rw [if_pos cb] at h
        exact h2.2 _ (by omega) pb cb (by omega) h.symm
      · rw [if_neg cb] at h
        exact h1.1 h

/-- **C59.** Quantizers of a scope with the same base name always get different names, however many other quantizers there are. -/
theorem same_base_name_distinct (ms : List (Meta S)) (i j : ℕ) (a : Meta S) (hij : i ≠ j) (ha : ms[i]? = some a)
    (hb : ms[j]? = some a) : nameAt ms i ≠ nameAt ms j := by
  have pos : ∀ m : Meta S, ∀ i, ms[i]? = some m → count (ms.take i) m + 1 ≤ count ms m := by
    intro m i hm
    have := count_take_lt ms m i (i + 1) (Nat.lt_succ_self i) hm
    have := count_take_le ms m (i + 1)
    omega
  have pa := pos a i ha
  have pb := pos a j hb
  unfold nameAt
  rw [ha, hb]
  simp only [Option.map_some, ne_eq, Option.some.injEq]
  unfold getName
  intro h
  rcases Nat.lt_or_gt_of_ne hij with hlt | hlt
  · have hk := count_take_lt ms a i j hlt ha
    rw [if_pos (by omega), if_pos (by omega)] at h
    have := decimal_inj (suffix_inj (decimal_no_underscore _) (decimal_no_underscore _) h).2
    omega
  · have hk := count_take_lt ms a j i hlt hb
    rw [if_pos (by omega), if_pos (by omega)] at h
    have := decimal_inj (suffix_inj (decimal_no_underscore _) (decimal_no_underscore _) h).2
    omega

/-- **C59.** Every generated name starts with the prefix, and contains the base name. -/
theorem name_has_prefix (ms : List (Meta S)) (i : ℕ) (m : Meta S) (h : ms[i]? = some m) :
    ∃ n rest, nameAt ms i = some n ∧ n = pre ++ rest ∧ ∃ l r, n = l ++ m.name ++ r := by
  have hf : ∃ rest, full m.name = pre ++ rest := by
    unfold full
    split
    · next hp =>
      obtain ⟨r, hr⟩ := List.isPrefixOf_iff_prefix.1 hp
      exact ⟨r, by rw [List.nil_append, hr]⟩
    · exact ⟨_, rfl⟩
  obtain ⟨rest, hrest⟩ := hf
  unfold nameAt
  rw [h]
  simp only [Option.map_some, Option.some.injEq]
  unfold getName
  split
  · exact ⟨_, rest ++ '_' :: decimal _, rfl, by rw [hrest, List.append_assoc], _, _, rfl⟩
  · exact ⟨_, rest, rfl, hrest, _, [], by rw [List.append_nil]; rfl⟩

end

/-- **C59, deviation.** Two quantizers named `x` and one named `x_1` in the same scope: the first `x` and `x_1` both become
`quantizer_x_1`. -/
theorem numbered_name_clashes :
    let ms : List (Meta ℕ) := [⟨0, "x".toList⟩, ⟨0, "x".toList⟩, ⟨0, "x_1".toList⟩]
    nameAt ms 0 = some "quantizer_x_1".toList ∧ nameAt ms 2 = some "quantizer_x_1".toList := by
  decide +kernel

/-- **C59, deviation.** Quantizers named `x` and `quantizer_x` both become `quantizer_x`. -/
theorem prefixed_name_clashes :
    let ms : List (Meta ℕ) := [⟨0, "x".toList⟩, ⟨0, "quantizer_x".toList⟩]
    nameAt ms 0 = some "quantizer_x".toList ∧ nameAt ms 1 = some "quantizer_x".toList := by
  decide +kernel

/-! ## Concrete cases -/

/-- Two scopes with overlapping names, without clashes. -/
def sample : List (Meta ℕ) :=
  [⟨0, "x".toList⟩, ⟨1, "x".toList⟩, ⟨0, "conv_weight".toList⟩, ⟨0, "x".toList⟩, ⟨0, "quantizer_out".toList⟩]

example : (List.range 5).map (nameAt sample) = [some "quantizer_x_1".toList, some "quantizer_x".toList,
    some "quantizer_conv_weight".toList, some "quantizer_x_2".toList, some "quantizer_out".toList] := by decide +kernel

example : NoClash sample := by
  intro a ha b hb _ hn
  have key : ∀ a ∈ sample, ∀ b ∈ sample, a.name ≠ b.name → full a.name ≠ full b.name
      ∧ (∀ k ∈ List.range 3, full a.name ++ '_' :: decimal k ≠ full b.name) ∧ count sample a ≤ 2 := by decide +kernel
  obtain ⟨h1, h2, h3⟩ := key a ha b hb hn
  exact ⟨h1, fun k _ hk _ _ => h2 k (List.mem_range.2 (by omega))⟩

end FF.Names
