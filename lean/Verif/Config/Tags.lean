/-
Quantizer tags: nn/quantizer.py (`Tag`, `QuantizerMetadata`) and the tag fragment of
quantization/quant_init.py.

Simplifications: symbols are lists of characters; a `Tag` object is the number of its entry in the
class-level table `Tag._tags`, so object identity is equality of numbers; a Python set of tags is a
list.
-/
import Mathlib.Data.List.Basic
import Mathlib.Tactic.Common
import Mathlib.Data.List.Nodup

namespace FF.Tags

/-- A tag symbol. -/
abbrev Sym := List Char

/-! ## Model -/

/-- `str.split(c)`, as used in nn/quantizer.py:75 and quant_init.py:66. -/
def split (c : Char) : List Char → List (List Char)
  | [] => [[]]
  | x :: xs =>
    if x = c then [] :: split c xs
    else match split c xs with
      | [] => [[x]]
      | p :: ps => (x :: p) :: ps

/-- `"/".join(parts)`: nn/quantizer.py:77. -/
def join (c : Char) : List (List Char) → List Char
  | [] => []
  | [p] => p
  | p :: q :: ps => p ++ c :: join c (q :: ps)

/-- The symbols of the tags yielded by `Tag.hierarchy`: nn/quantizer.py:65-77. -/
def hierarchy (s : Sym) : List Sym :=
  let parts := split '/' s
  (List.range parts.length).map (fun k => join '/' (parts.take (parts.length - k)))

/-- `Tag(symbol)` for a string: nn/quantizer.py:33-48.  The table lists the symbols in the order in
which their tags were created. -/
def intern (table : List Sym) (s : Sym) : Nat × List Sym :=
  if s ∈ table then (table.idxOf s, table) else (table.length, table ++ [s])

/-- `tag / rhs`: nn/quantizer.py:79-84, on symbols. -/
def slash (a b : Sym) : Sym := a ++ '/' :: b

/-- The tag table and the tag sets of the metadata objects created so far. -/
structure World where
  table : List Sym
  metas : List (List Nat)

/-- The loop of `add_tag`: nn/quantizer.py:193-194. -/
def addAll (table : List Sym) (ids : List Nat) : List Sym → List Sym × List Nat
  | [] => (table, ids)
  | s :: ss => addAll (intern table s).2 ((intern table s).1 :: ids) ss

/-- `QuantizerMetadata.add_tag`: nn/quantizer.py:187-194. -/
def addTag (p : List Sym × List Nat) (s : Sym) : List Sym × List Nat :=
  addAll (intern p.1 s).2 p.2 (hierarchy s)

/-- The default tags: nn/quantizer.py:93-98. -/
def parameterTag : Sym := "parameter".toList
/-- See `parameterTag`. -/
def activationTag : Sym := "activation".toList
/-- See `parameterTag`. -/
def weightTag : Sym := slash parameterTag "weight".toList
/-- See `parameterTag`. -/
def biasTag : Sym := slash parameterTag "bias".toList
/-- See `parameterTag`. -/
def inputTag : Sym := slash activationTag "input".toList
/-- See `parameterTag`. -/
def outputTag : Sym := slash activationTag "output".toList

/-- What happens to tags and metadata. -/
inductive Op where
  /-- `Tag(symbol)` -/
  | tag (s : Sym)
  /-- `QuantizerMetadata(*tags, weight_quantizer=..., ...)` -/
  | new (tags : List Sym) (weight bias input output : Bool)
  /-- `metadata.add_tag(symbol)` -/
  | add (k : Nat) (s : Sym)

/-- The tags `QuantizerMetadata.__init__` adds: nn/quantizer.py:169-179. -/
def initTags (tags : List Sym) (weight bias input output : Bool) : List Sym :=
  tags ++ (if weight then [weightTag] else []) ++ (if bias then [biasTag] else []) ++
    (if input then [inputTag] else []) ++ (if output then [outputTag] else [])

/-- The effect of one operation. -/
def step (w : World) : Op → World
  | .tag s => { w with table := (intern w.table s).2 }
  | .new tags a b c d =>
    let r := (initTags tags a b c d).foldl addTag (w.table, [])
    ⟨r.1, w.metas ++ [r.2]⟩
  | .add k s =>
    match w.metas[k]? with
    | some ids => let r := addTag (w.table, ids) s; ⟨r.1, w.metas.set k r.2⟩
    | none => w

/-- The world after a history, starting with an empty table. -/
def run (h : List Op) : World := h.foldl step ⟨[], []⟩

/-- `symbol in metadata`: nn/quantizer.py:200-201. -/
def contains (w : World) (k : Nat) (s : Sym) : Bool :=
  match w.metas[k]? with
  | some ids => ids.contains (intern w.table s).1
  | none => false

/-- `QuantizerTagSelectorFragment.match` for a quantizer whose metadata is object `k`:
quant_init.py:45-52. -/
def fragmentMatch (w : World) (k : Nat) : List Sym → Bool
  | [] => true
  | s :: ss => if !(contains w k s) then false else fragmentMatch w k ss

/-- `str.strip()`: blanks removed at both ends. -/
def strip (isSpace : Char → Bool) (s : List Char) : List Char :=
  ((s.dropWhile isSpace).reverse.dropWhile isSpace).reverse

/-- The tags of `[qtag:...]`: `QuantizerTagSelectorFragment.from_raw_string`,
quant_init.py:58-68. -/
def fromRaw (isSpace : Char → Bool) (raw : List Char) : List Sym :=
  (split ',' raw).map (strip isSpace)

/-! ## Specification -/

/-- `q` is `t` or one of the tags above it. -/
def Above (q t : Sym) : Prop := q = t ∨ ∃ r, t = q ++ '/' :: r

/-- The tags given to each metadata object in a history. -/
def given : List Op → List (List Sym)
  | h => h.foldl (fun acc o => match o with
      | .tag _ => acc
      | .new tags a b c d => acc ++ [initTags tags a b c d]
      | .add k s => acc.modify k (· ++ [s])) []

/-! ## Lemmas -/

theorem split_ne_nil (c : Char) (s : List Char) : split c s ≠ [] := by
  induction s with
  | nil => simp [split]
  | cons x xs ih =>
    unfold split
    split
    · simp
    · split <;> simp

theorem join_cons (c : Char) {p : List Char} {ps : List (List Char)} (h : ps ≠ []) :
    join c (p :: ps) = p ++ c :: join c ps := by
  cases ps with
  | nil => exact absurd rfl h
  | cons q ps => rfl

theorem join_split (c : Char) (s : List Char) : join c (split c s) = s := by
  induction s with
  | nil => rfl
  | cons x xs ih =>
    unfold split
    split
    · rename_i h
      rw [join_cons c (split_ne_nil c xs), ih, h]; rfl
    · split
      · rename_i h; exact absurd h (split_ne_nil c xs)
      · rename_i p ps h
        rw [h] at ih
        cases ps with
        | nil => simp [join] at ih ⊢; exact ih
        | cons q ps => simp [join] at ih ⊢; exact ih

theorem split_append (c : Char) (a b : List Char) :
    split c (a ++ c :: b) = split c a ++ split c b := by
  induction a with
  | nil => simp [split]
  | cons x xs ih =>
    simp only [List.cons_append]
    rw [split, split]
    split
    · rw [ih]; rfl
    · rw [ih]
      cases h : split c xs with
      | nil => exact absurd h (split_ne_nil c xs)
      | cons p ps => rfl

theorem split_no_sep (c : Char) (s : List Char) : ∀ p ∈ split c s, c ∉ p := by
  induction s with
  | nil => simp [split]
  | cons x xs ih =>
    unfold split
    split
    · intro p hp
      rcases List.mem_cons.1 hp with rfl | hp
      · simp
      · exact ih p hp
    · rename_i hx
      split
      · rename_i h; exact absurd h (split_ne_nil c xs)
      · rename_i q ps h
        rw [h] at ih
        intro p hp
        rcases List.mem_cons.1 hp with rfl | hp
        · have := ih q (by simp)
          simp only [List.mem_cons, not_or]
          exact ⟨fun hh => hx hh.symm, this⟩
        · exact ih p (by simp [hp])

theorem split_single (c : Char) {p : List Char} (h : c ∉ p) : split c p = [p] := by
  induction p with
  | nil => rfl
  | cons x xs ih =>
    simp only [List.mem_cons, not_or] at h
    rw [split, if_neg (fun hh => h.1 hh.symm), ih h.2]

theorem split_join (c : Char) (ps : List (List Char)) (hne : ps ≠ []) (h : ∀ p ∈ ps, c ∉ p) :
    split c (join c ps) = ps := by
  induction ps with
  | nil => exact absurd rfl hne
  | cons p ps ih =>
    cases ps with
    | nil => exact split_single c (h p (by simp))
    | cons q ps =>
      rw [join_cons c (by simp), split_append, split_single c (h p (by simp)),
        ih (by simp) (fun p hp => h p (by simp [hp]))]
      rfl

theorem join_append (c : Char) {a b : List (List Char)} (ha : a ≠ []) (hb : b ≠ []) :
    join c (a ++ b) = join c a ++ c :: join c b := by
  induction a with
  | nil => exact absurd rfl ha
  | cons p a ih =>
    cases a with
    | nil => simp [join_cons c hb, join]
    | cons q a =>
      rw [List.cons_append, join_cons c (by simp), ih (by simp), join_cons (ps := q :: a) c (by simp)]
      simp

theorem mem_hierarchy (q s : Sym) : q ∈ hierarchy s ↔ Above q s := by
  have hne := split_ne_nil '/' s
  constructor
  · intro h
    simp only [hierarchy, List.mem_map, List.mem_range] at h
    obtain ⟨k, hk, rfl⟩ := h
    cases k with
    | zero =>
      left
      simp only [Nat.sub_zero, List.take_length]
      exact join_split '/' s
    | succ k =>
      right
      set n := (split '/' s).length with hn
      have h1 : (split '/' s).take (n - (k + 1)) ≠ [] := by
        intro h
        have := congrArg List.length h
        rw [List.length_take, List.length_nil] at this
        omega
      have h2 : (split '/' s).drop (n - (k + 1)) ≠ [] := by
        intro h
        have := congrArg List.length h
        rw [List.length_drop, List.length_nil] at this
        omega
      refine ⟨join '/' ((split '/' s).drop (n - (k + 1))), ?_⟩
      rw [← join_append '/' h1 h2, List.take_append_drop, join_split]
  · rintro (rfl | ⟨r, rfl⟩)
    · simp only [hierarchy, List.mem_map, List.mem_range]
      refine ⟨0, List.length_pos_iff.2 hne, ?_⟩
      rw [Nat.sub_zero, List.take_length, join_split]
    · simp only [hierarchy, List.mem_map, List.mem_range, split_append, List.length_append]
      have h1 : 0 < (split '/' q).length := List.length_pos_iff.2 (split_ne_nil _ _)
      refine ⟨(split '/' r).length, by omega, ?_⟩
      rw [Nat.add_sub_cancel, List.take_left, join_split]

/-- The tag with number `i` has symbol `s`. -/
def Names (table : List Sym) (i : Nat) (s : Sym) : Prop := table[i]? = some s

/-- No symbol occurs twice, and every tag in use is in the table. -/
structure Ok (table : List Sym) (ids : List Nat) : Prop where
  nodup : table.Nodup
  bound : ∀ i ∈ ids, i < table.length

theorem intern_names (table : List Sym) (s : Sym) :
    Names (intern table s).2 (intern table s).1 s := by
  unfold intern Names
  split
  · rename_i h
    have hlt := List.idxOf_lt_length_iff.2 h
    simp [List.getElem?_eq_getElem hlt]
  · simp

theorem intern_prefix (table : List Sym) (s : Sym) :
    ∃ ext, (intern table s).2 = table ++ ext ∧ (intern table s).2.Nodup = table.Nodup := by
  unfold intern
  split
  · exact ⟨[], by simp, rfl⟩
  · rename_i h
    refine ⟨[s], rfl, ?_⟩
    simp only [eq_iff_iff]
    constructor
    · intro hh; exact (List.nodup_append.1 hh).1
    · intro hh
      rw [List.nodup_append]
      refine ⟨hh, by simp, ?_⟩
      intro a ha b hb
      simp at hb
      rintro rfl
      exact h (hb ▸ ha)

theorem Names.ext {table ext : List Sym} {i : Nat} {s : Sym} (h : Names table i s) :
    Names (table ++ ext) i s := by
  unfold Names at h ⊢
  obtain ⟨hi, _⟩ := List.getElem?_eq_some_iff.1 h
  rw [List.getElem?_append_left hi, h]

theorem names_inj {table : List Sym} (hn : table.Nodup) {i j : Nat} {s : Sym}
    (hi : Names table i s) (hj : Names table j s) : i = j := by
  obtain ⟨h1, e1⟩ := List.getElem?_eq_some_iff.1 hi
  obtain ⟨h2, e2⟩ := List.getElem?_eq_some_iff.1 hj
  exact (List.getElem_inj hn).1 (e1.trans e2.symm)

/-- The symbols a set of tags stands for. -/
def Syms (table : List Sym) (ids : List Nat) (s : Sym) : Prop := ∃ i ∈ ids, Names table i s

theorem Ok.ext {table ext : List Sym} {ids : List Nat} (h : Ok table ids)
    (hn : (table ++ ext).Nodup) : Ok (table ++ ext) ids :=
  ⟨hn, fun i hi => by have := h.bound i hi; simp; omega⟩

theorem syms_ext {table ext : List Sym} {ids : List Nat} (h : Ok table ids) (s : Sym) :
    Syms (table ++ ext) ids s ↔ Syms table ids s := by
  constructor
  · rintro ⟨i, hi, hn⟩
    refine ⟨i, hi, ?_⟩
    unfold Names at hn ⊢
    rwa [List.getElem?_append_left (h.bound i hi)] at hn
  · rintro ⟨i, hi, hn⟩
    exact ⟨i, hi, hn.ext⟩

/-- What an update of a table and a set of tags achieves. -/
def Grows (p r : List Sym × List Nat) (S : Sym → Prop) : Prop :=
  (∃ ext, r.1 = p.1 ++ ext) ∧ Ok r.1 r.2 ∧ ∀ s, Syms r.1 r.2 s ↔ Syms p.1 p.2 s ∨ S s

theorem addAll_grows : ∀ (ss : List Sym) (table : List Sym) (ids : List Nat), Ok table ids →
    Grows (table, ids) (addAll table ids ss) (· ∈ ss)
  | [], table, ids, h => ⟨⟨[], by simp [addAll]⟩, h, by simp [addAll]⟩
  | s :: ss, table, ids, h => by
    obtain ⟨ext, e1, e2⟩ := intern_prefix table s
    have hnm := intern_names table s
    have hnd : (intern table s).2.Nodup := e2 ▸ h.nodup
    have h' : Ok (intern table s).2 ((intern table s).1 :: ids) := by
      refine ⟨hnd, ?_⟩
      intro i hi
      rcases List.mem_cons.1 hi with rfl | hi
      · exact (List.getElem?_eq_some_iff.1 hnm).1
      · have := h.bound i hi
        rw [e1]; simp; omega
    obtain ⟨⟨ext', f1⟩, f2, f3⟩ := addAll_grows ss _ _ h'
    refine ⟨⟨ext ++ ext', by simp only [addAll]; rw [f1, e1]; simp⟩, f2, ?_⟩
    intro q
    simp only [addAll]
    rw [f3]
    have : Syms (intern table s).2 ((intern table s).1 :: ids) q ↔ Syms table ids q ∨ q = s := by
      constructor
      · rintro ⟨i, hi, hn⟩
        rcases List.mem_cons.1 hi with rfl | hi
        · right
          unfold Names at hn hnm
          rw [hnm] at hn
          exact (Option.some.inj hn).symm
        · left
          rw [e1] at hn
          exact (syms_ext h q).1 ⟨i, hi, hn⟩
      · rintro (⟨i, hi, hn⟩ | rfl)
        · exact ⟨i, by simp [hi], e1 ▸ hn.ext⟩
        · exact ⟨_, by simp, hnm⟩
    rw [this]
    simp only [List.mem_cons]
    tauto

theorem addTag_grows (p : List Sym × List Nat) (s : Sym) (h : Ok p.1 p.2) :
    Grows p (addTag p s) (fun q => Above q s) := by
  obtain ⟨ext, e1, e2⟩ := intern_prefix p.1 s
  have h' : Ok (intern p.1 s).2 p.2 := e1 ▸ h.ext (e1 ▸ (e2 ▸ h.nodup))
  obtain ⟨⟨ext', f1⟩, f2, f3⟩ := addAll_grows (hierarchy s) _ _ h'
  refine ⟨⟨ext ++ ext', by unfold addTag; rw [f1, e1]; simp⟩, f2, ?_⟩
  intro q
  unfold addTag
  rw [f3, e1, syms_ext h]
  exact or_congr Iff.rfl (mem_hierarchy q s)

theorem addTags_grows : ∀ (ss : List Sym) (p : List Sym × List Nat), Ok p.1 p.2 →
    Grows p (ss.foldl addTag p) (fun q => ∃ s ∈ ss, Above q s)
  | [], p, h => ⟨⟨[], by simp⟩, h, by simp⟩
  | s :: ss, p, h => by
    obtain ⟨⟨x1, e1⟩, e2, e3⟩ := addTag_grows p s h
    obtain ⟨⟨x2, f1⟩, f2, f3⟩ := addTags_grows ss _ e2
    refine ⟨⟨x1 ++ x2, by rw [List.foldl_cons, f1, e1]; simp⟩, f2, ?_⟩
    intro q
    rw [List.foldl_cons, f3, e3]
    simp only [List.mem_cons, exists_eq_or_imp]
    tauto

/-- The state of the world matches the tags given. -/
structure Inv (w : World) (g : List (List Sym)) : Prop where
  nodup : w.table.Nodup
  len : w.metas.length = g.length
  ok : ∀ (k : Nat) ids, w.metas[k]? = some ids → Ok w.table ids
  syms : ∀ (k : Nat) ids ts, w.metas[k]? = some ids → g[k]? = some ts →
    ∀ q, Syms w.table ids q ↔ ∃ s ∈ ts, Above q s

/-- One step of `given`. -/
def giveStep (acc : List (List Sym)) (o : Op) : List (List Sym) := match o with
  | .tag _ => acc
  | .new tags a b c d => acc ++ [initTags tags a b c d]
  | .add k s => acc.modify k (· ++ [s])

theorem given_eq (h : List Op) : given h = h.foldl giveStep [] := rfl

theorem Inv.grow {w : World} {g : List (List Sym)} (h : Inv w g) (ext : List Sym)
    (hn : (w.table ++ ext).Nodup) : Inv { w with table := w.table ++ ext } g :=
  ⟨hn, h.len, fun k ids hk => (h.ok k ids hk).ext hn,
    fun k ids ts hk hg q => by rw [syms_ext (h.ok k ids hk)]; exact h.syms k ids ts hk hg q⟩

theorem inv_step {w : World} {g : List (List Sym)} (h : Inv w g) (o : Op) :
    Inv (step w o) (giveStep g o) := by
  cases o with
  | tag s =>
    obtain ⟨ext, e1, e2⟩ := intern_prefix w.table s
    simp only [step, giveStep]
    rw [e1]
    exact h.grow ext (e1 ▸ (e2 ▸ h.nodup))
  | new tags a b c d =>
    obtain ⟨⟨ext, e1⟩, e2, e3⟩ := addTags_grows (initTags tags a b c d) (w.table, [])
      ⟨h.nodup, by simp⟩
    simp only [step, giveStep]
    dsimp only at e1
    have h' := h.grow ext (e1 ▸ e2.nodup)
    rw [← e1] at h'
    refine ⟨e2.nodup, by simp [h.len], ?_, ?_⟩
    · intro k ids hk
      simp only [List.getElem?_append] at hk
      split at hk
      · exact h'.ok k ids hk
      · rename_i hlt
        cases hkk : k - w.metas.length with
        | zero => simp [hkk] at hk; rw [← hk]; exact e2
        | succ n => simp [hkk] at hk
    · intro k ids ts hk hg q
      simp only [List.getElem?_append] at hk
      rw [List.getElem?_append] at hg
      rw [← h.len] at hg
      split at hk
      · rename_i hlt
        rw [if_pos hlt] at hg
        exact h'.syms k ids ts hk hg q
      · rename_i hlt
        rw [if_neg hlt] at hg
        cases hkk : k - w.metas.length with
        | zero =>
          simp [hkk] at hk hg
          rw [← hk, ← hg]
          have := e3 q
          have hno : ¬ Syms w.table [] q := by rintro ⟨i, hi, _⟩; cases hi
          simp only [hno, false_or] at this
          exact this
        | succ n => simp [hkk] at hk
  | add k s =>
    simp only [step, giveStep]
    cases hk : w.metas[k]? with
    | none =>
      dsimp only
      have : g.length ≤ k := by
        rw [← h.len]; exact List.getElem?_eq_none_iff.1 hk
      rw [List.modify_eq_set_getElem?, List.getElem?_eq_none this]
      simpa using h
    | some ids =>
      dsimp only
      obtain ⟨⟨ext, e1⟩, e2, e3⟩ := addTag_grows (w.table, ids) s (h.ok k ids hk)
      dsimp only at e1 e3
      have h' := h.grow ext (e1 ▸ e2.nodup)
      rw [← e1] at h'
      have hkl : k < w.metas.length := (List.getElem?_eq_some_iff.1 hk).1
      refine ⟨e2.nodup, by simp [h.len], ?_, ?_⟩
      · intro j ids' hj
        rw [List.getElem?_set] at hj
        split at hj
        · rw [← Option.some.inj hj]; exact e2
        · exact h'.ok j ids' hj
      · intro j ids' ts hj hg q
        rw [List.getElem?_set] at hj
        rw [List.getElem?_modify] at hg
        split at hj
        · rename_i hkj
          subst hkj
          rw [← Option.some.inj hj, e3 q]
          have hgk : k < g.length := by rw [← h.len]; exact hkl
          rw [List.getElem?_eq_getElem hgk] at hg
          simp at hg
          rw [h.syms k ids g[k] hk (List.getElem?_eq_getElem hgk) q, ← hg]
          simp only [List.mem_append, List.mem_singleton]
          constructor
          · rintro (⟨t, h1, h2⟩ | h1)
            · exact ⟨t, .inl h1, h2⟩
            · exact ⟨s, .inr rfl, h1⟩
          · rintro ⟨t, h1 | rfl, h2⟩
            · exact .inl ⟨t, h1, h2⟩
            · exact .inr h2
        · rename_i hkj
          simp [hkj] at hg
          exact h'.syms j ids' ts hj hg q

theorem inv_run (h : List Op) : Inv (run h) (given h) := by
  rw [given_eq]
  have : ∀ (h : List Op) w g, Inv w g → Inv (h.foldl step w) (h.foldl giveStep g) := by
    intro h
    induction h with
    | nil => intro w g hi; exact hi
    | cons o h ih => intro w g hi; exact ih _ _ (inv_step hi o)
  exact this h _ _ ⟨by simp, rfl, by simp, by simp⟩

theorem contains_iff_syms {w : World} {g : List (List Sym)} (hw : Inv w g) {k : Nat} {ids}
    (hk : w.metas[k]? = some ids) (q : Sym) : contains w k q = true ↔ Syms w.table ids q := by
  obtain ⟨ext, e1, e2⟩ := intern_prefix w.table q
  have hnm := intern_names w.table q
  have hnd : (intern w.table q).2.Nodup := e2 ▸ hw.nodup
  simp only [contains, hk, List.contains_iff_mem]
  constructor
  · intro h
    refine (syms_ext (ext := ext) (hw.ok k ids hk) q).1 ?_
    rw [← e1]
    exact ⟨_, h, hnm⟩
  · rintro ⟨i, hi, hn⟩
    have : Names (intern w.table q).2 i q := e1 ▸ hn.ext
    rw [← names_inj hnd this hnm]
    exact hi

/-! ## Properties -/

/-- **C39.**  After any history, a metadata object contains a tag exactly when one of the tags it was
given is that tag or lies below it. -/
theorem contains_iff_above (h : List Op) (k : Nat) (ts : List Sym) (hk : (given h)[k]? = some ts)
    (q : Sym) : contains (run h) k q = true ↔ ∃ s ∈ ts, Above q s := by
  have hw := inv_run h
  have hlt : k < (run h).metas.length := by
    rw [hw.len]; exact (List.getElem?_eq_some_iff.1 hk).1
  rw [contains_iff_syms hw (List.getElem?_eq_getElem hlt)]
  exact hw.syms k _ ts (List.getElem?_eq_getElem hlt) hk q

/-- **C39.**  A tag query matches a quantizer exactly when each of its tags is, or lies above, a tag
the quantizer was given. -/
theorem tag_query_iff (h : List Op) (k : Nat) (ts : List Sym) (hk : (given h)[k]? = some ts)
    (query : List Sym) :
    fragmentMatch (run h) k query = true ↔ ∀ q ∈ query, ∃ s ∈ ts, Above q s := by
  induction query with
  | nil => simp [fragmentMatch]
  | cons q query ih =>
    have := contains_iff_above h k ts hk q
    unfold fragmentMatch
    cases hc : contains (run h) k q with
    | true =>
      rw [hc] at this
      simp only [Bool.not_true, Bool.false_eq_true, if_false, ih, List.mem_cons, forall_eq_or_imp]
      exact ⟨fun hh => ⟨this.1 rfl, hh⟩, fun hh => hh.2⟩
    | false =>
      rw [hc] at this
      simp only [Bool.not_false, if_true, Bool.false_eq_true, List.mem_cons, forall_eq_or_imp,
        false_iff, not_and]
      intro hh
      exact absurd (this.2 hh) (by simp)

/-- **C39.**  Tags are interned: whenever two tags are made, with anything in between, they are the
same object exactly when their symbols are equal. -/
theorem tags_interned (h h' : List Op) (s t : Sym) :
    (intern (run h).table s).1 = (intern (run (h ++ .tag s :: h')).table t).1 ↔ s = t := by
  have hpre : ∃ ext, (run (h ++ .tag s :: h')).table = (intern (run h).table s).2 ++ ext := by
    have hext : ∀ (h' : List Op) w g, Inv w g → ∃ ext, (h'.foldl step w).table = w.table ++ ext := by
      intro h'
      induction h' with
      | nil => intro w g _; exact ⟨[], by simp⟩
      | cons o h' ih =>
        intro w g hw
        obtain ⟨ext, e⟩ := ih _ _ (inv_step hw o)
        have : ∃ ext, (step w o).table = w.table ++ ext := by
          cases o with
          | tag s => obtain ⟨x, e, _⟩ := intern_prefix w.table s; exact ⟨x, e⟩
          | new tags a b c d =>
            exact (addTags_grows (initTags tags a b c d) (w.table, []) ⟨hw.nodup, by simp⟩).1
          | add k s =>
            simp only [step]
            cases hk : w.metas[k]? with
            | none => exact ⟨[], by simp⟩
            | some ids => exact (addTag_grows (w.table, ids) s (hw.ok k ids hk)).1
        obtain ⟨ext', e'⟩ := this
        exact ⟨ext' ++ ext, by rw [List.foldl_cons, e, e']; simp⟩
    have hw := inv_run h
    obtain ⟨ext, e⟩ := hext h' _ _ (inv_step hw (.tag s))
    refine ⟨ext, ?_⟩
    have : run (h ++ .tag s :: h') = h'.foldl step (step (run h) (.tag s)) := by
      simp [run, List.foldl_append]
    rw [this, e]
    rfl
  obtain ⟨ext, e⟩ := hpre
  have hnd : (intern (run (h ++ .tag s :: h')).table t).2.Nodup :=
    (intern_prefix (run (h ++ .tag s :: h')).table t).choose_spec.2 ▸ (inv_run _).nodup
  have hs : Names (intern (run (h ++ .tag s :: h')).table t).2 (intern (run h).table s).1 s := by
    obtain ⟨x, e1, _⟩ := intern_prefix (run (h ++ .tag s :: h')).table t
    rw [e1, e]
    exact (intern_names _ _).ext.ext
  have ht := intern_names (run (h ++ .tag s :: h')).table t
  constructor
  · intro he
    rw [he] at hs
    unfold Names at hs ht
    rw [hs] at ht
    exact Option.some.inj ht
  · rintro rfl
    exact names_inj hnd hs ht

theorem dropWhile_blank {p : Char → Bool} {w s : List Char} (hw : ∀ c ∈ w, p c = true)
    (hs : ∀ c r, s = c :: r → p c = false) : (w ++ s).dropWhile p = s := by
  induction w with
  | nil =>
    cases s with
    | nil => rfl
    | cons c r => simp [hs c r rfl]
  | cons c w ih =>
    simp only [List.cons_append, List.dropWhile_cons, hw c (by simp), if_true]
    exact ih (fun c hc => hw c (by simp [hc]))

/-- A symbol that neither starts nor ends with a blank. -/
def Trim (p : Char → Bool) (s : Sym) : Prop :=
  (∀ c r, s = c :: r → p c = false) ∧ (∀ c r, s.reverse = c :: r → p c = false)

theorem strip_padded {p : Char → Bool} {a s b : List Char} (ha : ∀ c ∈ a, p c = true)
    (hb : ∀ c ∈ b, p c = true) (hs : Trim p s) : strip p (a ++ s ++ b) = s := by
  unfold strip
  cases s with
  | nil =>
    have : (a ++ [] ++ b).dropWhile p = [] := by
      have := dropWhile_blank (p := p) (w := a ++ b) (s := [])
        (by intro c hc; rcases List.mem_append.1 hc with h | h; exact ha c h; exact hb c h) (by simp)
      simpa using this
    rw [this]; rfl
  | cons c r =>
    rw [List.append_assoc, dropWhile_blank ha (by intro x y h; simp at h; rw [← h.1]; exact hs.1 c r rfl),
      List.reverse_append, dropWhile_blank (by simpa using hb) hs.2, List.reverse_reverse]

/-- **C39.**  The tags in `[qtag:a, b, ...]` are read off as written: any blanks around the commas are
ignored. -/
theorem fromRaw_reads (p : Char → Bool) (hcomma : p ',' = false)
    (items : List (List Char × Sym × List Char)) (hne : items ≠ [])
    (h : ∀ x ∈ items, (∀ c ∈ x.1, p c = true) ∧ Trim p x.2.1 ∧ ',' ∉ x.2.1 ∧
      ∀ c ∈ x.2.2, p c = true) :
    fromRaw p (join ',' (items.map (fun x => x.1 ++ x.2.1 ++ x.2.2))) = items.map (fun x => x.2.1) := by
  unfold fromRaw
  rw [split_join ',' _ (by simpa using hne), List.map_map]
  · apply List.map_congr_left
    intro x hx
    obtain ⟨h1, h2, _, h4⟩ := h x hx
    exact strip_padded h1 h4 h2
  · intro s hs
    obtain ⟨x, hx, rfl⟩ := List.mem_map.1 hs
    obtain ⟨h1, _, h3, h4⟩ := h x hx
    simp only [List.mem_append, not_or]
    refine ⟨⟨fun hh => ?_, h3⟩, fun hh => ?_⟩
    · have := h1 _ hh; rw [hcomma] at this; cases this
    · have := h4 _ hh; rw [hcomma] at this; cases this

/-- **C39.**  `tag / name` makes a tag directly below. -/
theorem slash_above (a b : Sym) : Above a (slash a b) := .inr ⟨b, rfl⟩

theorem above_iff (q t : Sym) : Above q t ↔ q = t ∨ (q ++ ['/']) <+: t := by
  unfold Above
  refine or_congr_right ⟨?_, ?_⟩
  · rintro ⟨r, rfl⟩; exact ⟨r, by simp⟩
  · rintro ⟨r, rfl⟩; exact ⟨r, by simp⟩

instance (q t : Sym) : Decidable (Above q t) := decidable_of_iff _ (above_iff q t).symm

/-- **C39.**  The kind of a quantizer, given when its metadata is created, decides which of the
built-in tags match it. -/
theorem kind_tags (h : List Op) (w b i o : Bool) :
    let c := fun q : String =>
      contains (run (h ++ [.new [] w b i o])) (given h).length q.toList
    c "parameter/weight" = w ∧ c "parameter/bias" = b ∧ c "parameter" = (w || b) ∧
    c "activation/input" = i ∧ c "activation/output" = o ∧ c "activation" = (i || o) := by
  have hk : (given (h ++ [.new [] w b i o]))[(given h).length]? = some (initTags [] w b i o) := by
    simp [given, List.foldl_append]
  have hc : ∀ q : Sym, contains (run (h ++ [.new [] w b i o])) (given h).length q =
      decide (∃ s ∈ initTags [] w b i o, Above q s) := by
    intro q
    rw [Bool.eq_iff_iff, contains_iff_above _ _ _ hk q, decide_eq_true_iff]
  simp only [hc]
  revert w b i o
  intro w b i o _ _
  clear * -
  revert w b i o
  decide +kernel

/-! ## Concrete cases -/

/-- A weight quantizer and an unrelated one. -/
def demo : List Op :=
  [.new [] true false false false, .tag "parameter".toList, .new ["custom/a".toList] false false true false,
    .add 0 "custom".toList]

example : (given demo)[0]? = some [weightTag, "custom".toList] := by decide

example : contains (run demo) 0 "parameter".toList = true ∧
    contains (run demo) 0 "parameter/weight".toList = true ∧
    contains (run demo) 0 "weight".toList = false ∧
    contains (run demo) 0 "param".toList = false ∧
    contains (run demo) 0 "custom/a".toList = false ∧
    fragmentMatch (run demo) 1 ["custom".toList, "activation".toList] = true := by
  decide +kernel

example : fromRaw (· == ' ') "parameter/weight , custom".toList =
    ["parameter/weight".toList, "custom".toList] := by decide +kernel

end FF.Tags
