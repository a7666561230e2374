import Mathlib.Data.List.Basic
import Mathlib.Data.Nat.Notation

/-!
# Metadata and vocabulary of an exported GGUF file

Models the parts of a GGUF file that are not tensors: the description of the architecture (`_write_common_metadata` and `_write_qwen3_metadata` in
`/repo/src/fastforward/export/stages/gguf/_arch.py`) and the vocabulary (`write_vocab` in `_vocab.py`).
-/

namespace FF.GgufMeta

/-! ### Model -/

/-- The keys that are written. -/
inductive Key where
  | contextLength | embeddingLength | blockCount | feedForwardLength | headCount | headCountKv | ropeFreqBase | rmsEps | vocabSize
  | ropeScalingType | ropeScalingFactor | keyLength | valueLength
  deriving DecidableEq, Repr

/-- Values: numbers, real numbers (of type `F`) and texts. -/
inductive Val (F : Type) where
  | nat (n : ℕ)
  | real (x : F)
  | text (s : String)
  deriving DecidableEq, Repr

/-- The dictionary `rope_scaling` of a model configuration; `more` says that it has other keys. -/
structure Scaling (F : Type) where
  type : Option String
  ropeType : Option String
  factor : Option F
  more : Bool
  deriving DecidableEq, Repr

/-- The configuration of a model; fields that a configuration need not have are optional. -/
structure Config (F : Type) where
  ctx : ℕ
  emb : ℕ
  blocks : ℕ
  ff : ℕ
  heads : ℕ
  kvHeads : Option ℕ
  theta : Option F
  eps : F
  vocab : ℕ
  scaling : Option (Scaling F)
  headDim : Option ℕ
  deriving DecidableEq, Repr

variable {F : Type}

/-- `if rope_scaling` (`_arch.py:132-133`): an empty dictionary counts as none. -/
def Scaling.truthy (s : Scaling F) : Bool := s.type.isSome || s.ropeType.isSome || s.factor.isSome || s.more

/-- `scaling_type` (134). -/
def Scaling.kind (s : Scaling F) : String := s.type.getD (s.ropeType.getD "")

/-- The members of `RopeScalingType`. -/
def known : List String := ["none", "linear", "yarn", "longrope"]

/-- What is written about scaling (132-142). -/
def scalingKv (o : Option (Scaling F)) : List (Key × Val F) :=
  match o with
  | some s =>
    if s.truthy then
      (if s.kind ∈ known then [(.ropeScalingType, .text s.kind)] else [])
        ++ (match s.factor with
          | some x => [(.ropeScalingFactor, .real x)]
          | none => [])
    else [(.ropeScalingType, .text "none")]
  | none => [(.ropeScalingType, .text "none")]

/-- `_write_common_metadata` (115-142). `million` is the base written if the configuration has none. -/
def common (million : F) (c : Config F) : List (Key × Val F) :=
  [(.contextLength, .nat c.ctx), (.embeddingLength, .nat c.emb), (.blockCount, .nat c.blocks), (.feedForwardLength, .nat c.ff),
    (.headCount, .nat c.heads), (.headCountKv, .nat (c.kvHeads.getD c.heads)), (.ropeFreqBase, .real (c.theta.getD million)),
    (.rmsEps, .real c.eps), (.vocabSize, .nat c.vocab)] ++ scalingKv c.scaling

/-- `_write_qwen3_metadata` (145-151). -/
def qwen (million : F) (c : Config F) : List (Key × Val F) :=
  common million c ++ match c.headDim with
    | some d => [(.keyLength, .nat d), (.valueLength, .nat d)]
    | none => []

/-- The kinds of tokens that are written. -/
inductive TokType where
  | control | userDefined | normal | unused
  deriving DecidableEq, Repr

/-- A tokenizer: its vocabulary, the tokens added to it, and the ids of special tokens. -/
structure Tok where
  vocab : List (String × ℕ)
  added : List String
  special : List ℕ

/-- `id_to_token` (`_vocab.py:48`): a later token replaces an earlier one with the same id. -/
def tokenAt (t : Tok) (i : ℕ) : Option String := (t.vocab.reverse.find? fun p => p.2 = i).map (·.1)

/-- The text written for an id without token (62). -/
def pad (i : ℕ) : String := "[PAD" ++ toString i ++ "]"

/-- One iteration (51-63). -/
def entry (t : Tok) (i : ℕ) : String × TokType :=
  match tokenAt t i with
  | some tok => (tok, if i ∈ t.special then .control else if tok ∈ t.added then .userDefined else .normal)
  | none => (pad i, .unused)

/-- The tokens and their types (49-63). -/
def written (t : Tok) (size : ℕ) : List (String × TokType) := (List.range size).map (entry t)

/-- The directory that merges and special tokens are read from (73-82): the one the tokenizer is named after if there is one, else a new one that the
tokenizer is saved to. `D` is the contents of a directory. -/
def mergesDir {D : Type} (disk : String → Option D) (path : String) (own : D) : D :=
  if path = "" then own else (disk path).getD own

/-! ### Specification -/

/-- The file says `v` for key `k`, and says it once. -/
def Says (file : List (Key × Val F)) (k : Key) (v : Val F) : Prop := ∃ a b, file = a ++ (k, v) :: b ∧ (∀ w, (k, w) ∉ a) ∧ ∀ w, (k, w) ∉ b

/-- The file says nothing about the key. -/
def Silent (file : List (Key × Val F)) (k : Key) : Prop := ∀ v, (k, v) ∉ file

/-- How llama.cpp scales positions with this file: without a type the scaling is linear, without a factor it does not scale. -/
inductive Scales (file : List (Key × Val F)) : String → Option F → Prop
  | both (s x) : Says file .ropeScalingType (.text s) → Says file .ropeScalingFactor (.real x) → Scales file s (some x)
  | kind (s) : Says file .ropeScalingType (.text s) → Silent file .ropeScalingFactor → Scales file s none
  | factor (x) : Silent file .ropeScalingType → Says file .ropeScalingFactor (.real x) → Scales file "linear" (some x)
  | neither : Silent file .ropeScalingType → Silent file .ropeScalingFactor → Scales file "linear" none

/-- The dimension of a head that llama.cpp uses with this file: the embedding divided among the heads unless the file says another. -/
inductive HeadDim (file : List (Key × Val F)) : ℕ → Prop
  | said (d) : Says file .keyLength (.nat d) → HeadDim file d
  | derived (e h) : Silent file .keyLength → Says file .embeddingLength (.nat e) → Says file .headCount (.nat h) → HeadDim file (e / h)

/-- No two tokens have the same id. -/
def UniqueIds (t : Tok) : Prop := ∀ a b i, (a, i) ∈ t.vocab → (b, i) ∈ t.vocab → a = b

/-- The id is that of no token. -/
def Free (t : Tok) (i : ℕ) : Prop := ∀ a, (a, i) ∉ t.vocab

/-- What kind of token `a` with id `i` is. -/
inductive HasType (t : Tok) (a : String) (i : ℕ) : TokType → Prop
  | control : i ∈ t.special → HasType t a i .control
  | user : i ∉ t.special → a ∈ t.added → HasType t a i .userDefined
  | normal : i ∉ t.special → a ∉ t.added → HasType t a i .normal

/-! ### Lemmas -/

theorem says_of {file : List (Key × Val F)} {k : Key} {v : Val F} (hm : (k, v) ∈ file) (hn : (file.map (·.1)).Nodup) : Says file k v := by
  obtain ⟨a, b, rfl⟩ := List.append_of_mem hm
  refine ⟨a, b, rfl, ?_, ?_⟩
  · intro w hw
    rw [List.map_append, List.map_cons, List.nodup_append] at hn
    exact hn.2.2 k (List.mem_map.2 ⟨_, hw, rfl⟩) k List.mem_cons_self rfl
  · intro w hw
    rw [List.map_append, List.map_cons, List.nodup_append] at hn
    exact (List.nodup_cons.1 hn.2.1).1 (List.mem_map.2 ⟨_, hw, rfl⟩)

theorem scaling_keys (o : Option (Scaling F)) :
    ((scalingKv o).map (·.1)).Sublist [Key.ropeScalingType, Key.ropeScalingFactor] := by
  cases o with
  | none => simp [scalingKv]
  | some s =>
    unfold scalingKv
    by_cases h : s.truthy = true
    · simp only [h, if_true]
      by_cases hk : s.kind ∈ known
      · cases s.factor <;> simp [hk]
      · cases s.factor <;> simp [hk]
    · simp [h]

theorem common_keys (million : F) (c : Config F) : ((common million c).map (·.1)).Sublist
    [Key.contextLength, .embeddingLength, .blockCount, .feedForwardLength, .headCount, .headCountKv, .ropeFreqBase, .rmsEps, .vocabSize,
      .ropeScalingType, .ropeScalingFactor] := by
  unfold common
  rw [List.map_append]
  exact List.Sublist.append (List.Sublist.refl [Key.contextLength, .embeddingLength, .blockCount, .feedForwardLength, .headCount, .headCountKv,
    .ropeFreqBase, .rmsEps, .vocabSize]) (scaling_keys c.scaling)

theorem qwen_keys (million : F) (c : Config F) : ((qwen million c).map (·.1)).Sublist
    [Key.contextLength, .embeddingLength, .blockCount, .feedForwardLength, .headCount, .headCountKv, .ropeFreqBase, .rmsEps, .vocabSize,
      .ropeScalingType, .ropeScalingFactor, .keyLength, .valueLength] := by
  unfold qwen
  rw [List.map_append]
  have h2 : ((match c.headDim with
    | some d => [(Key.keyLength, Val.nat d), (Key.valueLength, Val.nat d)]
    | none => ([] : List (Key × Val F))).map Prod.fst).Sublist [Key.keyLength, .valueLength] := by
    cases c.headDim <;> simp
  exact List.Sublist.append (common_keys million c) h2

theorem common_nodup (million : F) (c : Config F) : ((common million c).map (·.1)).Nodup :=
  List.Nodup.sublist (common_keys million c) (by decide)

theorem qwen_nodup (million : F) (c : Config F) : ((qwen million c).map (·.1)).Nodup :=
  List.Nodup.sublist (qwen_keys million c) (by decide)

theorem scalingKv_only {o : Option (Scaling F)} {k : Key} {v : Val F} (h : (k, v) ∈ scalingKv o) : k = .ropeScalingType ∨ k = .ropeScalingFactor := by
  have := (scaling_keys o).subset (List.mem_map.2 ⟨_, h, rfl⟩)
  simpa using this

theorem mem_common_scaling {million : F} {c : Config F} {v : Val F} {k : Key} (hk : k = .ropeScalingType ∨ k = .ropeScalingFactor) :
    (k, v) ∈ common million c ↔ (k, v) ∈ scalingKv c.scaling := by
  unfold common
  rw [List.mem_append]
  refine ⟨?_, .inr⟩
  rintro (h | h)
  · rcases hk with rfl | rfl <;> simp at h
  · exact h

theorem tokenAt_some {t : Tok} {i : ℕ} {a : String} (h : tokenAt t i = some a) : (a, i) ∈ t.vocab := by
  unfold tokenAt at h
  obtain ⟨p, hp, rfl⟩ := Option.map_eq_some_iff.1 h
  have h1 := List.mem_reverse.1 (List.mem_of_find?_eq_some hp)
  have h2 := List.find?_some hp
  simp only [decide_eq_true_eq] at h2
  rw [← h2]; exact h1

theorem tokenAt_none {t : Tok} {i : ℕ} (h : tokenAt t i = none) : Free t i := by
  intro a ha
  unfold tokenAt at h
  rw [Option.map_eq_none_iff, List.find?_eq_none] at h
  have := h (a, i) (List.mem_reverse.2 ha)
  simp at this

theorem tokenAt_unique {t : Tok} (hu : UniqueIds t) {i : ℕ} {a : String} (h : (a, i) ∈ t.vocab) : tokenAt t i = some a := by
  cases hs : tokenAt t i with
  | none => exact absurd h (tokenAt_none hs a)
  | some b => rw [hu b a i (tokenAt_some hs) h]

theorem written_get (t : Tok) {size i : ℕ} (h : i < size) : (written t size)[i]? = some (entry t i) := by
  unfold written
  rw [List.getElem?_map, List.getElem?_range h]; rfl

/-! ### Properties -/

/-- **C117.** The file says each dimension of the configuration, once, for all architectures, and the number of heads for keys and values is that of the heads if
the configuration has no other. -/
theorem dimensions_written (million : F) (c : Config F) (file : List (Key × Val F)) (hf : file = common million c ∨ file = qwen million c) :
    Says file .contextLength (.nat c.ctx) ∧ Says file .embeddingLength (.nat c.emb) ∧ Says file .blockCount (.nat c.blocks)
      ∧ Says file .feedForwardLength (.nat c.ff) ∧ Says file .headCount (.nat c.heads) ∧ Says file .rmsEps (.real c.eps)
      ∧ Says file .vocabSize (.nat c.vocab) ∧ (∀ n, c.kvHeads = some n → Says file .headCountKv (.nat n))
      ∧ (c.kvHeads = none → Says file .headCountKv (.nat c.heads)) ∧ ∀ x, c.theta = some x → Says file .ropeFreqBase (.real x) := by
  have hn : (file.map (·.1)).Nodup := by
    rcases hf with rfl | rfl
    · exact common_nodup million c
    · exact qwen_nodup million c
  have hm : ∀ e ∈ common million c, e ∈ file := by
    rcases hf with rfl | rfl
    · exact fun e h => h
    · exact fun e h => List.mem_append_left _ h
  have key : ∀ k v, (k, v) ∈ common million c → Says file k v := fun k v h => says_of (hm _ h) hn
  refine ⟨key _ _ ?_, key _ _ ?_, key _ _ ?_, key _ _ ?_, key _ _ ?_, key _ _ ?_, key _ _ ?_, fun n h => key _ _ ?_, fun h => key _ _ ?_,
    fun x h => key _ _ ?_⟩ <;> simp [common, *]

/-- **C117 (partial).** Positions are scaled as the configuration says, for types of scaling that GGUF has a name for; without scaling they are not
scaled. Missing: other types, see `unknown_scaling_read_as_linear`, and the further settings of a type. -/
theorem scaling_as_configured_partial (million : F) (c : Config F) :
    (c.scaling = none → Scales (common million c) "none" none)
    ∧ ∀ s, c.scaling = some s → s.type.getD (s.ropeType.getD "") ∈ ["none", "linear", "yarn", "longrope"] → (s.type ≠ none ∨ s.ropeType ≠ none) →
        Scales (common million c) (s.type.getD (s.ropeType.getD "")) s.factor := by
  refine ⟨fun h => ?_, fun s h hk ht => ?_⟩
  · refine .kind _ (says_of ?_ (common_nodup million c)) ?_
    · rw [mem_common_scaling (.inl rfl), h]; simp [scalingKv]
    · intro v hv
      rw [mem_common_scaling (.inr rfl), h] at hv
      simp [scalingKv] at hv
  · have htr : s.truthy = true := by
      unfold Scaling.truthy
      rcases ht with ht | ht
      · cases hx : s.type with
        | none => exact absurd hx ht
        | some _ => simp
      · cases hx : s.ropeType with
        | none => exact absurd hx ht
        | some _ => simp
    have hk' : s.kind ∈ known := hk
    have hkv : scalingKv c.scaling = (Key.ropeScalingType, Val.text s.kind) :: (match s.factor with
      | some x => [(Key.ropeScalingFactor, Val.real x)]
      | none => []) := by
      rw [h]; unfold scalingKv; simp only [htr, if_true, if_pos hk']; rfl
    have h1 : Says (common million c) .ropeScalingType (.text s.kind) :=
      says_of (by rw [mem_common_scaling (.inl rfl), hkv]; exact List.mem_cons_self) (common_nodup million c)
    cases hfac : s.factor with
    | none =>
      refine .kind _ h1 ?_
      intro v hv
      rw [mem_common_scaling (.inr rfl), hkv, hfac] at hv
      simp at hv
    | some x =>
      refine .both _ _ h1 (says_of ?_ (common_nodup million c))
      rw [mem_common_scaling (.inr rfl), hkv, hfac]
      simp

/-- **C117 (partial).** The dimension of a head is the configured one for the architecture that has it written, and for others if it is the embedding divided
among the heads. Missing: other dimensions, see `head_dim_ignored`. -/
theorem head_dim_partial (million : F) (c : Config F) :
    (∀ d, c.headDim = some d → HeadDim (qwen million c) d)
    ∧ (c.headDim = none → HeadDim (qwen million c) (c.emb / c.heads)) ∧ HeadDim (common million c) (c.emb / c.heads) := by
  have hsil : Silent (common million c) .keyLength := by
    intro v hv
    have := (common_keys million c).subset (List.mem_map.2 ⟨_, hv, rfl⟩)
    simp at this
  refine ⟨fun d h => .said d (says_of ?_ (qwen_nodup million c)), fun h => ?_, ?_⟩
  · simp [qwen, h]
  · refine .derived _ _ ?_ (dimensions_written million c _ (.inr rfl)).2.1 (dimensions_written million c _ (.inr rfl)).2.2.2.2.1
    intro v hv
    unfold qwen at hv
    rw [h, List.append_nil] at hv
    exact hsil v hv
  · exact .derived _ _ hsil (dimensions_written million c _ (.inl rfl)).2.1 (dimensions_written million c _ (.inl rfl)).2.2.2.2.1

/-- **C117 (partial).** The vocabulary in the file has as many entries as the model has tokens, and entry `i` is the token with id `i` with its kind. Missing:
tokens with equal ids, see `later_token_wins`, and ids beyond the size of the model, see `tokens_beyond_size_dropped`. -/
theorem token_at_its_id_partial (t : Tok) (size : ℕ) (hu : UniqueIds t) :
    (written t size).length = size
    ∧ ∀ a i, (a, i) ∈ t.vocab → i < size → ∃ k, (written t size)[i]? = some (a, k) ∧ HasType t a i k := by
  refine ⟨by simp [written], fun a i h hi => ?_⟩
  rw [written_get t hi]
  unfold entry
  rw [tokenAt_unique hu h]
  by_cases h1 : i ∈ t.special
  · exact ⟨.control, by simp [h1], .control h1⟩
  · by_cases h2 : a ∈ t.added
    · exact ⟨.userDefined, by simp [h1, h2], .user h1 h2⟩
    · exact ⟨.normal, by simp [h1, h2], .normal h1 h2⟩

/-- **C117.** Ids without a token are marked unused, and no others are. -/
theorem unused_iff_free (t : Tok) (size i : ℕ) (hi : i < size) :
    (∃ s, (written t size)[i]? = some (s, .unused)) ↔ ∀ a, (a, i) ∉ t.vocab := by
  rw [written_get t hi]
  unfold entry
  cases h : tokenAt t i with
  | none => exact ⟨fun _ => tokenAt_none h, fun _ => ⟨_, rfl⟩⟩
  | some a =>
    constructor
    · rintro ⟨s, hs⟩
      exfalso
      simp only [Option.some.injEq, Prod.mk.injEq] at hs
      by_cases h1 : i ∈ t.special
      · simp [h1] at hs
      · by_cases h2 : a ∈ t.added
        · simp [h1, h2] at hs
        · simp [h1, h2] at hs
    · intro hf; exact absurd (tokenAt_some h) (hf a)

/-- **C117 (partial).** Reading the vocabulary back gives every token its id and no other. Missing: tokens that look like the text written for unused ids, see
`padding_takes_token`. -/
theorem ids_read_back_partial (t : Tok) (size : ℕ) (hu : UniqueIds t) (hd : ∀ a i j, (a, i) ∈ t.vocab → (a, j) ∈ t.vocab → i = j) (a : String) (i : ℕ)
    (ha : (a, i) ∈ t.vocab) (hi : i < size) (hp : ∀ j, Free t j → a ≠ pad j) (j : ℕ) :
    (∃ k, (written t size)[j]? = some (a, k)) ↔ j = i := by
  constructor
  · rintro ⟨k, hk⟩
    have hj : j < size := by
      have := (List.getElem?_eq_some_iff.1 hk).1
      simpa [written] using this
    rw [written_get t hj] at hk
    unfold entry at hk
    cases h : tokenAt t j with
    | none =>
      rw [h] at hk
      simp only [Option.some.injEq, Prod.mk.injEq] at hk
      exact absurd hk.1.symm (hp j (tokenAt_none h))
    | some b =>
      rw [h] at hk
      simp only [Option.some.injEq, Prod.mk.injEq] at hk
      rw [hk.1] at h
      exact hd a j i (tokenAt_some h) ha
  · rintro rfl
    obtain ⟨k, hk, _⟩ := (token_at_its_id_partial t size hu).2 a j ha hi
    exact ⟨k, hk⟩

/-- **C117 (partial).** Merges are those of the tokenizer if no directory has the name of the tokenizer, or the one that has it holds them. Missing: other directories,
see `other_directory_used`. -/
theorem merges_of_tokenizer_partial {D : Type} (disk : String → Option D) (path : String) (own : D) (h : ∀ d, disk path = some d → d = own) :
    mergesDir disk path own = own := by
  unfold mergesDir
  by_cases hp : path = ""
  · rw [if_pos hp]
  · rw [if_neg hp]
    cases hd : disk path with
    | none => rfl
    | some d => exact h d hd

/-! ### Deviations -/

/-- **C117, deviation.** Scaling of a type without a name in GGUF, such as `llama3`, is written as its factor alone: the file is read as linear scaling by that
factor. -/
theorem unknown_scaling_read_as_linear (million : F) (c : Config F) (s : Scaling F) (h : c.scaling = some s)
    (hk : s.type.getD (s.ropeType.getD "") ∉ ["none", "linear", "yarn", "longrope"]) (x : F) (hx : s.factor = some x) :
    Scales (common million c) "linear" (some x) := by
  have htr : s.truthy = true := by simp [Scaling.truthy, hx]
  have hk' : s.kind ∉ known := hk
  have hkv : scalingKv c.scaling = [(Key.ropeScalingFactor, Val.real x)] := by
    rw [h]; unfold scalingKv; simp only [htr, if_true, if_neg hk', hx]; rfl
  refine .factor _ ?_ (says_of ?_ (common_nodup million c))
  · intro v hv
    rw [mem_common_scaling (.inl rfl), hkv] at hv
    simp at hv
  · rw [mem_common_scaling (.inr rfl), hkv]; simp

/-- **C117, deviation.** A head dimension that is not the embedding divided among the heads is not written for the other architectures, and the file is read with
the wrong one. -/
theorem head_dim_ignored (million : F) (c : Config F) (d : ℕ) (_hd : c.headDim = some d) (hne : d ≠ c.emb / c.heads) :
    HeadDim (common million c) (c.emb / c.heads) ∧ ¬ HeadDim (common million c) d := by
  refine ⟨(head_dim_partial million c).2.2, ?_⟩
  have hmem : ∀ k v, Says (common million c) k v → (k, v) ∈ common million c := by
    rintro k v ⟨a, b, h, _⟩; rw [h]; simp
  intro h
  have hnone : ∀ v, (Key.keyLength, v) ∉ common million c := by
    intro v hv
    have := (common_keys million c).subset (List.mem_map.2 ⟨_, hv, rfl⟩)
    simp at this
  have only : ∀ k v w, k ≠ .ropeScalingType → k ≠ .ropeScalingFactor → (k, v) ∈ common million c → (k, w) ∈ common million c → v = w := by
    intro k v w _ _ h1 h2
    obtain ⟨a, b, he, ha, hb⟩ := says_of h1 (common_nodup million c)
    rw [he] at h2
    rcases List.mem_append.1 h2 with h2 | h2
    · exact absurd h2 (ha w)
    · rcases List.mem_cons.1 h2 with h2 | h2
      · exact (Prod.mk.inj h2).2.symm
      · exact absurd h2 (hb w)
  generalize hx : d = x at h
  cases h with
  | said _ h => exact hnone _ (hmem _ _ h)
  | derived e hh _ h1 h2 =>
    have e1 := only _ _ _ (by decide) (by decide) (hmem _ _ h1) (hmem _ _ (dimensions_written million c _ (.inl rfl)).2.1)
    have e2 := only _ _ _ (by decide) (by decide) (hmem _ _ h2) (hmem _ _ (dimensions_written million c _ (.inl rfl)).2.2.2.2.1)
    cases e1; cases e2
    exact hne hx

/-- **C117, deviation.** A configuration that has no base of the rotary embedding under that name gets one million. -/
theorem base_guessed (million : F) (c : Config F) (h : c.theta = none) : Says (common million c) .ropeFreqBase (.real million) :=
  says_of (by simp [common, h]) (common_nodup million c)

/-- **C117, deviation.** Tokens with ids beyond the size of the model are not written, without an error. -/
theorem tokens_beyond_size_dropped (t : Tok) (size : ℕ) (a : String) (i : ℕ) (_ : (a, i) ∈ t.vocab) (hi : size ≤ i)
    (hd : ∀ j, (a, j) ∈ t.vocab → j = i) (hp : ∀ j, a ≠ pad j) : ∀ k, (a, k) ∉ written t size := by
  intro k hk
  obtain ⟨j, hj, he⟩ := List.mem_map.1 hk
  have hj := List.mem_range.1 hj
  unfold entry at he
  cases h : tokenAt t j with
  | none => rw [h] at he; exact hp j (Prod.mk.inj he).1.symm
  | some b =>
    rw [h] at he
    have hb : b = a := (Prod.mk.inj he).1
    rw [hb] at h
    have := hd j (tokenAt_some h)
    omega

/-- **C117, deviation.** Of two tokens with the same id the later one is written. -/
theorem later_token_wins (a b : String) : (written ⟨[(a, 0), (b, 0)], [], []⟩ 1).map (·.1) = [b] := by
  simp [written, entry, tokenAt]

/-- **C117, deviation.** The text written for an unused id can be that of a token, which then stands in the vocabulary twice. -/
theorem padding_takes_token : (written ⟨[("[PAD1]", 0)], [], []⟩ 2) = [("[PAD1]", .normal), ("[PAD1]", .unused)] := by decide +kernel

/-- **C117, deviation.** A directory that happens to have the name of the tokenizer is read, whatever is in it: tokens or merges changed since it was saved are not
in the file. -/
theorem other_directory_used {D : Type} (disk : String → Option D) (path : String) (own d : D) (hp : path ≠ "") (h : disk path = some d) :
    mergesDir disk path own = d := by
  simp [mergesDir, hp, h]

/-! ### Concrete cases -/

/-- A configuration of a small model with fewer heads for keys and values. -/
def exConfig : Config ℕ := ⟨2048, 64, 2, 256, 8, some 2, some 10000, 1, 100, some ⟨none, some "llama3", some 8, true⟩, none⟩

example : (common 1000000 exConfig).length = 10 := by decide

example : (Key.ropeScalingFactor, Val.real 8) ∈ common 1000000 exConfig ∧ Silent (common 1000000 exConfig) .ropeScalingType := by
  refine ⟨by decide, ?_⟩
  intro v hv
  simp [common, exConfig, scalingKv, Scaling.truthy, Scaling.kind, known] at hv

def exTok : Tok := ⟨[("a", 0), ("b", 1), ("<s>", 3), ("extra", 4)], ["<s>", "extra"], [3]⟩

example : UniqueIds exTok := by
  intro a b i h1 h2
  simp only [exTok, List.mem_cons, Prod.mk.injEq, List.not_mem_nil, or_false] at h1 h2
  rcases h1 with ⟨rfl, rfl⟩ | ⟨rfl, rfl⟩ | ⟨rfl, rfl⟩ | ⟨rfl, rfl⟩ <;> (simp at h2; exact h2.symm)

example : written exTok 5 = [("a", .normal), ("b", .normal), ("[PAD2]", .unused), ("<s>", .control), ("extra", .userDefined)] := by decide +kernel

end FF.GgufMeta
