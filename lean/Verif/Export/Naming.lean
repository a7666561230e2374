import Mathlib.Data.List.Basic
import Mathlib.Data.List.Nodup
import Mathlib.Data.List.TakeWhile
import Mathlib.Tactic.Common

/-!
# GGUF tensor names

Models `export/stages/gguf/_naming.py`. Strings are lists of characters.
-/

namespace FF.Naming

/-! ## Model -/

/-- Strings as lists of characters. -/
abbrev Str := List Char

/-- `_naming.py:19-23` `_STATIC_MAP`. -/
def staticMap : List (Str × Str) :=
  [("model.embed_tokens.weight".toList, "token_embd.weight".toList),
   ("model.norm.weight".toList, "output_norm.weight".toList),
   ("lm_head.weight".toList, "output.weight".toList)]

/-- `_naming.py:26-36` `_COMMON_LAYER_PATTERNS`: every pattern is `model\.layers\.(\d+)` followed by the first string and `$`,
every template is `blk.{}` followed by the second. -/
def common : List (Str × Str) :=
  [(".input_layernorm.weight".toList, ".attn_norm.weight".toList),
   (".self_attn.q_proj.weight".toList, ".attn_q.weight".toList),
   (".self_attn.k_proj.weight".toList, ".attn_k.weight".toList),
   (".self_attn.v_proj.weight".toList, ".attn_v.weight".toList),
   (".self_attn.o_proj.weight".toList, ".attn_output.weight".toList),
   (".post_attention_layernorm.weight".toList, ".ffn_norm.weight".toList),
   (".mlp.gate_proj.weight".toList, ".ffn_gate.weight".toList),
   (".mlp.up_proj.weight".toList, ".ffn_up.weight".toList),
   (".mlp.down_proj.weight".toList, ".ffn_down.weight".toList)]

/-- `_naming.py:39-42` `_QWEN3_EXTRA_PATTERNS`. -/
def qwen3Extra : List (Str × Str) :=
  [(".self_attn.q_norm.weight".toList, ".attn_q_norm.weight".toList),
   (".self_attn.k_norm.weight".toList, ".attn_k_norm.weight".toList)]

/-- `_naming.py:46-50` `_QWEN2_EXTRA_PATTERNS`. -/
def qwen2Extra : List (Str × Str) :=
  [(".self_attn.q_proj.bias".toList, ".attn_q.bias".toList),
   (".self_attn.k_proj.bias".toList, ".attn_k.bias".toList),
   (".self_attn.v_proj.bias".toList, ".attn_v.bias".toList)]

/-- The architectures of `_naming.py:69-71`. -/
inductive Arch
  | llama
  | qwen3
  | qwen2
  deriving DecidableEq

/-- The pattern table of an architecture (`_naming.py:69-71`). -/
def patterns : Arch → List (Str × Str)
  | .llama => common
  | .qwen3 => common ++ qwen3Extra
  | .qwen2 => common ++ qwen2Extra

/-- `hf_name[len(p):]` when `hf_name` starts with `p`. -/
def stripPrefix : Str → Str → Option Str
  | [], l => some l
  | _ :: _, [] => none
  | a :: p, b :: l => if a = b then stripPrefix p l else none

/-- `re.match` of `model\.layers\.(\d+)<suffix>$`: the digits. `digit` is the character class `\d` (any Unicode digit). The greedy
`\d+` needs no backtracking because the suffix starts with a dot; `$` also matches before a final newline. -/
def matchPattern (digit : Char → Bool) (suffix name : Str) : Option Str :=
  match stripPrefix "model.layers.".toList name with
  | none => none
  | some rest =>
    let d := rest.takeWhile digit
    let r := rest.dropWhile digit
    if d ≠ [] ∧ (r = suffix ∨ r = suffix ++ ['\n']) then some d else none

/-- The loop of `_naming.py:60-63` over a pattern table. -/
def firstMatch (digit : Char → Bool) (name : Str) : List (Str × Str) → Option Str
  | [] => none
  | (suffix, out) :: ps =>
    match matchPattern digit suffix name with
    | some d => some ("blk.".toList ++ d ++ out)
    | none => firstMatch digit name ps

/-- `_naming.py:53-66` `name_map`. -/
def nameMap (digit : Char → Bool) (a : Arch) (name : Str) : Option Str :=
  match staticMap.lookup name with
  | some out => some out
  | none => firstMatch digit name (patterns a)

/-! ## Specification -/

/-- The parameter name of a layer: `model.layers.<d><suffix>`. -/
def layerName (d suffix : Str) : Str := "model.layers.".toList ++ d ++ suffix

/-- A layer index: at least one digit. -/
def IsIndex (digit : Char → Bool) (d : Str) : Prop := d ≠ [] ∧ ∀ c ∈ d, digit c = true

/-! ## Lemmas -/

theorem stripPrefix_some {p l r : Str} : stripPrefix p l = some r ↔ l = p ++ r := by
  induction p generalizing l with
  | nil => simp [stripPrefix, eq_comm]
  | cons a p ih =>
    cases l with
    | nil => simp [stripPrefix]
    | cons b l =>
      unfold stripPrefix
      by_cases h : a = b
      · subst h; rw [if_pos rfl, ih]; simp
      · rw [if_neg h]
        simp [eq_comm, h]

theorem takeWhile_index {digit : Char → Bool} {d : Str} (hd : ∀ c ∈ d, digit c = true) {r : Str}
    (hr : ∀ c t, r = c :: t → digit c = false) : (d ++ r).takeWhile digit = d ∧ (d ++ r).dropWhile digit = r := by
  induction d with
  | nil =>
    cases r with
    | nil => exact ⟨rfl, rfl⟩
    | cons c t => simp [hr c t rfl]
  | cons a d ih =>
    have := ih (fun c hc => hd c (List.mem_cons_of_mem _ hc))
    simp [hd a (by simp), this]

theorem matchPattern_some {digit : Char → Bool} (hdot : digit '.' = false) {suffix name d : Str}
    (hs : suffix.head? = some '.') :
    matchPattern digit suffix name = some d ↔
      IsIndex digit d ∧ (name = layerName d suffix ∨ name = layerName d suffix ++ ['\n']) := by
  have hhead : ∀ (x : Str) (c : Char) (t : Str), suffix ++ x = c :: t → digit c = false := by
    intro x c t h
    cases suffix with
    | nil => simp at hs
    | cons a s =>
      simp only [List.head?_cons, Option.some.injEq] at hs
      simp only [List.cons_append, List.cons.injEq] at h
      rw [← h.1, hs]; exact hdot
  unfold matchPattern
  constructor
  · intro h
    split at h
    · cases h
    · rename_i rest hp
      rw [stripPrefix_some] at hp
      simp only at h
      split at h
      · rename_i hc
        obtain ⟨h1, h2⟩ := hc
        cases h
        refine ⟨⟨h1, fun c hc => List.mem_takeWhile_imp hc⟩, ?_⟩
        have hsplit : rest = rest.takeWhile digit ++ rest.dropWhile digit := (List.takeWhile_append_dropWhile).symm
        rcases h2 with h2 | h2
        · left
          rw [hp]; unfold layerName
          conv_lhs => rw [hsplit, h2]
          simp
        · right
          rw [hp]; unfold layerName
          conv_lhs => rw [hsplit, h2]
          simp
      · cases h
  · rintro ⟨⟨h1, h2⟩, h3⟩
    have key : ∀ x : Str, (x = [] ∨ x = ['\n']) → name = layerName d suffix ++ x →
        (match stripPrefix "model.layers.".toList name with
          | none => none
          | some rest =>
            let d := rest.takeWhile digit
            let r := rest.dropWhile digit
            if d ≠ [] ∧ (r = suffix ∨ r = suffix ++ ['\n']) then some d else none) = some d := by
      intro x hx hn
      have hp : stripPrefix "model.layers.".toList name = some (d ++ (suffix ++ x)) := by
        rw [stripPrefix_some, hn]; unfold layerName; simp
      obtain ⟨ht, hdr⟩ := takeWhile_index h2 (hhead x)
      simp only [hp, ht, hdr]
      rw [if_pos]
      refine ⟨h1, ?_⟩
      rcases hx with rfl | rfl
      · left; simp
      · right; rfl
    rcases h3 with h3 | h3
    · exact key [] (.inl rfl) (by simp [h3])
    · exact key ['\n'] (.inr rfl) h3

theorem firstMatch_some {digit : Char → Bool} {name out : Str} {ps : List (Str × Str)} (h : firstMatch digit name ps = some out) :
    ∃ suffix t d, (suffix, t) ∈ ps ∧ matchPattern digit suffix name = some d ∧ out = "blk.".toList ++ d ++ t := by
  induction ps with
  | nil => cases h
  | cons p ps ih =>
    obtain ⟨suffix, t⟩ := p
    unfold firstMatch at h
    split at h
    · rename_i d hd
      cases h
      exact ⟨suffix, t, d, by simp, hd, rfl⟩
    · obtain ⟨s', t', d, h1, h2, h3⟩ := ih h
      exact ⟨s', t', d, by simp [h1], h2, h3⟩

theorem firstMatch_isSome {digit : Char → Bool} {name suffix t d : Str} {ps : List (Str × Str)} (hm : (suffix, t) ∈ ps)
    (h : matchPattern digit suffix name = some d) : (firstMatch digit name ps).isSome := by
  induction ps with
  | nil => cases hm
  | cons p ps ih =>
    obtain ⟨s', t'⟩ := p
    unfold firstMatch
    split
    · rfl
    · rename_i hnone
      rcases List.mem_cons.1 hm with hm | hm
      · cases hm; rw [h] at hnone; cases hnone
      · exact ih hm

/-- What is needed of a pattern table. -/
structure Good (ps : List (Str × Str)) : Prop where
  suffixDot : ∀ p ∈ ps, p.1.head? = some '.'
  outDot : ∀ p ∈ ps, p.2.head? = some '.'
  noNewline : ∀ p ∈ ps, p.1.getLast? ≠ some '\n'
  outInj : ∀ p ∈ ps, ∀ q ∈ ps, p.2 = q.2 → p = q
  suffixInj : ∀ p ∈ ps, ∀ q ∈ ps, p.1 = q.1 → p = q

theorem good (a : Arch) : Good (patterns a) := by
  cases a <;> constructor <;> decide +kernel

theorem index_dot {digit : Char → Bool} (hdot : digit '.' = false) {d d' : Str} {s s' : Str} (hd : IsIndex digit d)
    (hd' : IsIndex digit d') (hs : s.head? = some '.') (hs' : s'.head? = some '.') (h : d ++ s = d' ++ s') : d = d' ∧ s = s' := by
  have hh : ∀ (s : Str), s.head? = some '.' → ∀ c t, s = c :: t → digit c = false := by
    intro s hs c t he
    subst he
    simp only [List.head?_cons, Option.some.injEq] at hs
    rw [hs]; exact hdot
  obtain ⟨h1, h2⟩ := takeWhile_index hd.2 (hh s hs)
  obtain ⟨h3, h4⟩ := takeWhile_index hd'.2 (hh s' hs')
  exact ⟨by rw [← h1, h, h3], by rw [← h2, h, h4]⟩

theorem static_not_layer : ∀ p ∈ staticMap, ∀ q ∈ staticMap, p.2.take 4 ≠ "blk.".toList ∧ (p.2 = q.2 → p.1 = q.1) := by
  decide +kernel

theorem lookup_mem {l : List (Str × Str)} {k v : Str} (h : l.lookup k = some v) : (k, v) ∈ l := by
  induction l with
  | nil => cases h
  | cons p l ih =>
    obtain ⟨a, b⟩ := p
    by_cases hk : k = a
    · subst hk
      simp only [List.lookup_cons, beq_self_eq_true, Option.some.injEq] at h
      subst h; simp
    · have : (k == a) = false := by simpa using hk
      simp only [List.lookup_cons, this] at h
      exact List.mem_cons_of_mem _ (ih h)

theorem getLast?_newline {digit : Char → Bool} {suffix d : Str} (name : Str)
    (hn : name.getLast? ≠ some '\n') (h : IsIndex digit d ∧ (name = layerName d suffix ∨ name = layerName d suffix ++ ['\n'])) :
    name = layerName d suffix := by
  rcases h.2 with h | h
  · exact h
  · exact absurd (by rw [h]; simp) hn

theorem static_no_layer (d suffix : Str) : staticMap.lookup (layerName d suffix) = none := by
  have h : ∀ p ∈ staticMap, p.1.take 13 ≠ "model.layers.".toList := by decide +kernel
  cases hl : staticMap.lookup (layerName d suffix) with
  | none => rfl
  | some v =>
    have := h _ (lookup_mem hl)
    refine absurd ?_ this
    unfold layerName
    rw [List.append_assoc]
    exact List.take_left' (by decide +kernel)

/-! ## Properties -/

/-- **C57 (partial).** Within one architecture two different parameter names never map to the same GGUF name. Names ending in a
newline are excluded: `trailing_newline_collides`. -/
theorem name_map_injective_partial (digit : Char → Bool) (hdot : digit '.' = false) (a : Arch) (x y out : Str)
    (hx : x.getLast? ≠ some '\n') (hy : y.getLast? ≠ some '\n')
    (h1 : nameMap digit a x = some out) (h2 : nameMap digit a y = some out) : x = y := by
  have G := good a
  have hblk : ∀ (s : Str), ("blk.".toList ++ s).take 4 = "blk.".toList := fun s => List.take_left' (by decide +kernel)
  unfold nameMap at h1 h2
  cases hsx : staticMap.lookup x with
  | some ox =>
    rw [hsx] at h1
    cases h1
    cases hsy : staticMap.lookup y with
    | some oy =>
      rw [hsy] at h2
      cases h2
      exact (static_not_layer _ (lookup_mem hsx) _ (lookup_mem hsy)).2 rfl
    | none =>
      rw [hsy] at h2
      obtain ⟨s, t, d, -, -, h3⟩ := firstMatch_some h2
      refine absurd ?_ (static_not_layer _ (lookup_mem hsx) _ (lookup_mem hsx)).1
      rw [h3, List.append_assoc]
      exact hblk _
  | none =>
    rw [hsx] at h1
    obtain ⟨s, t, d, hm, hd, h3⟩ := firstMatch_some h1
    cases hsy : staticMap.lookup y with
    | some oy =>
      rw [hsy] at h2
      cases h2
      refine absurd ?_ (static_not_layer _ (lookup_mem hsy) _ (lookup_mem hsy)).1
      rw [h3, List.append_assoc]
      exact hblk _
    | none =>
      rw [hsy] at h2
      obtain ⟨s', t', d', hm', hd', h3'⟩ := firstMatch_some h2
      rw [matchPattern_some hdot (G.suffixDot _ hm)] at hd
      rw [matchPattern_some hdot (G.suffixDot _ hm')] at hd'
      have hx' := getLast?_newline x hx hd
      have hy' := getLast?_newline y hy hd'
      rw [h3, List.append_assoc, List.append_assoc] at h3'
      obtain ⟨e1, e2⟩ := index_dot hdot hd.1 hd'.1 (G.outDot _ hm) (G.outDot _ hm') (List.append_cancel_left h3')
      have := G.outInj _ hm _ hm' e2
      cases this
      rw [hx', hy', e1]

/-- **C57.** Which names map to what: the static names, and for every pattern of the architecture and every layer index the
parameter of that layer goes to the tensor of the same layer index. -/
theorem layer_names_mapped (digit : Char → Bool) (hdot : digit '.' = false) (a : Arch) (suffix out d : Str)
    (hm : (suffix, out) ∈ patterns a) (hd : IsIndex digit d) :
    nameMap digit a (layerName d suffix) = some ("blk.".toList ++ d ++ out) := by
  have G := good a
  have hmatch : matchPattern digit suffix (layerName d suffix) = some d :=
    (matchPattern_some hdot (G.suffixDot _ hm)).2 ⟨hd, .inl rfl⟩
  unfold nameMap
  rw [static_no_layer]
  obtain ⟨r, hr⟩ := Option.isSome_iff_exists.1 (firstMatch_isSome hm hmatch)
  simp only [hr]
  obtain ⟨s', t', d', hm', hd', rfl⟩ := firstMatch_some hr
  rw [matchPattern_some hdot (G.suffixDot _ hm')] at hd'
  have hnn : (layerName d suffix).getLast? ≠ some '\n' := by
    have h1 := G.noNewline _ hm
    have h2 := G.suffixDot _ hm
    unfold layerName
    simp only at h1 h2
    rw [List.getLast?_append]
    cases hs : suffix.getLast? with
    | none => rw [List.getLast?_eq_none_iff] at hs; subst hs; simp at h2
    | some c => rw [hs] at h1; simpa using h1
  have hn := getLast?_newline _ hnn hd'
  unfold layerName at hn
  rw [List.append_assoc, List.append_assoc] at hn
  obtain ⟨e1, e2⟩ := index_dot hdot hd hd'.1 (G.suffixDot _ hm) (G.suffixDot _ hm') (List.append_cancel_left hn)
  have := G.suffixInj _ hm _ hm' e2
  cases this
  rw [e1]

/-- **C57.** The parameters that only some architectures have go to their tensors: the norms of queries and keys, and the biases of queries, keys and values. -/
theorem extra_names_mapped (digit : Char → Bool) (hdot : digit '.' = false) (d : Str) (hd : IsIndex digit d) :
    nameMap digit .qwen3 (layerName d ".self_attn.q_norm.weight".toList) = some ("blk.".toList ++ d ++ ".attn_q_norm.weight".toList) ∧
    nameMap digit .qwen3 (layerName d ".self_attn.k_norm.weight".toList) = some ("blk.".toList ++ d ++ ".attn_k_norm.weight".toList) ∧
    nameMap digit .qwen2 (layerName d ".self_attn.q_proj.bias".toList) = some ("blk.".toList ++ d ++ ".attn_q.bias".toList) ∧
    nameMap digit .qwen2 (layerName d ".self_attn.k_proj.bias".toList) = some ("blk.".toList ++ d ++ ".attn_k.bias".toList) ∧
    nameMap digit .qwen2 (layerName d ".self_attn.v_proj.bias".toList) = some ("blk.".toList ++ d ++ ".attn_v.bias".toList) := by
  refine ⟨?_, ?_, ?_, ?_, ?_⟩ <;> refine layer_names_mapped digit hdot _ _ _ d ?_ hd <;> simp [patterns, qwen3Extra, qwen2Extra]

/-- **C57.** No other name is mapped: a mapped name is a static name or a layer parameter of the architecture, possibly followed by
a newline. -/
theorem only_known_names_mapped (digit : Char → Bool) (hdot : digit '.' = false) (a : Arch) (name out : Str)
    (h : nameMap digit a name = some out) :
    (name, out) ∈ staticMap
    ∨ ∃ suffix t d, (suffix, t) ∈ patterns a ∧ IsIndex digit d ∧ out = "blk.".toList ++ d ++ t
        ∧ (name = layerName d suffix ∨ name = layerName d suffix ++ ['\n']) := by
  unfold nameMap at h
  split at h
  · rename_i o hl; cases h; exact .inl (lookup_mem hl)
  · obtain ⟨s, t, d, hm, hd, rfl⟩ := firstMatch_some h
    rw [matchPattern_some hdot ((good a).suffixDot _ hm)] at hd
    exact .inr ⟨s, t, d, hm, hd.1, rfl, hd.2⟩

theorem static_no_newline (d suffix : Str) : staticMap.lookup (layerName d suffix ++ ['\n']) = none := by
  have h : layerName d suffix ++ ['\n'] = layerName d (suffix ++ ['\n']) := by
    unfold layerName; rw [List.append_assoc]
  rw [h, static_no_layer d (suffix ++ ['\n'])]

/-- **C57, deviation.** `$` also matches before a final newline: every layer parameter collides with the name with a newline
appended. -/
theorem trailing_newline_collides (digit : Char → Bool) (hdot : digit '.' = false) (a : Arch) (suffix out d : Str)
    (hm : (suffix, out) ∈ patterns a) (hd : IsIndex digit d) :
    nameMap digit a (layerName d suffix ++ ['\n']) = nameMap digit a (layerName d suffix) := by
  have G := good a
  rw [layer_names_mapped digit hdot a suffix out d hm hd]
  have hmatch : matchPattern digit suffix (layerName d suffix ++ ['\n']) = some d :=
    (matchPattern_some hdot (G.suffixDot _ hm)).2 ⟨hd, .inr rfl⟩
  unfold nameMap
  rw [static_no_newline]
  obtain ⟨r, hr⟩ := Option.isSome_iff_exists.1 (firstMatch_isSome hm hmatch)
  simp only [hr]
  obtain ⟨s', t', d', hm', hd', rfl⟩ := firstMatch_some hr
  rw [matchPattern_some hdot (G.suffixDot _ hm')] at hd'
  have hname : layerName d suffix = layerName d' s' := by
    rcases hd'.2 with h | h
    · exfalso
      have hh := congrArg List.getLast? h
      have h1 := G.noNewline _ hm'
      have h2 := G.suffixDot _ hm'
      simp only at h1 h2
      rw [List.getLast?_append] at hh
      unfold layerName at hh
      simp only at hh
      rw [List.getLast?_append (l' := s')] at hh
      cases hs : s'.getLast? with
      | none => rw [List.getLast?_eq_none_iff] at hs; subst hs; simp at h2
      | some c =>
        rw [hs] at h1 hh
        simp only [List.getLast?_singleton, Option.some_or, Option.some.injEq] at hh
        rw [← hh] at h1
        exact h1 rfl
    · exact List.append_cancel_right h
  unfold layerName at hname
  rw [List.append_assoc, List.append_assoc] at hname
  obtain ⟨e1, e2⟩ := index_dot hdot hd hd'.1 (G.suffixDot _ hm) (G.suffixDot _ hm') (List.append_cancel_left hname)
  have := G.suffixInj _ hm _ hm' e2
  cases this
  rw [e1]

/-! ## Concrete cases -/

/-- ASCII digits. -/
def ascii (c : Char) : Bool := c.isDigit

example : ascii '.' = false ∧ IsIndex ascii "17".toList := by
  refine ⟨by decide, by decide, by decide⟩
example : nameMap ascii .qwen2 "model.layers.17.self_attn.k_proj.bias".toList = some "blk.17.attn_k.bias".toList := by
  decide +kernel
example : nameMap ascii .llama "model.layers.17.self_attn.k_proj.bias".toList = none := by decide +kernel
example : nameMap ascii .qwen3 "lm_head.weight".toList = some "output.weight".toList := by decide +kernel
example : nameMap ascii .llama "model.layers..mlp.up_proj.weight".toList = none := by decide +kernel

end FF.Naming
