/-
The GGUF file of a model: extraction of the parameters, export/stages/gguf/_extract.py:51-231, the stages from extraction to
the file, export/stages/gguf/gguf_export_stages.py:59-205, the reordering of query and key projections, _arch.py:90-112, and
tied parameters, adapter.py:57-62.

Simplifications:
* a name is the list of its parts between dots;
* a tensor is the list of its rows; a quantized row has its codes and scales, and `val` gives the values it stands for (the
  bytes of a block are in C52).  One-dimensional parameters have one element in each row;
* whether a quantizer fits the format (`_validate_quantizer`, see C52) is a flag; columns are whole blocks;
* float tensors are written as they are (`float_type` F32); metadata and vocabulary are left out.
-/
import Verif.Export.Gguf
import Verif.Util.Dict
import Mathlib.Data.List.Induction

namespace FF.GgufFile

open FF.Gguf

/-! ## Model -/

/-- A parameter or module name, split at dots. -/
abbrev Path := List String

section
variable {Q F G : Type} [DecidableEq G]

/-- A parameter under one of its names; `obj` identifies the parameter object, which can have several names. -/
structure Param (F : Type) where
  obj : Nat
  name : Path
  initialized : Bool
  dims : Nat
  rows : List F

/-- A quantizer with the tag `parameter/weight`, as `find_quantizers` gives it.  `valid` says that it fits the format;
`quantize` gives the codes and scales of the rows. -/
structure WeightQuantizer (Q F : Type) where
  path : Path
  linear : Bool
  initialized : Bool
  valid : Bool
  quantize : List F → List Q

/-- A model: all names of parameters, in order, and the weight quantizers. -/
structure Model (Q F : Type) where
  params : List (Param F)
  quantizers : List (WeightQuantizer Q F)

/-- `named_parameters()`: each parameter once, under its first name (PyTorch). -/
def namedFrom : List Nat → List (Param F) → List (Param F)
  | _, [] => []
  | seen, p :: ps => if p.obj ∈ seen then namedFrom seen ps else p :: namedFrom (p.obj :: seen) ps

/-- `full_name.rsplit(".", 1)[0]`: _extract.py:71. -/
def parent (p : Path) : Path := if p.length ≤ 1 then p else p.dropLast

/-- `_build_quantizer_map`: _extract.py:51-74. -/
def quantizerMap (qs : List (WeightQuantizer Q F)) : List (Path × WeightQuantizer Q F) :=
  qs.foldl (fun d q => if !q.linear || !q.initialized then d else Dict.set d (parent q.path ++ ["weight"]) q) []

/-- What a tensor holds: codes with scales, or floats. -/
inductive Data (Q F : Type) where
  | quantized (rows : List Q)
  | float (rows : List F)

/-- `ExtractedTensor`: _extract.py:33-49. -/
structure Tensor (Q F : Type) where
  name : Path
  data : Data Q F

/-- `ArchAdapter`: adapter.py:101-150, what of it matters here. -/
structure Adapter (Q F G : Type) where
  nameMap : Path → Option G
  isTied : Path → Bool
  transforms : List (Tensor Q F → Except Err (Tensor Q F))

/-- One parameter: the body of the loop _extract.py:174-214; `none` if it is skipped. -/
def extractOne (ad : Adapter Q F G) (qmap : List (Path × WeightQuantizer Q F)) (p : Param F) :
    Except Err (Option (Tensor Q F)) :=
  if (ad.nameMap p.name).isNone then .ok none
  else if !p.initialized then .ok none
  else if ad.isTied p.name then .ok none
  else match Dict.get qmap p.name with
    | some q =>
      if !q.valid then .error .exportError
      else if p.dims ≠ 2 then .error .runtimeError
      else .ok (some ⟨p.name, .quantized (q.quantize p.rows)⟩)
    | none => if p.dims = 0 then .error .runtimeError else .ok (some ⟨p.name, .float p.rows⟩)

/-- The loop over the parameters: _extract.py:174-214. -/
def extractAll (ad : Adapter Q F G) (qmap : List (Path × WeightQuantizer Q F)) :
    List (Param F) → Except Err (List (Tensor Q F))
  | [] => .ok []
  | p :: ps =>
    match extractOne ad qmap p with
    | .error e => .error e
    | .ok t => match extractAll ad qmap ps with
      | .error e => .error e
      | .ok ts => .ok (t.toList ++ ts)

/-- `extract_module_tensors`: _extract.py:133-231. -/
def extract (ad : Adapter Q F G) (m : Model Q F) : Except Err (List (Tensor Q F)) :=
  extractAll ad (quantizerMap m.quantizers) (namedFrom [] m.params)

/-- `tensor[row_index]`: _arch.py:83-86. -/
def pick {α : Type} (rows : List α) (index : List ℕ) : Except Err (List α) :=
  index.mapM (fun i => match rows[i]? with | some r => .ok r | none => .error .runtimeError)

/-- `llama_rope_permute`: _arch.py:90-112; `projOf` are the two regular expressions. -/
def ropeTransform (projOf : Path → Proj) (heads kvHeads : ℕ) (t : Tensor Q F) : Except Err (Tensor Q F) :=
  match t.data with
  | .float _ => .ok t
  | .quantized rows =>
    match projOf t.name with
    | .other => .ok t
    | .q => match ropeIndex rows.length heads with
      | .error e => .error e
      | .ok index => match pick rows index with
        | .error e => .error e
        | .ok rows' => .ok { t with data := .quantized rows' }
    | .k => match ropeIndex rows.length kvHeads with
      | .error e => .error e
      | .ok index => match pick rows index with
        | .error e => .error e
        | .ok rows' => .ok { t with data := .quantized rows' }

/-- The transforms on one tensor, in order: gguf_export_stages.py:101-103. -/
def transformOne : List (Tensor Q F → Except Err (Tensor Q F)) → Tensor Q F → Except Err (Tensor Q F)
  | [], t => .ok t
  | f :: fs, t => match f t with
    | .error e => .error e
    | .ok t' => transformOne fs t'

/-- `stage_apply_target_transforms`: gguf_export_stages.py:83-105. -/
def transformAll (fs : List (Tensor Q F → Except Err (Tensor Q F))) : List (Tensor Q F) →
    Except Err (List (Tensor Q F))
  | [] => .ok []
  | t :: ts => match transformOne fs t with
    | .error e => .error e
    | .ok t' => match transformAll fs ts with
      | .error e => .error e
      | .ok ts' => .ok (t' :: ts')

/-- `stage_map_tensor_names`: gguf_export_stages.py:108-124. -/
def mapNames (ad : Adapter Q F G) (ts : List (Tensor Q F)) : List (G × Tensor Q F) :=
  ts.filterMap (fun t => (ad.nameMap t.name).map (fun g => (g, t)))

/-- The dictionary of quantized tensors: gguf_export_stages.py:140-148. -/
def packQuantized (ts : List (G × Tensor Q F)) : List (G × List Q) :=
  ts.foldl (fun d e => match e.2.data with | .quantized rows => Dict.set d e.1 rows | .float _ => d) []

/-- The dictionary of float tensors: gguf_export_stages.py:149-151. -/
def packFloat (ts : List (G × Tensor Q F)) : List (G × List F) :=
  ts.foldl (fun d e => match e.2.data with | .quantized _ => d | .float rows => Dict.set d e.1 rows) []

/-- `add_tensor` for all tensors, quantized ones first: gguf_export_stages.py:191-196.  `GGUFWriter` refuses a name it has
already. -/
def addTensors : List (G × Data Q F) → List (G × Data Q F) → Except Err (List (G × Data Q F))
  | file, [] => .ok file
  | file, e :: es => if e.1 ∈ file.map Prod.fst then .error .runtimeError else addTensors (file ++ [e]) es

/-- The whole pipeline: the tensors of the file. -/
def ggufFile (ad : Adapter Q F G) (m : Model Q F) : Except Err (List (G × Data Q F)) :=
  match extract ad m with
  | .error e => .error e
  | .ok ts => match transformAll ad.transforms ts with
    | .error e => .error e
    | .ok ts' =>
      let named := mapNames ad ts'
      addTensors [] ((packQuantized named).map (fun e => (e.1, .quantized e.2)) ++
        (packFloat named).map (fun e => (e.1, .float e.2)))

/-- `_default_is_tied`: adapter.py:57-62. -/
def defaultIsTied (tieWordEmbeddings : Bool) (name : Path) : Bool :=
  if !tieWordEmbeddings then false else decide (name = ["lm_head", "weight"])

/-! ## Specification -/

/-- The quantizer of a parameter: the initialized weight quantizer of the module the parameter is the weight of. -/
def QuantizerOf (m : Model Q F) (name : Path) (q : WeightQuantizer Q F) : Prop :=
  q ∈ m.quantizers ∧ q.linear = true ∧ q.initialized = true ∧ ∃ module attr, q.path = module ++ [attr] ∧
    name = module ++ ["weight"]

/-- The values the quantized model computes with for a parameter. -/
def Effective (val : Q → F) (m : Model Q F) (p : Param F) (values : List F) : Prop :=
  (∃ q, QuantizerOf m p.name q ∧ values = (q.quantize p.rows).map val) ∨
    ((∀ q, ¬ QuantizerOf m p.name q) ∧ values = p.rows)

/-- The values of a tensor in the file. -/
def Data.values (val : Q → F) : Data Q F → List F
  | .quantized rows => rows.map val
  | .float rows => rows

/-- What llama.cpp computes with for rows in the file, for a query or key projection with `heads` heads: the two halves of
each head are interleaved in the file. -/
def Loaded (heads : ℕ) (inFile loaded : List F) : Prop :=
  loaded.length = inFile.length ∧ ∃ half, inFile.length = heads * (2 * half) ∧
    ∀ a k j, a < heads → k < half → j < 2 → loaded[a * (2 * half) + j * half + k]? = inFile[a * (2 * half) + 2 * k + j]?

/-- What llama.cpp computes with for a tensor of the file. -/
def LoadedAs (proj : Proj) (heads kvHeads : ℕ) (inFile loaded : List F) : Prop :=
  match proj with
  | .q => Loaded heads inFile loaded
  | .k => Loaded kvHeads inFile loaded
  | .other => loaded = inFile

/-- A parameter is to be in the file: it is the first name of its parameter object, it has a name in the file, has values,
and is not tied to another one. -/
def Exported (ad : Adapter Q F G) (m : Model Q F) (p : Param F) (g : G) : Prop :=
  (∃ before after, m.params = before ++ p :: after ∧ ∀ p' ∈ before, p'.obj ≠ p.obj) ∧ ad.nameMap p.name = some g ∧
    p.initialized = true ∧ ad.isTied p.name = false

/-- No two parameters of the file have the same name in it. -/
def NamesDiffer (ad : Adapter Q F G) (m : Model Q F) : Prop :=
  ∀ p p' g, Exported ad m p g → Exported ad m p' g → p = p'

/-- Modules other than the whole model hold the quantizers, each at most one for its weight. -/
def QuantizersInModules (m : Model Q F) : Prop :=
  (∀ q ∈ m.quantizers, 2 ≤ q.path.length) ∧ ∀ name q q', QuantizerOf m name q → QuantizerOf m name q' → q = q'

/-! ## Lemmas -/

theorem mem_namedFrom (p : Param F) : ∀ (ps : List (Param F)) (seen : List Nat), p ∈ namedFrom seen ps ↔
    p.obj ∉ seen ∧ ∃ before after, ps = before ++ p :: after ∧ ∀ p' ∈ before, p'.obj ≠ p.obj
  | [], seen => by simp [namedFrom]
  | x :: ps, seen => by
    unfold namedFrom
    by_cases h : x.obj ∈ seen
    · rw [if_pos h, mem_namedFrom p ps seen]
      constructor
      · rintro ⟨h1, b, a, h2, h3⟩
        refine ⟨h1, x :: b, a, by rw [h2]; rfl, ?_⟩
        intro p' hp'
        rcases List.mem_cons.1 hp' with rfl | hp'
        · intro e
          exact h1 (e ▸ h)
        · exact h3 p' hp'
      · rintro ⟨h1, b, a, h2, h3⟩
        cases b with
        | nil =>
          simp only [List.nil_append, List.cons.injEq] at h2
          exact absurd (h2.1 ▸ h) h1
        | cons y b =>
          simp only [List.cons_append, List.cons.injEq] at h2
          exact ⟨h1, b, a, h2.2, fun p' hp' => h3 p' (List.mem_cons_of_mem _ hp')⟩
    · rw [if_neg h, List.mem_cons, mem_namedFrom p ps (x.obj :: seen)]
      constructor
      · rintro (rfl | ⟨h1, b, a, h2, h3⟩)
        · exact ⟨h, [], ps, rfl, by simp⟩
        · rw [List.mem_cons, not_or] at h1
          refine ⟨h1.2, x :: b, a, by rw [h2]; rfl, ?_⟩
          intro p' hp'
          rcases List.mem_cons.1 hp' with rfl | hp'
          · exact fun e => h1.1 e.symm
          · exact h3 p' hp'
      · rintro ⟨h1, b, a, h2, h3⟩
        cases b with
        | nil =>
          simp only [List.nil_append, List.cons.injEq] at h2
          exact Or.inl h2.1.symm
        | cons y b =>
          simp only [List.cons_append, List.cons.injEq] at h2
          refine Or.inr ⟨?_, b, a, h2.2, fun p' hp' => h3 p' (List.mem_cons_of_mem _ hp')⟩
          rw [List.mem_cons, not_or]
          refine ⟨?_, h1⟩
          have := h3 y List.mem_cons_self
          rw [← h2.1] at this
          exact fun e => this e.symm

/-- The quantizers found for a name: the last of those that map to it. -/
theorem quantizerMap_get (qs : List (WeightQuantizer Q F)) (name : Path) :
    (∀ q, Dict.get (quantizerMap qs) name = some q →
      q ∈ qs ∧ q.linear = true ∧ q.initialized = true ∧ name = parent q.path ++ ["weight"]) ∧
    (Dict.get (quantizerMap qs) name = none → ∀ q ∈ qs, q.linear = true → q.initialized = true →
      name ≠ parent q.path ++ ["weight"]) := by
  unfold quantizerMap
  induction qs using List.reverseRecOn with
  | nil => simp [Dict.get]
  | append_singleton qs x ih =>
    rw [List.foldl_append, List.foldl_cons, List.foldl_nil]
    by_cases h : (!x.linear || !x.initialized) = true
    · rw [if_pos h]
      refine ⟨fun q hq => ?_, fun hn q hq h1 h2 => ?_⟩
      · obtain ⟨i1, i2⟩ := ih.1 q hq
        exact ⟨List.mem_append_left _ i1, i2⟩
      · rcases List.mem_append.1 hq with hq | hq
        · exact ih.2 hn q hq h1 h2
        · rw [List.mem_singleton.1 hq] at h1 h2
          simp [h1, h2] at h
    · rw [if_neg h, Dict.get_set]
      simp only [Bool.or_eq_true, Bool.not_eq_true', not_or, Bool.not_eq_false] at h
      by_cases hk : parent x.path ++ ["weight"] = name
      · rw [if_pos hk]
        refine ⟨fun q hq => ?_, fun hn => ?_⟩
        · rw [← Option.some.inj hq]
          exact ⟨by simp, h.1, h.2, hk.symm⟩
        · cases hn
      · rw [if_neg hk]
        refine ⟨fun q hq => ?_, fun hn q hq h1 h2 => ?_⟩
        · obtain ⟨i1, i2⟩ := ih.1 q hq
          exact ⟨List.mem_append_left _ i1, i2⟩
        · rcases List.mem_append.1 hq with hq | hq
          · exact ih.2 hn q hq h1 h2
          · rw [List.mem_singleton.1 hq]
            exact fun e => hk e.symm

theorem parent_iff {path name : Path} (h : 2 ≤ path.length) :
    name = parent path ++ ["weight"] ↔ ∃ module attr, path = module ++ [attr] ∧ name = module ++ ["weight"] := by
  have hne : path ≠ [] := by intro e; rw [e] at h; simp at h
  unfold parent
  rw [if_neg (by omega)]
  constructor
  · intro e
    exact ⟨path.dropLast, path.getLast hne, (List.dropLast_append_getLast hne).symm, e⟩
  · rintro ⟨module, attr, rfl, e⟩
    rw [List.dropLast_concat]
    exact e

/-- The quantizer found is that of the parameter. -/
theorem quantizerMap_spec {m : Model Q F} (h : QuantizersInModules m) (name : Path) :
    (∀ q, Dict.get (quantizerMap m.quantizers) name = some q → QuantizerOf m name q) ∧
    (Dict.get (quantizerMap m.quantizers) name = none → ∀ q, ¬ QuantizerOf m name q) := by
  obtain ⟨h1, h2⟩ := quantizerMap_get m.quantizers name
  refine ⟨fun q hq => ?_, fun hn q hq => ?_⟩
  · obtain ⟨i1, i2, i3, i4⟩ := h1 q hq
    exact ⟨i1, i2, i3, (parent_iff (h.1 q i1)).1 i4⟩
  · obtain ⟨i1, i2, i3, i4⟩ := hq
    exact h2 hn q i1 i2 i3 ((parent_iff (h.1 q i1)).2 i4)

theorem mem_extractAll {ad : Adapter Q F G} {qmap : List (Path × WeightQuantizer Q F)} : ∀ {ps : List (Param F)}
    {ts : List (Tensor Q F)}, extractAll ad qmap ps = .ok ts →
    (∀ t, t ∈ ts ↔ ∃ p ∈ ps, extractOne ad qmap p = .ok (some t)) ∧ ∀ p ∈ ps, ∃ r, extractOne ad qmap p = .ok r
  | [], ts, h => by
    cases h
    simp
  | p :: ps, ts, h => by
    unfold extractAll at h
    cases h1 : extractOne ad qmap p with
    | error e => rw [h1] at h; cases h
    | ok r =>
      rw [h1] at h
      dsimp only at h
      cases h2 : extractAll ad qmap ps with
      | error e => rw [h2] at h; cases h
      | ok ts' =>
        rw [h2] at h
        cases h
        obtain ⟨ih, ih'⟩ := mem_extractAll h2
        constructor
        · intro t
          rw [List.mem_append, ih]
          constructor
          · rintro (ht | ⟨p', hp, ht⟩)
            · rw [Option.mem_toList] at ht
              have : r = some t := ht
              exact ⟨p, by simp, by rw [h1, this]⟩
            · exact ⟨p', by simp [hp], ht⟩
          · rintro ⟨p', hp, ht⟩
            rcases List.mem_cons.1 hp with rfl | hp
            · rw [h1] at ht
              left
              rw [Option.mem_toList]
              exact Except.ok.inj ht
            · exact Or.inr ⟨p', hp, ht⟩
        · intro p' hp
          rcases List.mem_cons.1 hp with rfl | hp
          · exact ⟨r, h1⟩
          · exact ih' p' hp

theorem extractOne_some {ad : Adapter Q F G} {qmap : List (Path × WeightQuantizer Q F)} {p : Param F}
    {r : Option (Tensor Q F)} (h : extractOne ad qmap p = .ok r) :
    (∀ t, r = some t → t.name = p.name ∧ (∃ g, ad.nameMap p.name = some g) ∧ p.initialized = true ∧
      ad.isTied p.name = false) ∧
    ((∃ g, ad.nameMap p.name = some g) → p.initialized = true → ad.isTied p.name = false →
      (∀ q, Dict.get qmap p.name = some q → r = some ⟨p.name, .quantized (q.quantize p.rows)⟩) ∧
      (Dict.get qmap p.name = none → r = some ⟨p.name, .float p.rows⟩)) := by
  unfold extractOne at h
  cases hn : ad.nameMap p.name with
  | none =>
    rw [hn] at h
    cases h
    exact ⟨(by intro t ht; cases ht), (by rintro ⟨g, hg⟩; cases hg)⟩
  | some g =>
    simp only [hn, Option.isNone_some, Bool.false_eq_true, if_false] at h
    cases hi : p.initialized with
    | false =>
      simp only [hi, Bool.not_false, if_true] at h
      cases h
      exact ⟨(by intro t ht; cases ht), (by intro _ h; cases h)⟩
    | true =>
      simp only [hi, Bool.not_true, Bool.false_eq_true, if_false] at h
      cases ht : ad.isTied p.name with
      | true =>
        simp only [ht, if_true] at h
        cases h
        exact ⟨(by intro t ht; cases ht), (by intro _ _ h; cases h)⟩
      | false =>
        simp only [ht, Bool.false_eq_true, if_false] at h
        cases hq : Dict.get qmap p.name with
        | none =>
          rw [hq] at h
          dsimp only at h
          by_cases hd : p.dims = 0
          · rw [if_pos hd] at h; cases h
          · rw [if_neg hd] at h
            cases h
            refine ⟨?_, fun _ _ _ => ⟨(by intro q hq; cases hq), fun _ => rfl⟩⟩
            intro t ht
            cases ht
            exact ⟨rfl, ⟨g, rfl⟩, rfl, rfl⟩
        | some q =>
          rw [hq] at h
          dsimp only at h
          cases hv : q.valid with
          | false => simp only [hv, Bool.not_false, if_true] at h; cases h
          | true =>
            simp only [hv, Bool.not_true, Bool.false_eq_true, if_false] at h
            by_cases hd : p.dims ≠ 2
            · rw [if_pos hd] at h; cases h
            · rw [if_neg hd] at h
              cases h
              refine ⟨?_, fun _ _ _ => ⟨?_, fun h => by cases h⟩⟩
              · intro t ht
                cases ht
                exact ⟨rfl, ⟨g, rfl⟩, rfl, rfl⟩
              · intro q' hq'
                cases hq'
                rfl

theorem mem_transformAll {fs : List (Tensor Q F → Except Err (Tensor Q F))} : ∀ {ts ts' : List (Tensor Q F)},
    transformAll fs ts = .ok ts' →
    (∀ t', t' ∈ ts' ↔ ∃ t ∈ ts, transformOne fs t = .ok t') ∧ ∀ t ∈ ts, ∃ t', transformOne fs t = .ok t'
  | [], ts', h => by
    cases h
    simp
  | t :: ts, ts', h => by
    unfold transformAll at h
    cases h1 : transformOne fs t with
    | error e => rw [h1] at h; cases h
    | ok t' =>
      rw [h1] at h
      dsimp only at h
      cases h2 : transformAll fs ts with
      | error e => rw [h2] at h; cases h
      | ok us =>
        rw [h2] at h
        cases h
        obtain ⟨ih, ih'⟩ := mem_transformAll h2
        constructor
        · intro x
          rw [List.mem_cons, ih]
          constructor
          · rintro (rfl | ⟨y, hy, hx⟩)
            · exact ⟨t, by simp, h1⟩
            · exact ⟨y, by simp [hy], hx⟩
          · rintro ⟨y, hy, hx⟩
            rcases List.mem_cons.1 hy with rfl | hy
            · rw [h1] at hx
              exact Or.inl (Except.ok.inj hx).symm
            · exact Or.inr ⟨y, hy, hx⟩
        · intro y hy
          rcases List.mem_cons.1 hy with rfl | hy
          · exact ⟨t', h1⟩
          · exact ih' y hy

theorem mem_mapNames {ad : Adapter Q F G} {ts : List (Tensor Q F)} {g : G} {t : Tensor Q F} :
    (g, t) ∈ mapNames ad ts ↔ t ∈ ts ∧ ad.nameMap t.name = some g := by
  unfold mapNames
  rw [List.mem_filterMap]
  constructor
  · rintro ⟨x, hx, h⟩
    rw [Option.map_eq_some_iff] at h
    obtain ⟨g', hg, e⟩ := h
    cases e
    exact ⟨hx, hg⟩
  · rintro ⟨h1, h2⟩
    exact ⟨t, h1, by rw [h2]; rfl⟩

theorem addTensors_ok : ∀ {es file out : List (G × Data Q F)}, addTensors file es = .ok out →
    out = file ++ es ∧ ((file.map Prod.fst).Nodup → (out.map Prod.fst).Nodup)
  | [], file, out, h => by
    cases h
    exact ⟨by simp, fun h => h⟩
  | e :: es, file, out, h => by
    unfold addTensors at h
    by_cases hm : e.1 ∈ file.map Prod.fst
    · rw [if_pos hm] at h; cases h
    · rw [if_neg hm] at h
      obtain ⟨h1, h2⟩ := addTensors_ok h
      refine ⟨by rw [h1]; simp, fun hn => h2 ?_⟩
      rw [List.map_append, List.nodup_append]
      refine ⟨hn, by simp, ?_⟩
      intro a ha b hb
      simp only [List.map_cons, List.map_nil, List.mem_singleton] at hb
      rw [hb]
      exact fun e => hm (e ▸ ha)

theorem packQuantized_spec (ts : List (G × Tensor Q F)) :
    (Dict.keys (packQuantized ts)).Nodup ∧
    (∀ g rows, Dict.get (packQuantized ts) g = some rows → ∃ t, (g, t) ∈ ts ∧ t.data = .quantized rows) ∧
    (∀ g t rows, (g, t) ∈ ts → t.data = .quantized rows → (Dict.get (packQuantized ts) g).isSome) := by
  unfold packQuantized
  induction ts using List.reverseRecOn with
  | nil => simp [Dict.keys, Dict.get]
  | append_singleton ts e ih =>
    rw [List.foldl_append, List.foldl_cons, List.foldl_nil]
    obtain ⟨i1, i2, i3⟩ := ih
    obtain ⟨g0, t0⟩ := e
    cases hd : t0.data with
    | float rows0 =>
      dsimp only
      refine ⟨i1, fun g rows h => ?_, fun g t rows h ht => ?_⟩
      · obtain ⟨t, h1, h2⟩ := i2 g rows h
        exact ⟨t, List.mem_append_left _ h1, h2⟩
      · rcases List.mem_append.1 h with h | h
        · exact i3 g t rows h ht
        · cases List.mem_singleton.1 h
          rw [hd] at ht
          cases ht
    | quantized rows0 =>
      dsimp only
      refine ⟨Dict.nodup_set i1 _ _, fun g rows h => ?_, fun g t rows h ht => ?_⟩
      · rw [Dict.get_set] at h
        by_cases hg : g0 = g
        · rw [if_pos hg] at h
          refine ⟨t0, by rw [hg]; simp, ?_⟩
          rw [hd, Option.some.inj h]
        · rw [if_neg hg] at h
          obtain ⟨t, h1, h2⟩ := i2 g rows h
          exact ⟨t, List.mem_append_left _ h1, h2⟩
      · rw [Dict.get_set]
        by_cases hg : g0 = g
        · rw [if_pos hg]; rfl
        · rw [if_neg hg]
          rcases List.mem_append.1 h with h | h
          · exact i3 g t rows h ht
          · cases List.mem_singleton.1 h
            exact absurd rfl hg

theorem packFloat_spec (ts : List (G × Tensor Q F)) :
    (Dict.keys (packFloat ts)).Nodup ∧
    (∀ g rows, Dict.get (packFloat ts) g = some rows → ∃ t, (g, t) ∈ ts ∧ t.data = .float rows) ∧
    (∀ g t rows, (g, t) ∈ ts → t.data = .float rows → (Dict.get (packFloat ts) g).isSome) := by
  unfold packFloat
  induction ts using List.reverseRecOn with
  | nil => simp [Dict.keys, Dict.get]
  | append_singleton ts e ih =>
    rw [List.foldl_append, List.foldl_cons, List.foldl_nil]
    obtain ⟨i1, i2, i3⟩ := ih
    obtain ⟨g0, t0⟩ := e
    cases hd : t0.data with
    | quantized rows0 =>
      dsimp only
      refine ⟨i1, fun g rows h => ?_, fun g t rows h ht => ?_⟩
      · obtain ⟨t, h1, h2⟩ := i2 g rows h
        exact ⟨t, List.mem_append_left _ h1, h2⟩
      · rcases List.mem_append.1 h with h | h
        · exact i3 g t rows h ht
        · cases List.mem_singleton.1 h
          rw [hd] at ht
          cases ht
    | float rows0 =>
      dsimp only
      refine ⟨Dict.nodup_set i1 _ _, fun g rows h => ?_, fun g t rows h ht => ?_⟩
      · rw [Dict.get_set] at h
        by_cases hg : g0 = g
        · rw [if_pos hg] at h
          refine ⟨t0, by rw [hg]; simp, ?_⟩
          rw [hd, Option.some.inj h]
        · rw [if_neg hg] at h
          obtain ⟨t, h1, h2⟩ := i2 g rows h
          exact ⟨t, List.mem_append_left _ h1, h2⟩
      · rw [Dict.get_set]
        by_cases hg : g0 = g
        · rw [if_pos hg]; rfl
        · rw [if_neg hg]
          rcases List.mem_append.1 h with h | h
          · exact i3 g t rows h ht
          · cases List.mem_singleton.1 h
            exact absurd rfl hg

/-- The file against the named tensors: every entry is one of them, every name is there, names are unique. -/
theorem file_entries {ts : List (G × Tensor Q F)} {file : List (G × Data Q F)}
    (h : addTensors [] ((packQuantized ts).map (fun e => (e.1, Data.quantized e.2)) ++
      (packFloat ts).map (fun e => (e.1, Data.float e.2))) = .ok file) :
    (file.map Prod.fst).Nodup ∧ (∀ g d, (g, d) ∈ file → ∃ t, (g, t) ∈ ts ∧ t.data = d) ∧
    ∀ g t, (g, t) ∈ ts → ∃ d, (g, d) ∈ file := by
  obtain ⟨h1, h2⟩ := addTensors_ok h
  obtain ⟨q1, q2, q3⟩ := packQuantized_spec ts
  obtain ⟨f1, f2, f3⟩ := packFloat_spec ts
  rw [List.nil_append] at h1
  refine ⟨h2 (by simp), ?_, ?_⟩
  · intro g d hd
    rw [h1, List.mem_append] at hd
    rcases hd with hd | hd
    · obtain ⟨e, he, hx⟩ := List.mem_map.1 hd
      cases hx
      obtain ⟨t, i1, i2⟩ := q2 e.1 e.2 ((Dict.get_eq_some_iff q1).2 he)
      exact ⟨t, i1, i2⟩
    · obtain ⟨e, he, hx⟩ := List.mem_map.1 hd
      cases hx
      obtain ⟨t, i1, i2⟩ := f2 e.1 e.2 ((Dict.get_eq_some_iff f1).2 he)
      exact ⟨t, i1, i2⟩
  · intro g t ht
    cases hd : t.data with
    | quantized rows =>
      obtain ⟨r, hr⟩ := Option.isSome_iff_exists.1 (q3 g t rows ht hd)
      refine ⟨.quantized r, ?_⟩
      rw [h1]
      exact List.mem_append_left _ (List.mem_map.2 ⟨(g, r), Dict.get_mem hr, rfl⟩)
    | float rows =>
      obtain ⟨r, hr⟩ := Option.isSome_iff_exists.1 (f3 g t rows ht hd)
      refine ⟨.float r, ?_⟩
      rw [h1]
      exact List.mem_append_right _ (List.mem_map.2 ⟨(g, r), Dict.get_mem hr, rfl⟩)

theorem pick_ok {α : Type} {rows : List α} : ∀ {index : List ℕ} {rows' : List α}, pick rows index = .ok rows' →
    rows'.length = index.length ∧ ∀ (i x : ℕ), index[i]? = some x → rows'[i]? = rows[x]?
  | [], rows', h => by
    cases h
    simp
  | x :: index, rows', h => by
    unfold pick at h
    rw [List.mapM_cons] at h
    simp only [bind, Except.bind, pure, Except.pure] at h
    cases hx : rows[x]? with
    | none => simp [hx] at h
    | some r =>
      simp only [hx] at h
      cases hr : List.mapM (fun i => match rows[i]? with | some r => Except.ok r | none => Except.error Err.runtimeError)
          index with
      | error e => simp [hr] at h
      | ok rest =>
        simp only [hr] at h
        cases h
        obtain ⟨i1, i2⟩ := pick_ok (rows' := rest) (index := index) hr
        refine ⟨by simp [i1], ?_⟩
        intro i y hy
        cases i with
        | zero =>
          simp only [List.getElem?_cons_zero, Option.some.injEq] at hy
          rw [← hy, hx]
          rfl
        | succ i =>
          rw [List.getElem?_cons_succ] at hy ⊢
          exact i2 i y hy

/-- Reordered rows are loaded as the rows before. -/
theorem rope_loaded {val : Q → F} {rows rows' : List Q} {index : List ℕ} {heads : ℕ}
    (h1 : ropeIndex rows.length heads = .ok index) (h2 : pick rows index = .ok rows') :
    Loaded heads (rows'.map val) (rows.map val) := by
  obtain ⟨hh, half, hn⟩ := (rope_index_defined_iff rows.length heads).1 ⟨index, h1⟩
  obtain ⟨p1, p2⟩ := pick_ok h2
  have hp := rope_index_perm _ _ _ h1
  have hl : rows'.length = rows.length := by rw [p1, hp.length_eq]; simp
  have hn' : rows.length = heads * 2 * half := by rw [hn]; ring
  refine ⟨by simp [hl], half, by simp [hl, hn]; ring, ?_⟩
  intro a k j ha hk hj
  rw [hn'] at h1
  rw [List.getElem?_map, List.getElem?_map, p2 _ _ (rope_index_position heads half index h1 a k j ha hk hj)]

/-- What the transforms do to a tensor. -/
theorem transform_spec {val : Q → F} {projOf : Path → Proj} {heads kvHeads : ℕ}
    {fs : List (Tensor Q F → Except Err (Tensor Q F))}
    (hfs : (fs = [] ∧ ∀ n, projOf n = .other) ∨ fs = [ropeTransform projOf heads kvHeads]) {t t' : Tensor Q F}
    (h : transformOne fs t = .ok t') : t'.name = t.name ∧
    ((∃ rows, t.data = .quantized rows) ∨ projOf t.name = .other →
      LoadedAs (projOf t.name) heads kvHeads (t'.data.values val) (t.data.values val)) ∧
    (∀ rows, t.data = .float rows → t'.data = .float rows) := by
  rcases hfs with ⟨rfl, ho⟩ | rfl
  · cases h
    refine ⟨rfl, fun _ => ?_, fun rows h => h⟩
    rw [ho]
    rfl
  · unfold transformOne at h
    cases hr : ropeTransform projOf heads kvHeads t with
    | error e => rw [hr] at h; cases h
    | ok u =>
      rw [hr] at h
      cases h
      unfold ropeTransform at hr
      cases hd : t.data with
      | float rows =>
        rw [hd] at hr
        cases hr
        refine ⟨rfl, ?_, fun r h => by rw [hd]; exact h⟩
        rintro (⟨r, h⟩ | h)
        · cases h
        · rw [h]
          show _ = _
          rw [hd]
      | quantized rows =>
        rw [hd] at hr
        dsimp only at hr
        cases hp : projOf t.name with
        | other =>
          rw [hp] at hr
          cases hr
          refine ⟨rfl, fun _ => ?_, fun r h => by cases h⟩
          show _ = _
          rw [hd]
        | q =>
          rw [hp] at hr
          dsimp only at hr
          cases hi : ropeIndex rows.length heads with
          | error e => rw [hi] at hr; cases hr
          | ok index =>
            rw [hi] at hr
            dsimp only at hr
            cases hk : pick rows index with
            | error e => rw [hk] at hr; cases hr
            | ok rows' =>
              rw [hk] at hr
              cases hr
              exact ⟨rfl, fun _ => rope_loaded hi hk, fun r h => by cases h⟩
        | k =>
          rw [hp] at hr
          dsimp only at hr
          cases hi : ropeIndex rows.length kvHeads with
          | error e => rw [hi] at hr; cases hr
          | ok index =>
            rw [hi] at hr
            dsimp only at hr
            cases hk : pick rows index with
            | error e => rw [hk] at hr; cases hr
            | ok rows' =>
              rw [hk] at hr
              cases hr
              exact ⟨rfl, fun _ => rope_loaded hi hk, fun r h => by cases h⟩

theorem transform_spec_name {projOf : Path → Proj} {heads kvHeads : ℕ} {t t' : Tensor Q F}
    (h : transformOne [ropeTransform projOf heads kvHeads] t = .ok t') : t'.name = t.name := by
  unfold transformOne at h
  cases hr : ropeTransform projOf heads kvHeads t with
  | error e => rw [hr] at h; cases h
  | ok u =>
    rw [hr] at h
    cases h
    unfold ropeTransform at hr
    cases hd : t.data with
    | float rows => rw [hd] at hr; cases hr; rfl
    | quantized rows =>
      rw [hd] at hr
      dsimp only at hr
      cases hp : projOf t.name with
      | other => rw [hp] at hr; cases hr; rfl
      | q =>
        rw [hp] at hr
        dsimp only at hr
        cases hi : ropeIndex rows.length heads with
        | error e => rw [hi] at hr; cases hr
        | ok index =>
          rw [hi] at hr
          dsimp only at hr
          cases hk : pick rows index with
          | error e => rw [hk] at hr; cases hr
          | ok rows' => rw [hk] at hr; cases hr; rfl
      | k =>
        rw [hp] at hr
        dsimp only at hr
        cases hi : ropeIndex rows.length kvHeads with
        | error e => rw [hi] at hr; cases hr
        | ok index =>
          rw [hi] at hr
          dsimp only at hr
          cases hk : pick rows index with
          | error e => rw [hk] at hr; cases hr
          | ok rows' => rw [hk] at hr; cases hr; rfl

/-- The parts of a successful export. -/
theorem ggufFile_ok {ad : Adapter Q F G} {m : Model Q F} {file : List (G × Data Q F)} (h : ggufFile ad m = .ok file) :
    ∃ ts ts', extract ad m = .ok ts ∧ transformAll ad.transforms ts = .ok ts' ∧
      addTensors [] ((packQuantized (mapNames ad ts')).map (fun e => (e.1, Data.quantized e.2)) ++
        (packFloat (mapNames ad ts')).map (fun e => (e.1, Data.float e.2))) = .ok file := by
  unfold ggufFile at h
  cases h1 : extract ad m with
  | error e => rw [h1] at h; cases h
  | ok ts =>
    rw [h1] at h
    dsimp only at h
    cases h2 : transformAll ad.transforms ts with
    | error e => rw [h2] at h; cases h
    | ok ts' =>
      rw [h2] at h
      exact ⟨ts, ts', rfl, h2, h⟩

/-- A tensor extracted is that of an exported parameter, and conversely. -/
theorem mem_extract {ad : Adapter Q F G} {m : Model Q F} {ts : List (Tensor Q F)} (h : extract ad m = .ok ts) :
    (∀ t ∈ ts, ∃ p g, Exported ad m p g ∧ t.name = p.name ∧
      extractOne ad (quantizerMap m.quantizers) p = .ok (some t)) ∧
    ∀ p g, Exported ad m p g → ∃ t ∈ ts, t.name = p.name ∧
      extractOne ad (quantizerMap m.quantizers) p = .ok (some t) := by
  unfold extract at h
  obtain ⟨h1, h2⟩ := mem_extractAll h
  constructor
  · intro t ht
    obtain ⟨p, hp, he⟩ := (h1 t).1 ht
    obtain ⟨e1, ⟨g, e2⟩, e3, e4⟩ := (extractOne_some he).1 t rfl
    exact ⟨p, g, ⟨((mem_namedFrom p m.params []).1 hp).2, e2, e3, e4⟩, e1, he⟩
  · rintro p g ⟨hp, e2, e3, e4⟩
    have hm : p ∈ namedFrom [] m.params := (mem_namedFrom p m.params []).2 ⟨by simp, hp⟩
    obtain ⟨r, hr⟩ := h2 p hm
    have hx := (extractOne_some hr).2 ⟨g, e2⟩ e3 e4
    cases hq : Dict.get (quantizerMap m.quantizers) p.name with
    | none =>
      have := hx.2 hq
      exact ⟨⟨p.name, .float p.rows⟩, (h1 _).2 ⟨p, hm, by rw [hr, this]⟩, rfl, by rw [hr, this]⟩
    | some q =>
      have := hx.1 q hq
      exact ⟨⟨p.name, .quantized (q.quantize p.rows)⟩, (h1 _).2 ⟨p, hm, by rw [hr, this]⟩, rfl, by rw [hr, this]⟩

/-! ## Properties -/

/-- **C109 (partial).**  The file of a model, if it is written, has for every parameter to be exported exactly one tensor
with its name, and llama.cpp, loading it, computes with the values the quantized model computes with.
Missing: names that differ, quantizers in modules other than the whole model and quantized query and key projections are
assumed. -/
theorem file_has_every_parameter_partial (val : Q → F) (projOf : Path → Proj) (heads kvHeads : ℕ) (ad : Adapter Q F G)
    (m : Model Q F) (file : List (G × Data Q F))
    (hfs : (ad.transforms = [] ∧ ∀ n, projOf n = .other) ∨ ad.transforms = [ropeTransform projOf heads kvHeads])
    (hn : NamesDiffer ad m) (hq : QuantizersInModules m)
    (hp : ∀ p g, Exported ad m p g → projOf p.name ≠ .other → ∃ q, QuantizerOf m p.name q)
    (h : ggufFile ad m = .ok file) (p : Param F) (g : G) (he : Exported ad m p g) :
    ∃ d, (g, d) ∈ file ∧ (∀ d', (g, d') ∈ file → d' = d) ∧
      ∃ values, Effective val m p values ∧ LoadedAs (projOf p.name) heads kvHeads (d.values val) values := by
  obtain ⟨ts, ts', h1, h2, h3⟩ := ggufFile_ok h
  obtain ⟨n1, n2, n3⟩ := file_entries h3
  obtain ⟨t1, t2⟩ := mem_transformAll h2
  obtain ⟨x1, x2⟩ := mem_extract h1
  obtain ⟨t, ht, hname, hext⟩ := x2 p g he
  obtain ⟨t', ht'⟩ := t2 t ht
  obtain ⟨s1, s2, s3⟩ := transform_spec (val := val) hfs ht'
  have hmem : (g, t') ∈ mapNames ad ts' := mem_mapNames.2 ⟨(t1 t').2 ⟨t, ht, ht'⟩, by rw [s1, hname]; exact he.2.1⟩
  obtain ⟨d, hd⟩ := n3 g t' hmem
  -- the entry is that of the tensor
  have hdt : d = t'.data := by
    obtain ⟨u, hu, hud⟩ := n2 g d hd
    obtain ⟨hu1, hu2⟩ := mem_mapNames.1 hu
    obtain ⟨v, hv, hvu⟩ := (t1 u).1 hu1
    obtain ⟨p', g', he', hn', hx'⟩ := x1 v hv
    obtain ⟨r1, _, _⟩ := transform_spec (val := val) hfs hvu
    have hg : g' = g := by
      have := he'.2.1
      rw [← hn', ← r1, hu2] at this
      exact (Option.some.inj this).symm
    rw [hg] at he'
    have hpp := hn p' p g he' he
    rw [hpp] at hx'
    rw [hx'] at hext
    have hvt : v = t := by simpa using hext
    rw [hvt, ht'] at hvu
    rw [← hud, Except.ok.inj hvu]
  refine ⟨d, hd, ?_, ?_⟩
  · intro d' hd'
    have := List.inj_on_of_nodup_map n1 hd hd' rfl
    exact (Prod.mk.inj this).2.symm
  · obtain ⟨m1, m2⟩ := quantizerMap_spec hq p.name
    have hx := (extractOne_some hext).2 ⟨g, he.2.1⟩ he.2.2.1 he.2.2.2
    rw [hdt]
    cases hg : Dict.get (quantizerMap m.quantizers) p.name with
    | some q =>
      have hte := Option.some.inj (hx.1 q hg)
      refine ⟨(q.quantize p.rows).map val, Or.inl ⟨q, m1 q hg, rfl⟩, ?_⟩
      have := s2 (Or.inl ⟨q.quantize p.rows, by rw [hte]⟩)
      rw [hte] at this
      exact this
    | none =>
      have hte := Option.some.inj (hx.2 hg)
      refine ⟨p.rows, Or.inr ⟨m2 hg, rfl⟩, ?_⟩
      have ho : projOf t.name = .other := by
        rw [hname]
        by_contra hc
        obtain ⟨q, hqq⟩ := hp p g he hc
        exact m2 hg q hqq
      have := s2 (Or.inr ho)
      rw [hte] at this
      exact this

/-- **C109.**  Every tensor in the file is that of a parameter to be exported, under its name, whatever the transforms
(they keep names). -/
theorem file_has_only_parameters (ad : Adapter Q F G) (m : Model Q F) (file : List (G × Data Q F))
    (hk : ∀ f ∈ ad.transforms, ∀ t t', f t = .ok t' → t'.name = t.name) (h : ggufFile ad m = .ok file) :
    (file.map Prod.fst).Nodup ∧ ∀ g d, (g, d) ∈ file → ∃ p, Exported ad m p g := by
  have keep : ∀ (fs : List (Tensor Q F → Except Err (Tensor Q F))) (t t' : Tensor Q F),
      (∀ f ∈ fs, ∀ t t', f t = .ok t' → t'.name = t.name) → transformOne fs t = .ok t' → t'.name = t.name := by
    intro fs
    induction fs with
    | nil =>
      intro t t' _ h
      cases h
      rfl
    | cons f fs ih =>
      intro t t' hf h
      unfold transformOne at h
      cases hx : f t with
      | error e => rw [hx] at h; cases h
      | ok u =>
        rw [hx] at h
        rw [ih u t' (fun f' h' => hf f' (List.mem_cons_of_mem _ h')) h, hf f List.mem_cons_self t u hx]
  obtain ⟨ts, ts', h1, h2, h3⟩ := ggufFile_ok h
  obtain ⟨n1, n2, _⟩ := file_entries h3
  refine ⟨n1, ?_⟩
  intro g d hd
  obtain ⟨u, hu, _⟩ := n2 g d hd
  obtain ⟨hu1, hu2⟩ := mem_mapNames.1 hu
  obtain ⟨v, hv, hvu⟩ := ((mem_transformAll h2).1 u).1 hu1
  obtain ⟨p, g', he, hname, _⟩ := (mem_extract h1).1 v hv
  have : g' = g := by
    have h4 := he.2.1
    rw [← hname, ← keep _ _ _ hk hvu, hu2] at h4
    exact (Option.some.inj h4).symm
  exact ⟨p, this ▸ he⟩

/-- **C109.**  When the file is written: names differ, every quantizer of a parameter to be exported fits the format, the
parameter has two dimensions (at least one if it is not quantized), and the heads of query and key projections divide
their rows into halves. -/
theorem file_written (projOf : Path → Proj) (heads kvHeads : ℕ) (ad : Adapter Q F G) (m : Model Q F)
    (hfs : (ad.transforms = [] ∧ ∀ n, projOf n = .other) ∨ ad.transforms = [ropeTransform projOf heads kvHeads])
    (hn : NamesDiffer ad m) (hq : QuantizersInModules m)
    (hv : ∀ p g q, Exported ad m p g → QuantizerOf m p.name q → q.valid = true ∧ p.dims = 2 ∧
      (projOf p.name = .q → 0 < heads ∧ 2 * heads ∣ (q.quantize p.rows).length) ∧
      (projOf p.name = .k → 0 < kvHeads ∧ 2 * kvHeads ∣ (q.quantize p.rows).length))
    (hd : ∀ p g, Exported ad m p g → (∀ q, ¬ QuantizerOf m p.name q) → 0 < p.dims) :
    ∃ file, ggufFile ad m = .ok file := by
  -- extraction
  have hone : ∀ p ∈ namedFrom [] m.params, ∃ r, extractOne ad (quantizerMap m.quantizers) p = .ok r := by
    intro p hp
    have hp' := ((mem_namedFrom p m.params []).1 hp).2
    obtain ⟨m1, m2⟩ := quantizerMap_spec hq p.name
    unfold extractOne
    cases hg : ad.nameMap p.name with
    | none => exact ⟨none, rfl⟩
    | some g =>
      cases hi : p.initialized with
      | false => exact ⟨none, rfl⟩
      | true =>
        cases ht : ad.isTied p.name with
        | true => exact ⟨none, rfl⟩
        | false =>
          have he : Exported ad m p g := ⟨hp', hg, hi, ht⟩
          cases hx : Dict.get (quantizerMap m.quantizers) p.name with
          | none =>
            have := hd p g he (m2 hx)
            exact ⟨some ⟨p.name, .float p.rows⟩, by simp [Nat.pos_iff_ne_zero.1 this]⟩
          | some q =>
            obtain ⟨v1, v2, _⟩ := hv p g q he (m1 q hx)
            exact ⟨some ⟨p.name, .quantized (q.quantize p.rows)⟩, by simp [v1, v2]⟩
  have hall : ∀ ps : List (Param F), (∀ p ∈ ps, ∃ r, extractOne ad (quantizerMap m.quantizers) p = .ok r) →
      ∃ ts, extractAll ad (quantizerMap m.quantizers) ps = .ok ts := by
    intro ps
    induction ps with
    | nil => exact fun _ => ⟨[], rfl⟩
    | cons p ps ih =>
      intro h
      obtain ⟨r, hr⟩ := h p List.mem_cons_self
      obtain ⟨ts, hts⟩ := ih (fun p' hp' => h p' (List.mem_cons_of_mem _ hp'))
      exact ⟨r.toList ++ ts, by simp only [extractAll, hr, hts]⟩
  obtain ⟨ts, hts⟩ := hall _ hone
  have hext : extract ad m = .ok ts := hts
  obtain ⟨x1, _⟩ := mem_extract hext
  -- transforms
  have hrope : ∀ (rows : List Q) (h : ℕ), 0 < h → 2 * h ∣ rows.length → ∃ index rows',
      ropeIndex rows.length h = .ok index ∧ pick rows index = .ok rows' := by
    intro rows h h1 h2
    obtain ⟨index, hi⟩ := (rope_index_defined_iff rows.length h).2 ⟨h1, h2⟩
    have hp := rope_index_perm _ _ _ hi
    have hb : ∀ x ∈ index, x < rows.length := fun x hx => List.mem_range.1 (hp.mem_iff.1 hx)
    have : ∀ index : List ℕ, (∀ x ∈ index, x < rows.length) → ∃ rows', pick rows index = .ok rows' := by
      intro index
      induction index with
      | nil => exact fun _ => ⟨[], rfl⟩
      | cons x index ih =>
        intro hb
        obtain ⟨rest, hr⟩ := ih (fun y hy => hb y (List.mem_cons_of_mem _ hy))
        have hx := hb x List.mem_cons_self
        refine ⟨rows[x] :: rest, ?_⟩
        unfold pick at hr ⊢
        rw [List.mapM_cons]
        simp only [bind, Except.bind, pure, Except.pure, List.getElem?_eq_getElem hx, hr]
    obtain ⟨rows', hr⟩ := this index hb
    exact ⟨index, rows', hi, hr⟩
  have htone : ∀ t ∈ ts, ∃ t', transformOne ad.transforms t = .ok t' := by
    intro t ht
    rcases hfs with ⟨hf, _⟩ | hf
    · exact ⟨t, by rw [hf]; rfl⟩
    · obtain ⟨p, g, he, hname, hx⟩ := x1 t ht
      obtain ⟨m1, m2⟩ := quantizerMap_spec hq p.name
      have hs := (extractOne_some hx).2 ⟨g, he.2.1⟩ he.2.2.1 he.2.2.2
      have : ∃ u, ropeTransform projOf heads kvHeads t = .ok u := by
        cases hg : Dict.get (quantizerMap m.quantizers) p.name with
        | none =>
          have hte := Option.some.inj (hs.2 hg)
          exact ⟨t, by unfold ropeTransform; rw [hte]⟩
        | some q =>
          have hte := Option.some.inj (hs.1 q hg)
          obtain ⟨_, _, v3, v4⟩ := hv p g q he (m1 q hg)
          unfold ropeTransform
          rw [hte]
          cases hpj : projOf p.name with
          | other => exact ⟨_, rfl⟩
          | q =>
            obtain ⟨index, rows', i1, i2⟩ := hrope _ _ (v3 hpj).1 (v3 hpj).2
            exact ⟨⟨p.name, .quantized rows'⟩, by simp only [i1, i2]⟩
          | k =>
            obtain ⟨index, rows', i1, i2⟩ := hrope _ _ (v4 hpj).1 (v4 hpj).2
            exact ⟨⟨p.name, .quantized rows'⟩, by simp only [i1, i2]⟩
      obtain ⟨u, hu⟩ := this
      exact ⟨u, by rw [hf]; simp only [transformOne, hu]⟩
  have htall : ∀ us : List (Tensor Q F), (∀ t ∈ us, ∃ t', transformOne ad.transforms t = .ok t') →
      ∃ us', transformAll ad.transforms us = .ok us' := by
    intro us
    induction us with
    | nil => exact fun _ => ⟨[], rfl⟩
    | cons t us ih =>
      intro h
      obtain ⟨t', ht'⟩ := h t List.mem_cons_self
      obtain ⟨us', hus⟩ := ih (fun x hx => h x (List.mem_cons_of_mem _ hx))
      exact ⟨t' :: us', by simp only [transformAll, ht', hus]⟩
  obtain ⟨ts', hts'⟩ := htall ts htone
  -- names
  have huniq : ∀ g u u', (g, u) ∈ mapNames ad ts' → (g, u') ∈ mapNames ad ts' → u = u' := by
    have src : ∀ g u, (g, u) ∈ mapNames ad ts' → ∃ p t, Exported ad m p g ∧
        extractOne ad (quantizerMap m.quantizers) p = .ok (some t) ∧ transformOne ad.transforms t = .ok u := by
      intro g u hu
      obtain ⟨hu1, hu2⟩ := mem_mapNames.1 hu
      obtain ⟨t, ht, htu⟩ := ((mem_transformAll hts').1 u).1 hu1
      obtain ⟨p, g', he, hname, hx⟩ := x1 t ht
      have hnm : u.name = t.name := by
        rcases hfs with ⟨hf, _⟩ | hf
        · rw [hf] at htu
          cases htu
          rfl
        · rw [hf] at htu
          exact (transform_spec_name htu)
      have : g' = g := by
        have h4 := he.2.1
        rw [← hname, ← hnm, hu2] at h4
        exact (Option.some.inj h4).symm
      exact ⟨p, t, this ▸ he, hx, htu⟩
    intro g u u' hu hu'
    obtain ⟨p, t, e1, e2, e3⟩ := src g u hu
    obtain ⟨p', t', e1', e2', e3'⟩ := src g u' hu'
    have hpp := hn p p' g e1 e1'
    rw [hpp, e2'] at e2
    have : t' = t := by simpa using e2
    rw [this, e3] at e3'
    exact Except.ok.inj e3'
  have hadd : ∀ (es file : List (G × Data Q F)), ((file ++ es).map Prod.fst).Nodup →
      ∃ out, addTensors file es = .ok out := by
    intro es
    induction es with
    | nil => exact fun file _ => ⟨file, rfl⟩
    | cons e es ih =>
      intro file h
      have h' : ((file ++ [e] ++ es).map Prod.fst).Nodup := by simpa using h
      obtain ⟨out, ho⟩ := ih (file ++ [e]) h'
      refine ⟨out, ?_⟩
      unfold addTensors
      rw [if_neg, ho]
      intro hm
      rw [List.map_append, List.nodup_append] at h
      exact h.2.2 e.1 hm e.1 (by simp) rfl
  unfold ggufFile
  rw [hext]
  dsimp only
  rw [hts']
  dsimp only
  apply hadd
  rw [List.nil_append, List.map_append, List.map_map, List.map_map, List.nodup_append]
  obtain ⟨q1, q2, q3⟩ := packQuantized_spec (mapNames ad ts')
  obtain ⟨f1, f2, f3⟩ := packFloat_spec (mapNames ad ts')
  refine ⟨q1, f1, ?_⟩
  intro g hg g' hg' e
  subst e
  obtain ⟨r, hr⟩ := Option.isSome_iff_exists.1 (Dict.get_isSome_iff.2 (show g ∈ Dict.keys _ from hg))
  obtain ⟨r', hr'⟩ := Option.isSome_iff_exists.1 (Dict.get_isSome_iff.2 (show g ∈ Dict.keys _ from hg'))
  obtain ⟨t, t1, t2⟩ := q2 g r hr
  obtain ⟨t', t1', t2'⟩ := f2 g r' hr'
  rw [huniq g t t' t1 t1', t2'] at t2
  cases t2

end

/-! ## Deviations -/

/-- A small adapter: a name in the file is the name joined with dots. -/
def joinAdapter (fs : List (Tensor ℕ ℕ → Except Err (Tensor ℕ ℕ))) : Adapter ℕ ℕ String where
  nameMap := fun n => some (".".intercalate n)
  isTied := fun _ => false
  transforms := fs

/-- The query projection of the examples. -/
def projOfQ (n : Path) : Proj := if n = ["q_proj", "weight"] then .q else .other

/-- Four rows of a query projection with one head. -/
def qProj : Param ℕ := ⟨0, ["q_proj", "weight"], true, 2, [0, 1, 2, 3]⟩

/-- A quantizer that doubles values, for the weight of a module. -/
def doubling (path : Path) : WeightQuantizer ℕ ℕ := ⟨path, true, true, true, fun rows => rows.map (2 * ·)⟩

/-- **C109, deviation.**  A query projection that is not quantized is written without the reordering llama.cpp undoes when
it computes: the exported model uses the rows in another order. -/
theorem float_projection_misread : ∃ (m : Model ℕ ℕ) (file : List (String × Data ℕ ℕ)) (p : Param ℕ) (d : Data ℕ ℕ),
    ggufFile (joinAdapter [ropeTransform projOfQ 1 1]) m = .ok file ∧
    Exported (joinAdapter [ropeTransform projOfQ 1 1]) m p "q_proj.weight" ∧ ("q_proj.weight", d) ∈ file ∧
    file.length = 1 ∧
    ∀ values, Effective id m p values → ¬ LoadedAs (projOfQ p.name) 1 1 (d.values id) values := by
  refine ⟨⟨[qProj], []⟩, [("q_proj.weight", .float [0, 1, 2, 3])], qProj, .float [0, 1, 2, 3], rfl,
    ⟨⟨[], [], rfl, by simp⟩, rfl, rfl, rfl⟩, by simp, rfl, ?_⟩
  rintro values (⟨q, hq, _⟩ | ⟨_, hv⟩)
  · exact absurd hq.1 (by simp)
  · rintro ⟨_, half, hl, hrows⟩
    have hh : half = 2 := by
      simp only [Data.values, List.length_cons, List.length_nil] at hl
      omega
    subst hh
    have := hrows 0 0 1 (by omega) (by omega) (by omega)
    rw [hv] at this
    exact absurd this (by decide)

/-- **C109, deviation.**  Two quantized parameters with one name in the file: one of them is lost without an error.  (Two
float parameters also; one of each kind is refused.) -/
theorem same_name_lost : ∃ (ad : Adapter ℕ ℕ String) (m : Model ℕ ℕ) (p p' : Param ℕ) (file : List (String × Data ℕ ℕ)),
    ggufFile ad m = .ok file ∧ Exported ad m p "w" ∧ Exported ad m p' "w" ∧ p.rows ≠ p'.rows ∧
    file = [("w", .quantized (p'.rows.map (2 * ·)))] := by
  refine ⟨⟨fun _ => some "w", fun _ => false, []⟩,
    ⟨[⟨0, ["a", "weight"], true, 2, [1]⟩, ⟨1, ["b", "weight"], true, 2, [2]⟩],
      [doubling ["a", "weight_quantizer"], doubling ["b", "weight_quantizer"]]⟩,
    ⟨0, ["a", "weight"], true, 2, [1]⟩, ⟨1, ["b", "weight"], true, 2, [2]⟩, _, rfl,
    ⟨⟨[], _, rfl, by simp⟩, rfl, rfl, rfl⟩, ⟨⟨[_], [], rfl, by simp⟩, rfl, rfl, rfl⟩, by decide, rfl⟩

/-- **C109, deviation.**  The quantizer of a model that is itself one layer is not found: its weight is written in floats,
not with the quantized values the model computes with. -/
theorem single_layer_not_quantized : ∃ (m : Model ℕ ℕ) (p : Param ℕ) (q : WeightQuantizer ℕ ℕ),
    ggufFile (joinAdapter []) m = .ok [("weight", .float p.rows)] ∧ Exported (joinAdapter []) m p "weight" ∧
    QuantizerOf m p.name q ∧ ∀ values, Effective id m p values → values ≠ p.rows := by
  have hq : QuantizerOf (⟨[⟨0, ["weight"], true, 2, [1]⟩], [doubling ["weight_quantizer"]]⟩ : Model ℕ ℕ) ["weight"]
      (doubling ["weight_quantizer"]) :=
    ⟨by simp, rfl, rfl, [], "weight_quantizer", rfl, rfl⟩
  refine ⟨_, ⟨0, ["weight"], true, 2, [1]⟩, _, rfl, ⟨⟨[], [], rfl, by simp⟩, rfl, rfl, rfl⟩, hq, ?_⟩
  rintro values (⟨q, hq', hv⟩ | ⟨hn, _⟩)
  · have : q = doubling ["weight_quantizer"] := List.mem_singleton.1 hq'.1
    rw [hv, this]
    decide
  · exact absurd hq (hn _)

/-- **C109, deviation.**  A parameter with two names is looked up under the first of them only: if only the other one has a
name in the file, the parameter is missing from it. -/
theorem shared_parameter_lost : ∃ (ad : Adapter ℕ ℕ String) (m : Model ℕ ℕ) (p : Param ℕ), p ∈ m.params ∧
    ad.nameMap p.name = some "output.weight" ∧ p.initialized = true ∧ (∀ n, ad.isTied n = false) ∧
    ggufFile ad m = .ok [] :=
  ⟨⟨fun n => if n = ["lm_head", "weight"] then some "output.weight" else none, fun _ => false, []⟩,
    ⟨[⟨0, ["encoder", "weight"], true, 2, [1]⟩, ⟨0, ["lm_head", "weight"], true, 2, [1]⟩], []⟩,
    ⟨0, ["lm_head", "weight"], true, 2, [1]⟩, by simp, rfl, rfl, fun _ => rfl, rfl⟩

/-- **C109, deviation.**  If the configuration says that word embeddings are tied, the output layer is not written, even if
its parameter is another one with other values. -/
theorem untied_output_lost : ∃ (ad : Adapter ℕ ℕ String) (m : Model ℕ ℕ) (p p' : Param ℕ), p ∈ m.params ∧ p' ∈ m.params ∧
    p.obj ≠ p'.obj ∧ p.rows ≠ p'.rows ∧ p'.name = ["lm_head", "weight"] ∧ ad.isTied = defaultIsTied true ∧
    (ad.nameMap p'.name).isSome ∧ ggufFile ad m = .ok [("embed.weight", .float p.rows)] :=
  ⟨⟨fun n => some (".".intercalate n), defaultIsTied true, []⟩,
    ⟨[⟨0, ["embed", "weight"], true, 2, [1]⟩, ⟨1, ["lm_head", "weight"], true, 2, [2]⟩], []⟩,
    ⟨0, ["embed", "weight"], true, 2, [1]⟩, ⟨1, ["lm_head", "weight"], true, 2, [2]⟩, by simp, by simp, by decide, by decide,
    rfl, rfl, rfl, rfl⟩

/-! ## Concrete cases -/

/-- A model with a quantized query projection, a norm and a tensor under two names. -/
def exModel : Model ℕ ℕ :=
  ⟨[qProj, ⟨1, ["norm", "weight"], true, 1, [7]⟩, ⟨1, ["norm_again", "weight"], true, 1, [7]⟩],
    [doubling ["q_proj", "weight_quantizer"]]⟩

example : ggufFile (joinAdapter [ropeTransform projOfQ 1 1]) exModel =
    .ok [("q_proj.weight", .quantized [0, 4, 2, 6]), ("norm.weight", .float [7])] := rfl

example : Exported (joinAdapter [ropeTransform projOfQ 1 1]) exModel qProj "q_proj.weight" :=
  ⟨⟨[], _, rfl, by simp⟩, rfl, rfl, rfl⟩

example : QuantizersInModules exModel := by
  refine ⟨?_, ?_⟩
  · intro q hq
    rw [List.mem_singleton.1 hq]
    decide
  · intro name q q' h h'
    rw [List.mem_singleton.1 h.1, List.mem_singleton.1 h'.1]

example : NamesDiffer (joinAdapter [ropeTransform projOfQ 1 1]) exModel := by
  have key : ∀ p g, Exported (joinAdapter [ropeTransform projOfQ 1 1]) exModel p g →
      (p = qProj ∧ g = "q_proj.weight") ∨ (p = ⟨1, ["norm", "weight"], true, 1, [7]⟩ ∧ g = "norm.weight") := by
    rintro p g ⟨hp, hg, _, _⟩
    have := (mem_namedFrom p exModel.params []).2 ⟨by simp, hp⟩
    rw [show namedFrom [] exModel.params = [qProj, ⟨1, ["norm", "weight"], true, 1, [7]⟩] from rfl] at this
    simp only [List.mem_cons, List.not_mem_nil, or_false] at this
    rcases this with rfl | rfl
    · exact Or.inl ⟨rfl, (Option.some.inj hg).symm⟩
    · exact Or.inr ⟨rfl, (Option.some.inj hg).symm⟩
  intro p p' g h h'
  rcases key p g h with ⟨h1, h2⟩ | ⟨h1, h2⟩ <;> rcases key p' g h' with ⟨h3, h4⟩ | ⟨h3, h4⟩
  · rw [h1, h3]
  · rw [h2] at h4
    exact absurd h4 (by decide)
  · rw [h2] at h4
    exact absurd h4 (by decide)
  · rw [h1, h3]

end FF.GgufFile
