/-
Export requests: the registry of pipelines, export/pipeline/registry.py:14-66, the orchestrator,
export/pipeline/orchestrator.py:21-193, the `export` function, export/export.py:38-92, and the pipelines it runs by
default, export/pipeline/qnn_onnx_pipeline.py:28-180, qnn_onnx_qdq_pipeline.py:20-121, gguf_llama_cpp_pipeline.py:16-80.

Simplifications:
* a string given as target or format is the list of its code points, and `strip` and `lower` are those of ASCII;
* a file path is a word, and making a directory does not fail;
* the stage functions other than those for fusing, passing on and extracting are arbitrary functions of their name, the
  context, their arguments, the weights and the rest of the world; they do not write the weights of the model.  Their
  effects are lost if a later stage fails;
* evaluation stages, flags (`export_mode`, `strict_quantization`) and warnings are left out.
-/
import Verif.Export.PipelineProps
import Verif.Util.Dict
import Mathlib.Data.List.Induction

namespace FF.ExportRequest

open FF.Pipeline

/-! ## Model -/

/-- A string. -/
abbrev Word := List Nat

/-- Whitespace as `str.strip` removes it (ASCII). -/
def isSpace (c : Nat) : Bool := decide (c = 32 ∨ (9 ≤ c ∧ c ≤ 13) ∨ (28 ≤ c ∧ c ≤ 31))

/-- `str.lower` of one character (ASCII). -/
def lower (c : Nat) : Nat := if 65 ≤ c ∧ c ≤ 90 then c + 32 else c

/-- `str.strip`. -/
def strip (w : Word) : Word := ((w.dropWhile isSpace).reverse.dropWhile isSpace).reverse

/-- `_key`: registry.py:52-54. -/
def key (target format : Word) : Word × Word := ((strip target).map lower, (strip format).map lower)

/-- The dictionary `_factories`: registry.py:17-18. -/
abbrev Registry (F : Type) := List ((Word × Word) × F)

/-- `PipelineRegistry.register`: registry.py:20-40; `none` is the `ValueError`. -/
def register {F : Type} (r : Registry F) (target format : Word) (factory : F) (replace : Bool) : Option (Registry F) :=
  if !replace && (Dict.get r (key target format)).isSome then none
  else some (Dict.set r (key target format) factory)

/-- `PipelineRegistry.get`: registry.py:42-48; `none` is the `KeyError`. -/
def get {F : Type} (r : Registry F) (target format : Word) : Option F := Dict.get r (key target format)

/-- `PipelineRegistry.has`: registry.py:50-52. -/
def has {F : Type} (r : Registry F) (target format : Word) : Bool := (Dict.get r (key target format)).isSome

/-- The arguments of a call of `register`. -/
structure RegCall (F : Type) where
  target : Word
  format : Word
  factory : F
  replace : Bool

/-- A history of calls of `register`; a refused one changes nothing. -/
def registers {F : Type} (r : Registry F) (calls : List (RegCall F)) : Registry F :=
  calls.foldl (fun r c => (register r c.target c.format c.factory c.replace).getD r) r

/-- Values in the pipeline context; `obj` is any other object. -/
inductive Val where
  | none
  | path (p : Word)
  | str (w : Word)
  | flag (b : Bool)
  | obj (n : Nat)
  deriving DecidableEq, Repr

/-- The truth value of a value; other objects are true. -/
def Val.truthy : Val → Bool
  | .none => false
  | .path _ => true
  | .str w => !w.isEmpty
  | .flag b => b
  | .obj _ => true

/-- The dictionary `context`. -/
abbrev Context := List (String × Val)

/-- `context.get(k, default)` used as a condition. -/
def Context.truthy (c : Context) (k : String) : Bool :=
  match Dict.get c k with
  | none => false
  | some v => v.truthy

/-- `context.get(k) is None`: gguf_export_stages.py:33-34, 44-45, 52-53. -/
def Context.missing (c : Context) (k : String) : Bool :=
  match Dict.get c k with
  | none => true
  | some v => decide (v = .none)

/-- The state of the world: directories, the weights of the model and the rest. -/
structure World (A B : Type) where
  dirs : List Word
  weights : A
  rest : B

/-- Exceptions of stages. -/
inductive Fault where
  | exportError
  | other
  deriving DecidableEq, Repr

/-- A pipeline factory: the pipeline for a context, with the context its stages get (`_pipeline_kwargs`). -/
abbrev Factory := Context → Pipe String × Context

section
variable {R A B : Type}

/-- The stage functions.  `stage_fuse_qdq_weights`: base_pipeline_stages.py:214-236, with `fuse_qdq_weights` given;
`stage_passthrough_ff_module`: 202-211; `stage_extract_quantized_weights`: gguf_export_stages.py:59-80, with what it
requires of the context; all others by `lib`. -/
def stageFn (fuse : A → Except Fault A) (lib : String → Context → List R → A → B → Except Fault (R × B))
    (ctx : Context) (name : String) (args : List R) (w : World A B) : Except Fault (R × World A B) :=
  if name = "fuse_qdq_weights" then
    match args with
    | [m] =>
      if !ctx.truthy "store_weights_as_qdq" then .ok (m, w)
      else match fuse w.weights with
        | .error e => .error e
        | .ok a => .ok (m, { w with weights := a })
    | _ => .error .other
  else if name = "source_ff_module" then
    match args with
    | [m] => .ok (m, w)
    | _ => .error .other
  else if name = "extract_quantized_weights" ∧
      (ctx.missing "arch_adapter" ∨ ctx.missing "model_config" ∨ ctx.missing "quant_format") then .error .exportError
  else match lib name ctx args w.weights w.rest with
    | .error e => .error e
    | .ok rb => .ok (rb.1, { w with rest := rb.2 })

/-- `register_stage(…, name, capture).depends_on(…)`, with the stages numbered in the order of registration. -/
def addStage (p : Pipe String) (name : String) (capture : Bool) (deps : List Nat) : Pipe String :=
  match Pipeline.register p name capture with
  | .error _ => p
  | .ok (q, n) => { q with deps := upd q.deps n (dependsOn (q.deps n) deps) }

/-- The stages registered one after the other. -/
def pipeOf (l : List (String × Bool × List Nat)) : Pipe String :=
  l.foldl (fun p e => addStage p e.1 e.2.1 e.2.2) (Pipe.empty "")

/-- Stages of `qnn_onnx_pipeline`: qnn_onnx_pipeline.py:128-180. -/
def onnxPipe : Pipe String := pipeOf [
  ("fuse_qdq_weights", false, []),
  ("source_ff_module", false, [0]),
  ("capture_model_io", true, [0]),
  ("capture_ff", false, [0]),
  ("convert_captured_ff", false, [3]),
  ("cleanup_ff_quantizer_artifacts", false, [4, 1]),
  ("fx_to_onnx_program", false, [5]),
  ("add_ff_quantization_metadata", false, [6, 5]),
  ("alter_onnx_node_names", false, [7]),
  ("fix_onnx_reshape_allowzero", false, [8]),
  ("rename_onnx_input_output_names", false, [9]),
  ("onnx_program_to_proto", false, [10]),
  ("copy_metadata_props_from_ir_to_proto", false, [10, 11]),
  ("save_onnx_proto", false, [12]),
  ("onnx_proto_to_encodings", true, [13])]

/-- `qnn_onnx_pipeline`: qnn_onnx_pipeline.py:128-180. -/
def qnnOnnx : Factory := fun ctx => (onnxPipe, ctx)

/-- Stages of `qnn_onnx_qdq_pipeline`: qnn_onnx_qdq_pipeline.py:96-121. -/
def qdqPipe : Pipe String := pipeOf [
  ("fuse_qdq_weights", false, []),
  ("capture_model_io", true, [0]),
  ("capture_ff", false, [0]),
  ("convert_captured_ff_qdq", false, [2]),
  ("fx_to_onnx_program_qdq", false, [3]),
  ("onnx_program_to_proto", false, [4]),
  ("save_onnx_proto", true, [5])]

/-- `qnn_onnx_qdq_pipeline`: qnn_onnx_qdq_pipeline.py:96-121. -/
def qnnOnnxQdq : Factory := fun ctx => (qdqPipe, ctx)

/-- Stages of `gguf_llama_cpp_pipeline`: gguf_llama_cpp_pipeline.py:60-80. -/
def ggufPipe : Pipe String := pipeOf [
  ("extract_quantized_weights", false, []),
  ("apply_target_transforms", false, [0]),
  ("map_tensor_names", false, [1]),
  ("pack_gguf_blocks", false, [2]),
  ("write_gguf", true, [3])]

/-- `gguf_llama_cpp_pipeline`: gguf_llama_cpp_pipeline.py:60-80. -/
def ggufLlamaCpp : Factory := fun ctx => (ggufPipe, ctx)

/-- The code points of a string. -/
def word (s : String) : Word := s.toList.map Char.toNat

/-- `build_default_registry`: registry.py:57-63. -/
def defaultRegistry : Registry Factory := registers [] [
  ⟨word "qnn", word "onnx", qnnOnnx, false⟩,
  ⟨word "qnn", word "onnx_qdq", qnnOnnxQdq, false⟩,
  ⟨word "gguf", word "llama_cpp", ggufLlamaCpp, false⟩]

/-- `ExportRequest`: orchestrator.py:21-40; the model is in the world. -/
structure Request where
  outputDir : Word
  modelName : Word
  target : Word
  format : Word
  factory : Option Factory
  options : Context

/-- `_build_pipeline_context`: orchestrator.py:167-178. -/
def contextOf (req : Request) : Context :=
  req.options.foldl (fun c e => Dict.set c e.1 e.2)
    [("output_dir", .path req.outputDir), ("model_name", .str req.modelName)]

/-- `_resolve_pipeline_factory`: orchestrator.py:153-157. -/
def resolve (reg : Registry Factory) (req : Request) : Option Factory :=
  match req.factory with
  | some f => some f
  | none => get reg req.target req.format

/-- `_build_output_dir`: orchestrator.py:159-166. -/
def mkdir (w : World A B) (d : Word) : World A B :=
  if d ∈ w.dirs then w else { w with dirs := w.dirs ++ [d] }

/-- Exceptions of an export. -/
inductive Error where
  | keyError
  | valueError
  | pipeline (e : Err)
  | stage (e : Fault)
  deriving DecidableEq, Repr

/-- `ExportOrchestrator.export`: orchestrator.py:137-151.  `input` is the model as an object; the result are the outputs of
the captured stages. -/
def orchestrate (fuse : A → Except Fault A) (lib : String → Context → List R → A → B → Except Fault (R × B))
    (reg : Registry Factory) (req : Request) (input : R) (w : World A B) :
    Except Error (List (String × Option R)) × World A B :=
  let w1 := mkdir w req.outputDir
  match resolve reg req with
  | none => (.error .keyError, w1)
  | some factory =>
    let pc := factory (contextOf req)
    match run pc.1 (fun s args w => stageFn fuse lib pc.2 (pc.1.name s) args w) input w1 with
    | .error (.inl e) => (.error (.pipeline e), w1)
    | .error (.inr e) => (.error (.stage e), w1)
    | .ok (out, w2) => (.ok out, w2)

/-- `QnnOnnxOptions`: orchestrator.py:43-60. -/
structure QnnOptions where
  inputNames : Val := .none
  outputNames : Val := .none
  schemaHandler : Val
  alterNodeNames : Bool := false
  alterPrefix : Word := word "ff"
  onnxExportOptions : Val
  onnxSaveKwargs : Val
  verbose : Val := .none
  storeWeightsAsQdq : Bool := true

/-- `QnnOnnxOptions.to_context`: orchestrator.py:62-74. -/
def QnnOptions.toContext (o : QnnOptions) : Context :=
  [("input_names", o.inputNames),
   ("output_names", o.outputNames),
   ("encoding_schema_handler", o.schemaHandler),
   ("alter_node_names", .flag o.alterNodeNames),
   ("alter_node_names_prefix", .str o.alterPrefix),
   ("onnx_export_options", o.onnxExportOptions),
   ("onnx_save_kwargs", o.onnxSaveKwargs),
   ("verbose", o.verbose),
   ("store_weights_as_qdq", .flag o.storeWeightsAsQdq)]

/-- `GgufLlamaCppOptions.to_context`: orchestrator.py:110-126. -/
def ggufContext (adapter : Val) (quantFormat : Option Val) (config tokenizer : Val) : Context :=
  [("arch_adapter", adapter), ("model_config", config), ("tokenizer", tokenizer)] ++
    match quantFormat with
    | some q => [("quant_format", q)]
    | none => []

/-- The arguments of `export`: export.py:39-57.  `handler`, `emptyOptions` and `emptyKwargs` are the objects created for
arguments left out; an orchestrator is given by its registry. -/
structure ExportArgs where
  outputDir : Word
  modelName : Word
  target : Word := word "qnn"
  format : Word := word "onnx"
  inputNames : Val := .none
  outputNames : Val := .none
  verbose : Val := .none
  schemaHandler : Option Val := none
  alterNodeNames : Bool := false
  onnxExportOptions : Option Val := none
  onnxSaveKwargs : Option Val := none
  factory : Option Factory := none
  orchestrator : Option (Registry Factory) := none
  registry : Option (Registry Factory) := none
  handler : Val := .obj 0
  emptyOptions : Val := .obj 1
  emptyKwargs : Val := .obj 2

/-- The request of `export`: export.py:63-80. -/
def requestOf (a : ExportArgs) : Request :=
  let o : QnnOptions :=
    { inputNames := a.inputNames, outputNames := a.outputNames,
      schemaHandler := a.schemaHandler.getD a.handler,
      alterNodeNames := a.alterNodeNames,
      onnxExportOptions := a.onnxExportOptions.getD a.emptyOptions,
      onnxSaveKwargs := a.onnxSaveKwargs.getD a.emptyKwargs,
      verbose := a.verbose }
  { outputDir := a.outputDir, modelName := a.modelName, target := a.target, format := a.format, factory := a.factory,
    options := o.toContext }

/-- `export`: export.py:38-92. -/
def export_ (fuse : A → Except Fault A) (lib : String → Context → List R → A → B → Except Fault (R × B))
    (a : ExportArgs) (input : R) (w : World A B) : Except Error (List (String × Option R)) × World A B :=
  if a.orchestrator.isSome && a.registry.isSome then (.error .valueError, w)
  else
    let active := a.registry.getD defaultRegistry
    orchestrate fuse lib (a.orchestrator.getD active) (requestOf a) input w

end

/-! ## Specification -/

/-- One letter, in capitals or not. -/
def SameLetter (x y : Nat) : Prop :=
  x = y ∨ (65 ≤ x ∧ x ≤ 90 ∧ y = x + 32) ∨ (65 ≤ y ∧ y ≤ 90 ∧ x = y + 32)

/-- Whitespace. -/
def Blank (w : Word) : Prop := ∀ c ∈ w, c = 32 ∨ (9 ≤ c ∧ c ≤ 13) ∨ (28 ≤ c ∧ c ≤ 31)

/-- A word neither beginning nor ending with whitespace. -/
def Bare (w : Word) : Prop := (∀ c, w.head? = some c → ¬ Blank [c]) ∧ (∀ c, w.getLast? = some c → ¬ Blank [c])

/-- Two strings are the same but for capitals and surrounding whitespace. -/
def SameWord (a b : Word) : Prop :=
  ∃ p u s q v t, a = p ++ u ++ s ∧ b = q ++ v ++ t ∧ Blank p ∧ Blank s ∧ Blank q ∧ Blank t ∧ Bare u ∧ Bare v ∧
    List.Forall₂ SameLetter u v

/-- A call of `register` for a target and format. -/
def For {F : Type} (c : RegCall F) (target format : Word) : Prop := SameWord c.target target ∧ SameWord c.format format

/-- The factory in force for a target and format after a history of registrations: that of the last call for them that
replaces, or else that of the first call. -/
def InForce {F : Type} (calls : List (RegCall F)) (target format : Word) (f : F) : Prop :=
  ∃ before c after, calls = before ++ c :: after ∧ For c target format ∧ c.factory = f ∧
    (c.replace = true ∨ ∀ d ∈ before, ¬ For d target format) ∧
    ∀ d ∈ after, For d target format → d.replace = false

/-- A stage was called with the results of the stages it depends on (or the pipeline input) while the model had the
weights `a`, and gave its result. -/
def StageRun {R A B : Type} (lib : String → Context → List R → A → B → Except Fault (R × B)) (ctx : Context) (a : A)
    (input : R) (results : String → Option R) (name : String) (deps : List String) : Prop :=
  ∃ args b r b', (if deps = [] then args = [input] else args.map some = deps.map results) ∧
    lib name ctx args a b = .ok (r, b') ∧ results name = some r

/-- The diagram in the documentation of the ONNX pipeline, without the stages at the start that do not produce
anything. -/
def onnxFlow : List (String × List String) :=
  [("capture_model_io", ["fuse_qdq_weights"]),
   ("capture_ff", ["fuse_qdq_weights"]),
   ("convert_captured_ff", ["capture_ff"]),
   ("cleanup_ff_quantizer_artifacts", ["convert_captured_ff", "source_ff_module"]),
   ("fx_to_onnx_program", ["cleanup_ff_quantizer_artifacts"]),
   ("add_ff_quantization_metadata", ["fx_to_onnx_program", "cleanup_ff_quantizer_artifacts"]),
   ("alter_onnx_node_names", ["add_ff_quantization_metadata"]),
   ("fix_onnx_reshape_allowzero", ["alter_onnx_node_names"]),
   ("rename_onnx_input_output_names", ["fix_onnx_reshape_allowzero"]),
   ("onnx_program_to_proto", ["rename_onnx_input_output_names"]),
   ("copy_metadata_props_from_ir_to_proto", ["rename_onnx_input_output_names", "onnx_program_to_proto"]),
   ("save_onnx_proto", ["copy_metadata_props_from_ir_to_proto"]),
   ("onnx_proto_to_encodings", ["save_onnx_proto"])]

/-- The diagram in the documentation of the ONNX QDQ pipeline. -/
def qdqFlow : List (String × List String) :=
  [("capture_model_io", ["fuse_qdq_weights"]),
   ("capture_ff", ["fuse_qdq_weights"]),
   ("convert_captured_ff_qdq", ["capture_ff"]),
   ("fx_to_onnx_program_qdq", ["convert_captured_ff_qdq"]),
   ("onnx_program_to_proto", ["fx_to_onnx_program_qdq"]),
   ("save_onnx_proto", ["onnx_program_to_proto"])]

/-- The diagram in the documentation of the GGUF pipeline. -/
def ggufFlow : List (String × List String) :=
  [("extract_quantized_weights", []),
   ("apply_target_transforms", ["extract_quantized_weights"]),
   ("map_tensor_names", ["apply_target_transforms"]),
   ("pack_gguf_blocks", ["map_tensor_names"]),
   ("write_gguf", ["pack_gguf_blocks"])]

/-- The weights a pipeline works with: fused if asked for, as they are otherwise. -/
def FusedIf {A : Type} (fuse : A → Except Fault A) (asked : Bool) (a a' : A) : Prop :=
  if asked then fuse a = .ok a' else a' = a

/-! ## Lemmas -/

theorem blank_iff (c : Nat) : isSpace c = true ↔ Blank [c] := by
  simp [isSpace, Blank]

theorem blank_of_all {w : Word} (h : ∀ c ∈ w, isSpace c = true) : Blank w := by
  intro c hc
  have := h c hc
  simpa [isSpace] using this

theorem all_of_blank {w : Word} (h : Blank w) : ∀ c ∈ w, isSpace c = true := by
  intro c hc
  have := h c hc
  simpa [isSpace] using this

theorem lower_eq_iff (x y : Nat) : lower x = lower y ↔ SameLetter x y := by
  unfold lower SameLetter
  by_cases hx : 65 ≤ x ∧ x ≤ 90
  · by_cases hy : 65 ≤ y ∧ y ≤ 90
    · rw [if_pos hx, if_pos hy]; omega
    · rw [if_pos hx, if_neg hy]; omega
  · by_cases hy : 65 ≤ y ∧ y ≤ 90
    · rw [if_neg hx, if_pos hy]; omega
    · rw [if_neg hx, if_neg hy]; omega

theorem lower_map_iff : ∀ (u v : Word), u.map lower = v.map lower ↔ List.Forall₂ SameLetter u v
  | [], [] => by simp
  | [], y :: v => by
    constructor
    · intro h; cases h
    · intro h; cases h
  | x :: u, [] => by
    constructor
    · intro h; cases h
    · intro h; cases h
  | x :: u, y :: v => by
    constructor
    · intro h
      simp only [List.map_cons, List.cons.injEq] at h
      exact .cons ((lower_eq_iff x y).1 h.1) ((lower_map_iff u v).1 h.2)
    · intro h
      cases h with
      | cons h1 h2 =>
        simp only [List.map_cons, List.cons.injEq]
        exact ⟨(lower_eq_iff x y).2 h1, (lower_map_iff u v).2 h2⟩

theorem dropWhile_split (w : Word) : ∃ p, w = p ++ w.dropWhile isSpace ∧ (∀ c ∈ p, isSpace c = true) := by
  induction w with
  | nil => exact ⟨[], rfl, by simp⟩
  | cons c w ih =>
    by_cases h : isSpace c = true
    · obtain ⟨p, h1, h2⟩ := ih
      refine ⟨c :: p, ?_, ?_⟩
      · rw [List.dropWhile_cons_of_pos h, List.cons_append, ← h1]
      · intro d hd
        rcases List.mem_cons.1 hd with rfl | hd
        · exact h
        · exact h2 d hd
    · exact ⟨[], by rw [List.dropWhile_cons_of_neg h]; rfl, by simp⟩

theorem dropWhile_head (w : Word) (c : Nat) (h : (w.dropWhile isSpace).head? = some c) : isSpace c = false := by
  induction w with
  | nil => cases h
  | cons d w ih =>
    by_cases hd : isSpace d = true
    · rw [List.dropWhile_cons_of_pos hd] at h
      exact ih h
    · rw [List.dropWhile_cons_of_neg hd] at h
      simp only [List.head?_cons, Option.some.injEq] at h
      subst h
      simpa using hd

theorem dropWhile_blank : ∀ (p w : Word), (∀ c ∈ p, isSpace c = true) →
    (p ++ w).dropWhile isSpace = w.dropWhile isSpace
  | [], _, _ => rfl
  | c :: p, w, h => by
    rw [List.cons_append, List.dropWhile_cons_of_pos (h c List.mem_cons_self)]
    exact dropWhile_blank p w (fun d hd => h d (List.mem_cons_of_mem _ hd))

theorem dropWhile_bare {w : Word} (h : ∀ c, w.head? = some c → isSpace c = false) : w.dropWhile isSpace = w := by
  cases w with
  | nil => rfl
  | cons c w =>
    rw [List.dropWhile_cons_of_neg]
    rw [h c rfl]
    simp

/-- What `strip` leaves: the bare word inside. -/
theorem strip_split (w : Word) : ∃ p s, w = p ++ strip w ++ s ∧ Blank p ∧ Blank s ∧ Bare (strip w) := by
  obtain ⟨p, h1, h2⟩ := dropWhile_split w
  obtain ⟨s, h3, h4⟩ := dropWhile_split (w.dropWhile isSpace).reverse
  have h5 : w.dropWhile isSpace = strip w ++ s.reverse := by
    have := congrArg List.reverse h3
    rw [List.reverse_reverse, List.reverse_append] at this
    exact this
  refine ⟨p, s.reverse, ?_, blank_of_all h2, blank_of_all (fun c hc => h4 c (List.mem_reverse.1 hc)), ?_, ?_⟩
  · rw [List.append_assoc, ← h5]
    exact h1
  · intro c hc hb
    have : (w.dropWhile isSpace).head? = some c := by
      rw [h5, List.head?_append, hc]
      rfl
    rw [← blank_iff, dropWhile_head w c this] at hb
    cases hb
  · intro c hc hb
    unfold strip at hc
    rw [List.getLast?_reverse] at hc
    rw [← blank_iff, dropWhile_head _ c hc] at hb
    cases hb

/-- `strip` of a bare word with whitespace around it. -/
theorem strip_bare {p u s : Word} (hp : Blank p) (hs : Blank s) (hu : Bare u) : strip (p ++ u ++ s) = u := by
  have hb : ∀ c, u.head? = some c → isSpace c = false := by
    intro c hc
    cases h : isSpace c with
    | false => rfl
    | true => exact absurd ((blank_iff c).1 h) (hu.1 c hc)
  have hl : ∀ c, u.reverse.head? = some c → isSpace c = false := by
    intro c hc
    rw [List.head?_reverse] at hc
    cases h : isSpace c with
    | false => rfl
    | true => exact absurd ((blank_iff c).1 h) (hu.2 c hc)
  unfold strip
  rw [List.append_assoc, dropWhile_blank p _ (all_of_blank hp)]
  cases u with
  | nil =>
    have : (([] : Word) ++ s).dropWhile isSpace = [] := by
      have := dropWhile_blank s [] (all_of_blank hs)
      rw [List.append_nil] at this
      exact this
    rw [this]
    rfl
  | cons c u =>
    have h1 : ((c :: u) ++ s).dropWhile isSpace = (c :: u) ++ s := by
      rw [dropWhile_bare]
      intro d hd
      exact hb d (by simpa using hd)
    rw [h1, List.reverse_append, dropWhile_blank s.reverse _
      (fun d hd => all_of_blank hs d (List.mem_reverse.1 hd)), dropWhile_bare hl, List.reverse_reverse]

theorem strip_lower_iff (a b : Word) : (strip a).map lower = (strip b).map lower ↔ SameWord a b := by
  constructor
  · intro h
    obtain ⟨p, s, h1, h2, h3, h4⟩ := strip_split a
    obtain ⟨q, t, g1, g2, g3, g4⟩ := strip_split b
    exact ⟨p, _, s, q, _, t, h1, g1, h2, h3, g2, g3, h4, g4, (lower_map_iff _ _).1 h⟩
  · rintro ⟨p, u, s, q, v, t, rfl, rfl, h1, h2, h3, h4, h5, h6, h7⟩
    rw [strip_bare h1 h2 h5, strip_bare h3 h4 h6]
    exact (lower_map_iff _ _).2 h7

theorem key_iff {F : Type} (c : RegCall F) (t f : Word) : key c.target c.format = key t f ↔ For c t f := by
  unfold key For
  rw [Prod.mk.injEq, strip_lower_iff, strip_lower_iff]

theorem registers_append {F : Type} (r : Registry F) (cs : List (RegCall F)) (c : RegCall F) :
    registers r (cs ++ [c]) =
      (register (registers r cs) c.target c.format c.factory c.replace).getD (registers r cs) := by
  simp [registers, List.foldl_append]

theorem inForce_of_other {F : Type} {cs : List (RegCall F)} {c : RegCall F} {t f : Word} (hc : ¬ For c t f) (x : F) :
    InForce (cs ++ [c]) t f x ↔ InForce cs t f x := by
  constructor
  · rintro ⟨before, d, after, h1, h2, h3, h4, h5⟩
    rcases List.eq_nil_or_concat after with rfl | ⟨after, e, rfl⟩
    · have := List.append_inj' h1 (by simp)
      simp only [List.cons.injEq, and_true] at this
      exact absurd (this.2 ▸ h2) hc
    · rw [List.concat_eq_append, ← List.cons_append, ← List.append_assoc] at h1
      have := List.append_inj' h1 (by simp)
      refine ⟨before, d, after, this.1, h2, h3, h4, fun e' he => h5 e' ?_⟩
      rw [List.concat_eq_append]
      exact List.mem_append_left _ he
  · rintro ⟨before, d, after, h1, h2, h3, h4, h5⟩
    refine ⟨before, d, after ++ [c], by rw [h1]; simp, h2, h3, h4, ?_⟩
    intro e he hf
    rcases List.mem_append.1 he with he | he
    · exact h5 e he hf
    · rw [List.mem_singleton.1 he] at hf
      exact absurd hf hc

theorem inForce_replace {F : Type} {cs : List (RegCall F)} {c : RegCall F} {t f : Word} (hc : For c t f)
    (hr : c.replace = true) (x : F) : InForce (cs ++ [c]) t f x ↔ c.factory = x := by
  constructor
  · rintro ⟨before, d, after, h1, h2, h3, h4, h5⟩
    rcases List.eq_nil_or_concat after with rfl | ⟨after, e, rfl⟩
    · have := List.append_inj' h1 (by simp)
      simp only [List.cons.injEq, and_true] at this
      rw [this.2]
      exact h3
    · rw [List.concat_eq_append, ← List.cons_append, ← List.append_assoc] at h1
      have := List.append_inj' h1 (by simp)
      simp only [List.cons.injEq, and_true] at this
      have := h5 c (by rw [this.2]; simp) hc
      rw [hr] at this
      cases this
  · intro h
    exact ⟨cs, c, [], rfl, hc, h, Or.inl hr, by simp⟩

theorem inForce_kept {F : Type} {cs : List (RegCall F)} {c : RegCall F} {t f : Word} (hr : c.replace = false) {d : RegCall F} (hd : d ∈ cs) (hdf : For d t f) (x : F) :
    InForce (cs ++ [c]) t f x ↔ InForce cs t f x := by
  constructor
  · rintro ⟨before, e, after, h1, h2, h3, h4, h5⟩
    rcases List.eq_nil_or_concat after with rfl | ⟨after, e', rfl⟩
    · have := List.append_inj' h1 (by simp)
      simp only [List.cons.injEq, and_true] at this
      rcases h4 with h4 | h4
      · rw [← this.2, hr] at h4
        cases h4
      · exact absurd hdf (h4 d (this.1 ▸ hd))
    · rw [List.concat_eq_append, ← List.cons_append, ← List.append_assoc] at h1
      have := List.append_inj' h1 (by simp)
      refine ⟨before, e, after, this.1, h2, h3, h4, fun e' he => h5 e' ?_⟩
      rw [List.concat_eq_append]
      exact List.mem_append_left _ he
  · rintro ⟨before, e, after, h1, h2, h3, h4, h5⟩
    refine ⟨before, e, after ++ [c], by rw [h1]; simp, h2, h3, h4, ?_⟩
    intro e' he hf
    rcases List.mem_append.1 he with he | he
    · exact h5 e' he hf
    · rw [List.mem_singleton.1 he]
      exact hr

theorem inForce_first {F : Type} {cs : List (RegCall F)} {c : RegCall F} {t f : Word} (hc : For c t f)
    (hn : ∀ d ∈ cs, ¬ For d t f) (x : F) : InForce (cs ++ [c]) t f x ↔ c.factory = x := by
  constructor
  · rintro ⟨before, d, after, h1, h2, h3, _, _⟩
    rcases List.eq_nil_or_concat after with rfl | ⟨after, e, rfl⟩
    · have := List.append_inj' h1 (by simp)
      simp only [List.cons.injEq, and_true] at this
      rw [this.2]
      exact h3
    · rw [List.concat_eq_append, ← List.cons_append, ← List.append_assoc] at h1
      have := List.append_inj' h1 (by simp)
      exact absurd h2 (hn d (by rw [this.1]; simp))
  · intro h
    exact ⟨cs, c, [], rfl, hc, h, Or.inr hn, by simp⟩

theorem has_registered {F : Type} (cs : List (RegCall F)) (t f : Word) :
    (get (registers [] cs) t f).isSome ↔ ∃ c ∈ cs, For c t f := by
  induction cs using List.reverseRecOn with
  | nil => simp [registers, get, Dict.get]
  | append_singleton cs c ih =>
    rw [registers_append]
    have e : (∃ d ∈ cs ++ [c], For d t f) ↔ (∃ d ∈ cs, For d t f) ∨ For c t f := by
      constructor
      · rintro ⟨d, hd, hf⟩
        rcases List.mem_append.1 hd with hd | hd
        · exact Or.inl ⟨d, hd, hf⟩
        · rw [List.mem_singleton.1 hd] at hf
          exact Or.inr hf
      · rintro (⟨d, hd, hf⟩ | hf)
        · exact ⟨d, by simp [hd], hf⟩
        · exact ⟨c, by simp, hf⟩
    rw [e, ← ih]
    unfold register
    by_cases hx : (!c.replace && (Dict.get (registers [] cs) (key c.target c.format)).isSome) = true
    · rw [if_pos hx]
      simp only [Option.getD_none]
      constructor
      · exact Or.inl
      · rintro (h | h)
        · exact h
        · rw [Bool.and_eq_true] at hx
          have := (key_iff c t f).2 h
          unfold get
          rw [← this]
          exact hx.2
    · rw [if_neg hx]
      simp only [Option.getD_some]
      unfold get
      rw [Dict.get_set]
      by_cases hk : key c.target c.format = key t f
      · rw [if_pos hk]
        simp [(key_iff c t f).1 hk]
      · rw [if_neg hk]
        have : ¬ For c t f := fun h => hk ((key_iff c t f).2 h)
        simp [this]

/-- Every stage of a run of the pipeline, while none fuses. -/
theorem calls_lib {R A B : Type} (fuse : A → Except Fault A)
    (lib : String → Context → List R → A → B → Except Fault (R × B)) (ctx : Context) (p : Pipe String) (input : R)
    (results : Nat → Option R) : ∀ (order : List Nat) (w w' : World A B),
    (∀ s ∈ order, p.name s ≠ "fuse_qdq_weights") →
    Calls p (fun s args w => stageFn fuse lib ctx (p.name s) args w) input results order w w' →
    w'.weights = w.weights ∧ w'.dirs = w.dirs ∧ ∀ s ∈ order, ∃ args r,
      (p.deps s = [] → args = [input]) ∧ (p.deps s ≠ [] → args.map some = (p.deps s).map results) ∧
      results s = some r ∧
      (p.name s = "source_ff_module" → args = [r]) ∧
      (p.name s ≠ "source_ff_module" → ∃ b b', lib (p.name s) ctx args w.weights b = .ok (r, b')) ∧
      (p.name s = "extract_quantized_weights" → ctx.missing "arch_adapter" = false)
  | [], w, w', _, h => by
    cases h
    exact ⟨rfl, rfl, by simp⟩
  | s :: ss, w, w', hn, h => by
    cases h with
    | step _ _ args r _ w1 _ h1 h2 h3 h4 h5 =>
      have hs := hn s List.mem_cons_self
      have key : w1.weights = w.weights ∧ w1.dirs = w.dirs ∧ (p.name s = "source_ff_module" → args = [r]) ∧
          (p.name s ≠ "source_ff_module" → ∃ b b', lib (p.name s) ctx args w.weights b = .ok (r, b')) ∧
          (p.name s = "extract_quantized_weights" → ctx.missing "arch_adapter" = false) := by
        unfold stageFn at h3
        rw [if_neg hs] at h3
        by_cases hp : p.name s = "source_ff_module"
        · rw [if_pos hp] at h3
          split at h3
          · cases h3
            exact ⟨rfl, rfl, fun _ => rfl, fun h => absurd hp h, fun h => by rw [hp] at h; exact absurd h (by decide)⟩
          · cases h3
        · rw [if_neg hp] at h3
          split at h3
          · cases h3
          · rename_i he
            cases hl : lib (p.name s) ctx args w.weights w.rest with
            | error e => rw [hl] at h3; cases h3
            | ok rb =>
              rw [hl] at h3
              cases h3
              refine ⟨rfl, rfl, fun h => absurd h hp, fun _ => ⟨w.rest, rb.2, by rw [hl]⟩, ?_⟩
              intro hx
              cases hm : ctx.missing "arch_adapter" with
              | false => rfl
              | true => exact absurd ⟨hx, Or.inl hm⟩ he
      obtain ⟨k1, k2, k3, k4, k5⟩ := key
      obtain ⟨i1, i2, i3⟩ := calls_lib fuse lib ctx p input results ss w1 w'
        (fun x hx => hn x (List.mem_cons_of_mem _ hx)) h5
      refine ⟨i1.trans k1, i2.trans k2, ?_⟩
      intro x hx
      rcases List.mem_cons.1 hx with rfl | hx
      · exact ⟨args, r, h1, h2, h4, k3, k4, k5⟩
      · rw [k1] at i3
        exact i3 x hx

/-- The calls of a successful run, in the order built. -/
theorem run_order {R W E : Type} {p : Pipe String} {call : Nat → List R → W → Except E (R × W)} {input : R}
    {w w' : W} {out : List (String × Option R)} (order : List Nat) (hb : build p none = .ok order)
    (h : run p call input w = .ok (out, w')) :
    ∃ results, Calls p call input results order w w' ∧ out = p.captured.map (fun s => (p.name s, results s)) := by
  unfold run at h
  rw [hb] at h
  dsimp only at h
  obtain ⟨i1, _⟩ := execute_spec p call input order [] (fun _ => none) w (build_topo hb) (by simp)
  cases hx : execute p.deps call input order (fun _ => none) w with
  | error e =>
    rw [hx] at h
    cases h
  | ok rw' =>
    rw [hx] at h
    cases h
    exact ⟨rw'.1, (i1 rw'.1 rw'.2 hx).1, rfl⟩

/-- A pipeline that begins with fusing. -/
theorem fused_run {R A B : Type} (fuse : A → Except Fault A)
    (lib : String → Context → List R → A → B → Except Fault (R × B)) (ctx : Context) (p : Pipe String) (input : R)
    (results : Nat → Option R) (rest : List Nat) (w w' : World A B) (h0 : p.name 0 = "fuse_qdq_weights")
    (hd : p.deps 0 = []) (hn : ∀ s ∈ rest, p.name s ≠ "fuse_qdq_weights")
    (h : Calls p (fun s args w => stageFn fuse lib ctx (p.name s) args w) input results (0 :: rest) w w') :
    FusedIf fuse (ctx.truthy "store_weights_as_qdq") w.weights w'.weights ∧ w'.dirs = w.dirs ∧
    results 0 = some input ∧ ∀ s ∈ rest, ∃ args r,
      (p.deps s = [] → args = [input]) ∧ (p.deps s ≠ [] → args.map some = (p.deps s).map results) ∧
      results s = some r ∧
      (p.name s = "source_ff_module" → args = [r]) ∧
      (p.name s ≠ "source_ff_module" → ∃ b b', lib (p.name s) ctx args w'.weights b = .ok (r, b')) := by
  cases h with
  | step _ _ args r _ w1 _ h1 h2 h3 h4 h5 =>
    have ha := h1 hd
    subst ha
    obtain ⟨i1, i2, i3⟩ := calls_lib fuse lib ctx p input results rest w1 w' hn h5
    have key : FusedIf fuse (ctx.truthy "store_weights_as_qdq") w.weights w1.weights ∧ w1.dirs = w.dirs ∧
        r = input := by
      unfold stageFn at h3
      rw [if_pos h0] at h3
      dsimp only at h3
      unfold FusedIf
      by_cases hf : ctx.truthy "store_weights_as_qdq" = true
      · simp only [hf, Bool.not_true, Bool.false_eq_true, if_false] at h3
        rw [if_pos hf]
        cases hx : fuse w.weights with
        | error e => rw [hx] at h3; cases h3
        | ok a =>
          rw [hx] at h3
          cases h3
          exact ⟨rfl, rfl, rfl⟩
      · have hf' : ctx.truthy "store_weights_as_qdq" = false := by simpa using hf
        simp only [hf', Bool.not_false, if_true] at h3
        rw [if_neg hf]
        cases h3
        exact ⟨rfl, rfl, rfl⟩
    obtain ⟨k1, k2, k3⟩ := key
    rw [i1]
    refine ⟨k1, i2.trans k2, by rw [h4, k3], ?_⟩
    intro s hs
    obtain ⟨args, r, j1, j2, j3, j4, j5, _⟩ := i3 s hs
    exact ⟨args, r, j1, j2, j3, j4, j5⟩

/-- Results by the name of the stage. -/
def byName {R : Type} (p : Pipe String) (results : Nat → Option R) (n : String) : Option R :=
  (p.stages.find? (fun s => p.name s = n)).bind results

theorem context_get (req : Request) (k : String) :
    Dict.get (contextOf req) k =
      match Dict.get req.options.reverse k with
      | some v => some v
      | none => if k = "output_dir" then some (.path req.outputDir)
        else if k = "model_name" then some (.str req.modelName) else none := by
  unfold contextOf
  generalize req.options = l
  induction l using List.reverseRecOn with
  | nil =>
    simp only [List.foldl_nil, List.reverse_nil, Dict.get]
    by_cases h1 : k = "output_dir"
    · subst h1; simp
    · by_cases h2 : k = "model_name"
      · subst h2; simp
      · simp [h1, h2, Ne.symm h1, Ne.symm h2]
  | append_singleton l e ih =>
    rw [List.foldl_append, List.foldl_cons, List.foldl_nil, Dict.get_set, List.reverse_append, List.reverse_singleton,
      List.singleton_append, ih]
    obtain ⟨k', v⟩ := e
    simp only [Dict.get]
    by_cases h : k' = k
    · simp [h]
    · simp [h]

/-! ## Properties -/

/-- **C108.**  After any history of registrations, `get` finds for a target and format, whatever their capitals and
surrounding whitespace, exactly the factory in force: that of the last call for them that replaces, else that of the
first. -/
theorem registry_finds {F : Type} (calls : List (RegCall F)) (target format : Word) (f : F) :
    get (registers [] calls) target format = some f ↔ InForce calls target format f := by
  induction calls using List.reverseRecOn with
  | nil =>
    constructor
    · intro h
      simp [registers, get, Dict.get] at h
    · rintro ⟨b, c, a, h, _⟩
      simp at h
  | append_singleton cs c ih =>
    rw [registers_append]
    unfold register
    by_cases hc : For c target format
    · have hk := (key_iff c target format).2 hc
      by_cases hx : (!c.replace && (Dict.get (registers [] cs) (key c.target c.format)).isSome) = true
      · rw [if_pos hx, Option.getD_none]
        rw [Bool.and_eq_true, hk] at hx
        obtain ⟨d, hd, hdf⟩ := (has_registered cs target format).1 hx.2
        rw [inForce_kept (by simpa using hx.1) hd hdf, ih]
      · rw [if_neg hx, Option.getD_some]
        unfold get
        rw [Dict.get_set, if_pos hk, Option.some.injEq]
        cases hr : c.replace with
        | true => exact (inForce_replace hc hr f).symm
        | false =>
          rw [hr, hk] at hx
          refine (inForce_first hc ?_ f).symm
          intro d hd hdf
          exact hx (by rw [show (Dict.get (registers [] cs) (key target format)).isSome = true from
            (has_registered cs target format).2 ⟨d, hd, hdf⟩]; rfl)
    · have hk : key c.target c.format ≠ key target format := fun h => hc ((key_iff c target format).1 h)
      rw [inForce_of_other hc, ← ih]
      by_cases hx : (!c.replace && (Dict.get (registers [] cs) (key c.target c.format)).isSome) = true
      · rw [if_pos hx, Option.getD_none]
      · rw [if_neg hx, Option.getD_some]
        unfold get
        rw [Dict.get_set, if_neg hk]

/-- **C108.**  A registration is refused exactly if it does not replace and there was one for the same target and format;
`has` says whether there was one. -/
theorem registration_refused_iff {F : Type} (calls : List (RegCall F)) (c : RegCall F) :
    (register (registers [] calls) c.target c.format c.factory c.replace = none ↔
      c.replace = false ∧ ∃ d ∈ calls, For d c.target c.format) ∧
    ∀ t f, has (registers [] calls) t f = true ↔ ∃ d ∈ calls, For d t f := by
  refine ⟨?_, fun t f => has_registered calls t f⟩
  have h := has_registered calls c.target c.format
  unfold get at h
  rw [← h]
  unfold register
  cases c.replace <;> cases (Dict.get (registers [] calls) (key c.target c.format)) <;> simp

/-- **C108.**  The context of the stages has the value given last in the options for a name; without one, the output
directory and the model name are those of the request. -/
theorem stages_get_options (req : Request) (k : String) (v : Val) :
    Dict.get (contextOf req) k = some v ↔
      (∃ before after, req.options = before ++ (k, v) :: after ∧ ∀ e ∈ after, e.1 ≠ k) ∨
      ((∀ e ∈ req.options, e.1 ≠ k) ∧
        ((k = "output_dir" ∧ v = .path req.outputDir) ∨ (k = "model_name" ∧ v = .str req.modelName))) := by
  rw [context_get]
  generalize req.options = l
  induction l using List.reverseRecOn with
  | nil =>
    simp only [List.reverse_nil, Dict.get]
    constructor
    · intro h
      refine Or.inr ⟨by simp, ?_⟩
      by_cases h1 : k = "output_dir"
      · rw [if_pos h1] at h
        exact Or.inl ⟨h1, (Option.some.inj h).symm⟩
      · rw [if_neg h1] at h
        by_cases h2 : k = "model_name"
        · rw [if_pos h2] at h
          exact Or.inr ⟨h2, (Option.some.inj h).symm⟩
        · rw [if_neg h2] at h
          cases h
    · rintro (⟨b, a, h, _⟩ | ⟨_, ⟨rfl, rfl⟩ | ⟨rfl, rfl⟩⟩)
      · simp at h
      · rfl
      · rfl
  | append_singleton l e ih =>
    obtain ⟨k', v'⟩ := e
    rw [List.reverse_append, List.reverse_singleton, List.singleton_append]
    simp only [Dict.get]
    by_cases h : k' = k
    · subst h
      simp only [if_true]
      constructor
      · intro h
        rw [← Option.some.inj h]
        exact Or.inl ⟨l, [], rfl, by simp⟩
      · rintro (⟨b, a, h1, h2⟩ | ⟨h1, _⟩)
        · rcases List.eq_nil_or_concat a with rfl | ⟨a, e, rfl⟩
          · have := List.append_inj' h1 (by simp)
            simp only [List.cons.injEq, Prod.mk.injEq, true_and, and_true] at this
            rw [this.2]
          · rw [List.concat_eq_append, ← List.cons_append, ← List.append_assoc] at h1
            have := List.append_inj' h1 (by simp)
            simp only [List.cons.injEq, and_true] at this
            exact absurd (by rw [← this.2]) (h2 e (by simp))
        · exact absurd rfl (h1 (k', v') (by simp))
    · simp only [h, if_false]
      rw [ih]
      constructor
      · rintro (⟨b, a, h1, h2⟩ | ⟨h1, h2⟩)
        · refine Or.inl ⟨b, a ++ [(k', v')], by rw [h1]; simp, ?_⟩
          intro e he
          rcases List.mem_append.1 he with he | he
          · exact h2 e he
          · rw [List.mem_singleton.1 he]
            exact h
        · refine Or.inr ⟨?_, h2⟩
          intro e he
          rcases List.mem_append.1 he with he | he
          · exact h1 e he
          · rw [List.mem_singleton.1 he]
            exact h
      · rintro (⟨b, a, h1, h2⟩ | ⟨h1, h2⟩)
        · rcases List.eq_nil_or_concat a with rfl | ⟨a, e, rfl⟩
          · have := List.append_inj' h1 (by simp)
            simp only [List.cons.injEq, Prod.mk.injEq, and_true] at this
            exact absurd this.2.1 h
          · rw [List.concat_eq_append, ← List.cons_append, ← List.append_assoc] at h1
            have := List.append_inj' h1 (by simp)
            exact Or.inl ⟨b, a, this.1, fun e' he => h2 e' (by simp [he])⟩
        · exact Or.inr ⟨fun e he => h1 e (by simp [he]), h2⟩

/-- **C108.**  The default registry has pipelines for `qnn`/`onnx`, `qnn`/`onnx_qdq` and `gguf`/`llama_cpp` only. -/
theorem default_targets (target format : Word) : has defaultRegistry target format = true ↔
    (SameWord (word "qnn") target ∧ SameWord (word "onnx") format) ∨
    (SameWord (word "qnn") target ∧ SameWord (word "onnx_qdq") format) ∨
    (SameWord (word "gguf") target ∧ SameWord (word "llama_cpp") format) := by
  unfold defaultRegistry
  rw [(registration_refused_iff _ ⟨[], [], qnnOnnx, false⟩).2 target format]
  simp [For]

theorem default_get {target format : Word} {t f : Word} {p : Factory} (ht : SameWord t target) (hf : SameWord f format)
    (h : get defaultRegistry t f = some p) : get defaultRegistry target format = some p := by
  rw [← h]
  unfold get key
  rw [(strip_lower_iff t target).2 ht, (strip_lower_iff f format).2 hf]

section
variable {R A B : Type}

/-- A successful export has run the pipeline found, for the context of the request, after making the directory. -/
theorem orchestrate_ok {fuse : A → Except Fault A} {lib : String → Context → List R → A → B → Except Fault (R × B)}
    {reg : Registry Factory} {req : Request} {input : R} {w w' : World A B} {out : List (String × Option R)}
    {p : Factory} (hp : resolve reg req = some p)
    (h : orchestrate fuse lib reg req input w = (.ok out, w')) :
    run (p (contextOf req)).1 (fun s args w => stageFn fuse lib (p (contextOf req)).2 ((p (contextOf req)).1.name s) args w)
      input (mkdir w req.outputDir) = .ok (out, w') := by
  unfold orchestrate at h
  rw [hp] at h
  dsimp only at h
  split at h
  · cases h
  · cases h
  · rename_i hr
    cases h
    exact hr

theorem mkdir_mem (w : World A B) (d : Word) : d ∈ (mkdir w d).dirs := by
  unfold mkdir
  by_cases h : d ∈ w.dirs
  · rw [if_pos h]; exact h
  · rw [if_neg h]; simp

theorem mkdir_weights (w : World A B) (d : Word) : (mkdir w d).weights = w.weights := by
  unfold mkdir
  by_cases h : d ∈ w.dirs
  · rw [if_pos h]
  · rw [if_neg h]

/-- A stage of a run, by name. -/
theorem stageRun_of {lib : String → Context → List R → A → B → Except Fault (R × B)} {ctx : Context} {a : A} {input : R}
    {results : Nat → Option R} {p : Pipe String} {s : Nat} {name : String} {deps : List String}
    (hn : p.name s = name) (hs : byName p results name = results s) (hm : name ≠ "source_ff_module")
    (hd : deps.map (byName p results) = (p.deps s).map results) (he : deps = [] ↔ p.deps s = [])
    (h : ∃ args r, (p.deps s = [] → args = [input]) ∧ (p.deps s ≠ [] → args.map some = (p.deps s).map results) ∧
      results s = some r ∧ (p.name s = "source_ff_module" → args = [r]) ∧
      (p.name s ≠ "source_ff_module" → ∃ b b', lib (p.name s) ctx args a b = .ok (r, b'))) :
    StageRun lib ctx a input (byName p results) name deps := by
  obtain ⟨args, r, h1, h2, h3, _, h5⟩ := h
  obtain ⟨b, b', h6⟩ := h5 (by rw [hn]; exact hm)
  refine ⟨args, b, r, b', ?_, by rw [← hn]; exact h6, by rw [hs]; exact h3⟩
  by_cases hx : deps = []
  · rw [if_pos hx]
    exact h1 (he.1 hx)
  · rw [if_neg hx, hd]
    exact h2 (fun h => hx (he.2 h))

/-- **C108.**  An export for `qnn`/`onnx` that succeeds has made the output directory and has run the stages as the
diagram says, each with the results of the stages it depends on, with the context of the request, and on one and the same
weights: the fused ones if asked for, else those of the model.  In particular the reference inputs and outputs are those of
the model captured. -/
theorem onnx_export_follows_diagram (fuse : A → Except Fault A)
    (lib : String → Context → List R → A → B → Except Fault (R × B)) (req : Request) (input : R) (w w' : World A B)
    (out : List (String × Option R)) (hf : req.factory = none) (ht : SameWord (word "qnn") req.target)
    (hm : SameWord (word "onnx") req.format) (h : orchestrate fuse lib defaultRegistry req input w = (.ok out, w')) :
    ∃ results : String → Option R,
      FusedIf fuse ((contextOf req).truthy "store_weights_as_qdq") w.weights w'.weights ∧ req.outputDir ∈ w'.dirs ∧
      results "fuse_qdq_weights" = some input ∧ results "source_ff_module" = some input ∧
      (∀ e ∈ onnxFlow, StageRun lib (contextOf req) w'.weights input results e.1 e.2) ∧
      out = [("capture_model_io", results "capture_model_io"),
        ("onnx_proto_to_encodings", results "onnx_proto_to_encodings")] := by
  have hp : resolve defaultRegistry req = some qnnOnnx := by
    unfold resolve
    rw [hf]
    exact default_get ht hm rfl
  have hr := orchestrate_ok hp h
  have hb : build onnxPipe none = .ok [0, 1, 2, 3, 4, 5, 6, 7, 8, 9, 10, 11, 12, 13, 14] := by decide +kernel
  obtain ⟨results, hc, ho⟩ := run_order (p := onnxPipe) _ hb hr
  obtain ⟨f1, f2, f3, f4⟩ := fused_run fuse lib (contextOf req) onnxPipe input results
    [1, 2, 3, 4, 5, 6, 7, 8, 9, 10, 11, 12, 13, 14] (mkdir w req.outputDir) w' (by decide +kernel) (by decide +kernel)
    (by decide +kernel) hc
  rw [mkdir_weights] at f1
  refine ⟨byName onnxPipe results, f1, by rw [f2]; exact mkdir_mem _ _, f3, ?_, ?_, ho⟩
  · obtain ⟨args, r, _, h2, h3, h4, _⟩ := f4 1 (by simp)
    have h5 := h4 rfl
    have h6 : args.map some = [results 0] := h2 (by decide)
    rw [h5, f3] at h6
    have : r = input := by simpa using h6
    rw [← this]
    exact h3
  · intro e he
    simp only [onnxFlow, List.mem_cons, List.not_mem_nil, or_false] at he
    rcases he with rfl | rfl | rfl | rfl | rfl | rfl | rfl | rfl | rfl | rfl | rfl | rfl | rfl
    · exact stageRun_of (s := 2) rfl rfl (by decide) rfl (by decide) (f4 2 (by simp))
    · exact stageRun_of (s := 3) rfl rfl (by decide) rfl (by decide) (f4 3 (by simp))
    · exact stageRun_of (s := 4) rfl rfl (by decide) rfl (by decide) (f4 4 (by simp))
    · exact stageRun_of (s := 5) rfl rfl (by decide) rfl (by decide) (f4 5 (by simp))
    · exact stageRun_of (s := 6) rfl rfl (by decide) rfl (by decide) (f4 6 (by simp))
    · exact stageRun_of (s := 7) rfl rfl (by decide) rfl (by decide) (f4 7 (by simp))
    · exact stageRun_of (s := 8) rfl rfl (by decide) rfl (by decide) (f4 8 (by simp))
    · exact stageRun_of (s := 9) rfl rfl (by decide) rfl (by decide) (f4 9 (by simp))
    · exact stageRun_of (s := 10) rfl rfl (by decide) rfl (by decide) (f4 10 (by simp))
    · exact stageRun_of (s := 11) rfl rfl (by decide) rfl (by decide) (f4 11 (by simp))
    · exact stageRun_of (s := 12) rfl rfl (by decide) rfl (by decide) (f4 12 (by simp))
    · exact stageRun_of (s := 13) rfl rfl (by decide) rfl (by decide) (f4 13 (by simp))
    · exact stageRun_of (s := 14) rfl rfl (by decide) rfl (by decide) (f4 14 (by simp))

/-- **C108.**  The same for `qnn`/`onnx_qdq`. -/
theorem qdq_export_follows_diagram (fuse : A → Except Fault A)
    (lib : String → Context → List R → A → B → Except Fault (R × B)) (req : Request) (input : R) (w w' : World A B)
    (out : List (String × Option R)) (hf : req.factory = none) (ht : SameWord (word "qnn") req.target)
    (hm : SameWord (word "onnx_qdq") req.format)
    (h : orchestrate fuse lib defaultRegistry req input w = (.ok out, w')) :
    ∃ results : String → Option R,
      FusedIf fuse ((contextOf req).truthy "store_weights_as_qdq") w.weights w'.weights ∧ req.outputDir ∈ w'.dirs ∧
      results "fuse_qdq_weights" = some input ∧
      (∀ e ∈ qdqFlow, StageRun lib (contextOf req) w'.weights input results e.1 e.2) ∧
      out = [("capture_model_io", results "capture_model_io"), ("save_onnx_proto", results "save_onnx_proto")] := by
  have hp : resolve defaultRegistry req = some qnnOnnxQdq := by
    unfold resolve
    rw [hf]
    exact default_get ht hm rfl
  have hr := orchestrate_ok hp h
  have hb : build qdqPipe none = .ok [0, 1, 2, 3, 4, 5, 6] := by decide +kernel
  obtain ⟨results, hc, ho⟩ := run_order (p := qdqPipe) _ hb hr
  obtain ⟨f1, f2, f3, f4⟩ := fused_run fuse lib (contextOf req) qdqPipe input results
    [1, 2, 3, 4, 5, 6] (mkdir w req.outputDir) w' (by decide +kernel) (by decide +kernel) (by decide +kernel) hc
  rw [mkdir_weights] at f1
  refine ⟨byName qdqPipe results, f1, by rw [f2]; exact mkdir_mem _ _, f3, ?_, ho⟩
  intro e he
  simp only [qdqFlow, List.mem_cons, List.not_mem_nil, or_false] at he
  rcases he with rfl | rfl | rfl | rfl | rfl | rfl
  · exact stageRun_of (s := 1) rfl rfl (by decide) rfl (by decide) (f4 1 (by simp))
  · exact stageRun_of (s := 2) rfl rfl (by decide) rfl (by decide) (f4 2 (by simp))
  · exact stageRun_of (s := 3) rfl rfl (by decide) rfl (by decide) (f4 3 (by simp))
  · exact stageRun_of (s := 4) rfl rfl (by decide) rfl (by decide) (f4 4 (by simp))
  · exact stageRun_of (s := 5) rfl rfl (by decide) rfl (by decide) (f4 5 (by simp))
  · exact stageRun_of (s := 6) rfl rfl (by decide) rfl (by decide) (f4 6 (by simp))

/-- **C108.**  An export for `gguf`/`llama_cpp` that succeeds has made the output directory, has run the stages as the
diagram says on the weights of the model, and leaves the weights as they are; the options gave an adapter. -/
theorem gguf_export_follows_diagram (fuse : A → Except Fault A)
    (lib : String → Context → List R → A → B → Except Fault (R × B)) (req : Request) (input : R) (w w' : World A B)
    (out : List (String × Option R)) (hf : req.factory = none) (ht : SameWord (word "gguf") req.target)
    (hm : SameWord (word "llama_cpp") req.format)
    (h : orchestrate fuse lib defaultRegistry req input w = (.ok out, w')) :
    ∃ results : String → Option R, w'.weights = w.weights ∧ req.outputDir ∈ w'.dirs ∧
      (∀ e ∈ ggufFlow, StageRun lib (contextOf req) w.weights input results e.1 e.2) ∧
      out = [("write_gguf", results "write_gguf")] ∧
      ∃ v, Dict.get (contextOf req) "arch_adapter" = some v ∧ v ≠ .none := by
  have hp : resolve defaultRegistry req = some ggufLlamaCpp := by
    unfold resolve
    rw [hf]
    exact default_get ht hm rfl
  have hr := orchestrate_ok hp h
  have hb : build ggufPipe none = .ok [0, 1, 2, 3, 4] := by decide +kernel
  obtain ⟨results, hc, ho⟩ := run_order (p := ggufPipe) _ hb hr
  obtain ⟨f1, f2, f3⟩ := calls_lib fuse lib (contextOf req) ggufPipe input results [0, 1, 2, 3, 4]
    (mkdir w req.outputDir) w' (by decide +kernel) hc
  rw [mkdir_weights] at f1 f3
  have f4 : ∀ s ∈ [0, 1, 2, 3, 4], ∃ args r, (ggufPipe.deps s = [] → args = [input]) ∧
      (ggufPipe.deps s ≠ [] → args.map some = (ggufPipe.deps s).map results) ∧ results s = some r ∧
      (ggufPipe.name s = "source_ff_module" → args = [r]) ∧
      (ggufPipe.name s ≠ "source_ff_module" →
        ∃ b b', lib (ggufPipe.name s) (contextOf req) args w.weights b = .ok (r, b')) := by
    intro s hs
    obtain ⟨args, r, j1, j2, j3, j4, j5, _⟩ := f3 s hs
    exact ⟨args, r, j1, j2, j3, j4, j5⟩
  refine ⟨byName ggufPipe results, f1, by rw [f2]; exact mkdir_mem _ _, ?_, ho, ?_⟩
  · intro e he
    simp only [ggufFlow, List.mem_cons, List.not_mem_nil, or_false] at he
    rcases he with rfl | rfl | rfl | rfl | rfl
    · exact stageRun_of (s := 0) rfl rfl (by decide) rfl (by decide) (f4 0 (by simp))
    · exact stageRun_of (s := 1) rfl rfl (by decide) rfl (by decide) (f4 1 (by simp))
    · exact stageRun_of (s := 2) rfl rfl (by decide) rfl (by decide) (f4 2 (by simp))
    · exact stageRun_of (s := 3) rfl rfl (by decide) rfl (by decide) (f4 3 (by simp))
    · exact stageRun_of (s := 4) rfl rfl (by decide) rfl (by decide) (f4 4 (by simp))
  · obtain ⟨_, _, _, _, _, _, _, j6⟩ := f3 0 (by simp)
    have := j6 rfl
    unfold Context.missing at this
    cases hg : Dict.get (contextOf req) "arch_adapter" with
    | none => rw [hg] at this; cases this
    | some v =>
      rw [hg] at this
      exact ⟨v, rfl, by simpa using this⟩

/-- **C108.**  A successful export has run, after making the directory, the pipeline given with the request, or, if none
is given, the one in force for its target and format, with the context of the request. -/
theorem export_runs_pipeline (fuse : A → Except Fault A)
    (lib : String → Context → List R → A → B → Except Fault (R × B)) (calls : List (RegCall Factory)) (req : Request)
    (input : R) (w w' : World A B) (out : List (String × Option R))
    (h : orchestrate fuse lib (registers [] calls) req input w = (.ok out, w')) :
    ∃ p : Factory, (req.factory = some p ∨ (req.factory = none ∧ InForce calls req.target req.format p)) ∧
      ∃ w1, req.outputDir ∈ w1.dirs ∧ w1.weights = w.weights ∧
        run (p (contextOf req)).1 (fun s args w => stageFn fuse lib (p (contextOf req)).2 ((p (contextOf req)).1.name s) args w)
          input w1 = .ok (out, w') := by
  cases hf : req.factory with
  | some p =>
    have hr : resolve (registers [] calls) req = some p := by unfold resolve; rw [hf]
    exact ⟨p, Or.inl rfl, _, mkdir_mem _ _, mkdir_weights _ _, orchestrate_ok hr h⟩
  | none =>
    cases hg : get (registers [] calls) req.target req.format with
    | none =>
      unfold orchestrate resolve at h
      rw [hf] at h
      dsimp only at h
      rw [hg] at h
      cases h
    | some p =>
      have hr : resolve (registers [] calls) req = some p := by unfold resolve; rw [hf]; exact hg
      exact ⟨p, Or.inr ⟨rfl, (registry_finds calls req.target req.format p).1 hg⟩, _, mkdir_mem _ _, mkdir_weights _ _,
        orchestrate_ok hr h⟩

/-- **C108.**  If there is no pipeline for the target and format, the export fails and the model keeps its weights. -/
theorem unknown_target_fails (fuse : A → Except Fault A)
    (lib : String → Context → List R → A → B → Except Fault (R × B)) (calls : List (RegCall Factory)) (req : Request)
    (input : R) (w : World A B) (hf : req.factory = none) (hn : ∀ c ∈ calls, ¬ For c req.target req.format) :
    (orchestrate fuse lib (registers [] calls) req input w).1 = .error .keyError ∧
    (orchestrate fuse lib (registers [] calls) req input w).2.weights = w.weights := by
  have h : get (registers [] calls) req.target req.format = none := by
    cases hg : get (registers [] calls) req.target req.format with
    | none => rfl
    | some f =>
      obtain ⟨b, c, a, h1, h2, _⟩ := (registry_finds calls req.target req.format f).1 hg
      exact absurd h2 (hn c (by rw [h1]; simp))
  unfold orchestrate resolve
  rw [hf]
  dsimp only
  rw [h]
  exact ⟨rfl, mkdir_weights w req.outputDir⟩

/-- **C108.**  The arguments of `export` reach the stages: directory, name and options are in the context, and the
pipeline is the one given, or the one of the orchestrator or registry given, or the default one for the target and
format. -/
theorem export_arguments_reach_stages (a : ExportArgs) :
    Dict.get (contextOf (requestOf a)) "output_dir" = some (.path a.outputDir) ∧
    Dict.get (contextOf (requestOf a)) "model_name" = some (.str a.modelName) ∧
    Dict.get (contextOf (requestOf a)) "input_names" = some a.inputNames ∧
    Dict.get (contextOf (requestOf a)) "output_names" = some a.outputNames ∧
    Dict.get (contextOf (requestOf a)) "verbose" = some a.verbose ∧
    Dict.get (contextOf (requestOf a)) "alter_node_names" = some (.flag a.alterNodeNames) ∧
    (∀ v, a.schemaHandler = some v → Dict.get (contextOf (requestOf a)) "encoding_schema_handler" = some v) ∧
    (∀ v, a.onnxExportOptions = some v → Dict.get (contextOf (requestOf a)) "onnx_export_options" = some v) ∧
    (∀ v, a.onnxSaveKwargs = some v → Dict.get (contextOf (requestOf a)) "onnx_save_kwargs" = some v) ∧
    ∀ (fuse : A → Except Fault A) (lib : String → Context → List R → A → B → Except Fault (R × B)) (input : R)
      (w : World A B),
      (a.orchestrator = none → a.registry = none →
        export_ fuse lib a input w = orchestrate fuse lib defaultRegistry (requestOf a) input w) ∧
      (∀ r, a.orchestrator = none → a.registry = some r →
        export_ fuse lib a input w = orchestrate fuse lib r (requestOf a) input w) ∧
      (∀ r, a.orchestrator = some r → a.registry = none →
        export_ fuse lib a input w = orchestrate fuse lib r (requestOf a) input w) ∧
      (a.orchestrator ≠ none → a.registry ≠ none → export_ fuse lib a input w = (.error .valueError, w)) := by
  refine ⟨rfl, rfl, rfl, rfl, rfl, rfl, ?_, ?_, ?_, ?_⟩
  · intro v h
    show some (a.schemaHandler.getD a.handler) = _
    rw [h]; rfl
  · intro v h
    show some (a.onnxExportOptions.getD a.emptyOptions) = _
    rw [h]; rfl
  · intro v h
    show some (a.onnxSaveKwargs.getD a.emptyKwargs) = _
    rw [h]; rfl
  · intro fuse lib input w
    refine ⟨?_, ?_, ?_, ?_⟩
    · intro h1 h2
      simp [export_, h1, h2]
    · intro r h1 h2
      simp [export_, h1, h2]
    · intro r h1 h2
      simp [export_, h1, h2]
    · intro h1 h2
      have e1 := Option.isSome_iff_ne_none.2 h1
      have e2 := Option.isSome_iff_ne_none.2 h2
      simp [export_, e1, e2]

/-! ## Deviations -/

/-- **C108, deviation.**  An option `output_dir` (or `model_name`) takes the place of that of the request: the files go
to a directory other than the one requested, which is the one made. -/
theorem option_overrides_directory (fuse : A → Except Fault A)
    (lib : String → Context → List R → A → B → Except Fault (R × B)) (req : Request) (input : R) (w w' : World A B)
    (out : List (String × Option R)) (d : Word) (before : Context) (hd : d ≠ req.outputDir) (hw : d ∉ w.dirs)
    (hf : req.factory = none) (ht : SameWord (word "qnn") req.target) (hm : SameWord (word "onnx") req.format)
    (ho : req.options = before ++ [("output_dir", .path d)])
    (h : orchestrate fuse lib defaultRegistry req input w = (.ok out, w')) :
    Dict.get (contextOf req) "output_dir" = some (.path d) ∧ d ∉ w'.dirs := by
  refine ⟨(stages_get_options req _ _).2 (Or.inl ⟨before, [], ho, by simp⟩), ?_⟩
  have hp : resolve defaultRegistry req = some qnnOnnx := by
    unfold resolve
    rw [hf]
    exact default_get ht hm rfl
  have hr := orchestrate_ok hp h
  have hb : build onnxPipe none = .ok [0, 1, 2, 3, 4, 5, 6, 7, 8, 9, 10, 11, 12, 13, 14] := by decide +kernel
  obtain ⟨results, hc, _⟩ := run_order (p := onnxPipe) _ hb hr
  obtain ⟨_, f2, _, _⟩ := fused_run fuse lib (contextOf req) onnxPipe input results
    [1, 2, 3, 4, 5, 6, 7, 8, 9, 10, 11, 12, 13, 14] (mkdir w req.outputDir) w' (by decide +kernel) (by decide +kernel)
    (by decide +kernel) hc
  rw [f2]
  unfold mkdir
  by_cases hx : req.outputDir ∈ w.dirs
  · rw [if_pos hx]; exact hw
  · rw [if_neg hx]
    simp [hw, hd]

/-- **C108, deviation.**  An export refused for want of a pipeline leaves the output directory behind. -/
theorem refused_export_makes_directory (fuse : A → Except Fault A)
    (lib : String → Context → List R → A → B → Except Fault (R × B)) (calls : List (RegCall Factory)) (req : Request)
    (input : R) (w : World A B) (hf : req.factory = none) (hn : ∀ c ∈ calls, ¬ For c req.target req.format) :
    (orchestrate fuse lib (registers [] calls) req input w).1 = .error .keyError ∧
    req.outputDir ∈ (orchestrate fuse lib (registers [] calls) req input w).2.dirs := by
  have h : get (registers [] calls) req.target req.format = none := by
    cases hg : get (registers [] calls) req.target req.format with
    | none => rfl
    | some f =>
      obtain ⟨b, c, a, h1, h2, _⟩ := (registry_finds calls req.target req.format f).1 hg
      exact absurd h2 (hn c (by rw [h1]; simp))
  unfold orchestrate resolve
  rw [hf]
  dsimp only
  rw [h]
  exact ⟨rfl, mkdir_mem w req.outputDir⟩

/-- **C108, deviation.**  `export` takes a target and format, but for `gguf`/`llama_cpp` it never succeeds: it cannot be
given the options this pipeline requires. -/
theorem export_cannot_gguf (fuse : A → Except Fault A)
    (lib : String → Context → List R → A → B → Except Fault (R × B)) (a : ExportArgs) (input : R) (w w' : World A B)
    (out : List (String × Option R)) (hf : a.factory = none) (hr : a.registry = none) (ho : a.orchestrator = none)
    (ht : SameWord (word "gguf") a.target) (hm : SameWord (word "llama_cpp") a.format) :
    export_ fuse lib a input w ≠ (.ok out, w') := by
  intro h
  rw [((export_arguments_reach_stages a).2.2.2.2.2.2.2.2.2 fuse lib input w).1 ho hr] at h
  obtain ⟨_, _, _, _, _, v, hv, _⟩ := gguf_export_follows_diagram fuse lib (requestOf a) input w w' out hf ht hm h
  have : Dict.get (contextOf (requestOf a)) "arch_adapter" = none := rfl
  rw [this] at hv
  cases hv

/-- **C108, deviation.**  `export` always replaces the weights of the model by fused ones, and has no argument to keep
them; a request without options for the same pipeline keeps them. -/
theorem export_always_fuses (fuse : A → Except Fault A)
    (lib : String → Context → List R → A → B → Except Fault (R × B)) (input : R) (w w' : World A B)
    (out : List (String × Option R)) :
    (∀ a : ExportArgs, a.factory = none → a.registry = none → a.orchestrator = none → SameWord (word "qnn") a.target →
      SameWord (word "onnx") a.format → export_ fuse lib a input w = (.ok out, w') →
      fuse w.weights = .ok w'.weights) ∧
    ∀ req : Request, req.factory = none → SameWord (word "qnn") req.target → SameWord (word "onnx") req.format →
      req.options = [] → orchestrate fuse lib defaultRegistry req input w = (.ok out, w') → w'.weights = w.weights := by
  constructor
  · intro a hf hr ho ht hm h
    rw [((export_arguments_reach_stages a).2.2.2.2.2.2.2.2.2 fuse lib input w).1 ho hr] at h
    obtain ⟨_, h1, _⟩ := onnx_export_follows_diagram fuse lib (requestOf a) input w w' out hf ht hm h
    exact h1
  · intro req hf ht hm ho h
    obtain ⟨_, h1, _⟩ := onnx_export_follows_diagram fuse lib req input w w' out hf ht hm h
    have : (contextOf req).truthy "store_weights_as_qdq" = false := by
      unfold contextOf
      rw [ho]
      rfl
    rw [this] at h1
    exact h1

end

/-! ## Concrete cases -/

/-- A library of stages that number their calls. -/
def tick : String → Context → List Nat → Nat → Nat → Except Fault (Nat × Nat) :=
  fun _ _ args a b => .ok (100 * a + b + args.length, b + 1)

/-- Fusing that halves. -/
def halve (a : Nat) : Except Fault Nat := .ok (a / 2)

/-- An export of a model with weights 7 by `export`: the reference and the graph are of weights 3. -/
example : (export_ halve tick { outputDir := [1], modelName := [2] } 0 ⟨[], 7, 0⟩) =
    (.ok [("capture_model_io", some 301), ("onnx_proto_to_encodings", some 313)], ⟨[[1]], 3, 13⟩) := by
  rfl

/-- The same by a request without options, in capitals. -/
example : (orchestrate halve tick defaultRegistry
    { outputDir := [1], modelName := [2], target := word " QNN", format := word "Onnx\n", factory := none, options := [] }
    0 ⟨[], 7, 0⟩) =
    (.ok [("capture_model_io", some 701), ("onnx_proto_to_encodings", some 713)], ⟨[[1]], 7, 13⟩) := by
  rfl

/-- A request for GGUF with options. -/
example : (orchestrate halve tick defaultRegistry
    { outputDir := [1], modelName := [2], target := word "gguf", format := word "llama_cpp", factory := none,
      options := ggufContext (.obj 1) (some (.obj 2)) (.obj 3) .none } 0 ⟨[], 7, 0⟩) =
    (.ok [("write_gguf", some 705)], ⟨[[1]], 7, 5⟩) := by
  rfl

/-- `export` to GGUF fails. -/
example : (export_ halve tick { outputDir := [1], modelName := [2], target := word "gguf", format := word "llama_cpp" } 0
    ⟨[], 7, 0⟩) = (.error (.stage .exportError), ⟨[[1]], 7, 0⟩) := by
  rfl

/-- An option for another directory. -/
example : (orchestrate halve tick defaultRegistry
    { outputDir := [1], modelName := [2], target := word "qnn", format := word "onnx", factory := none,
      options := [("output_dir", .path [5])] } 0 ⟨[], 7, 0⟩) =
    (.ok [("capture_model_io", some 701), ("onnx_proto_to_encodings", some 713)], ⟨[[1]], 7, 13⟩) := by
  rfl

/-- The words of the examples are the same. -/
example : SameWord (word "qnn") (word " QNN") ∧ ¬ SameWord (word "qnn") (word "q nn") := by
  rw [← strip_lower_iff, ← strip_lower_iff]
  decide +kernel

/-- Registrations: the second is refused, the third replaces. -/
example : registers [] [⟨word "a", word "b", 1, false⟩, ⟨word "A ", word "b", 2, false⟩, ⟨word "A", word "B", 3, true⟩] =
    [((word "a", word "b"), 3)] ∧
    registers [] [⟨word "a", word "b", 1, false⟩, ⟨word "A ", word "b", 2, false⟩] = [((word "a", word "b"), 1)] := by
  decide +kernel

end FF.ExportRequest
