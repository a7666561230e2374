/-!
# The files of exports

Models which files an export writes: `_resolve_output_path_from_context` and `stage_save_onnx_proto` (`src/fastforward/export/stages/onnx/onnx_export_stages.py:46-53, 500-529`),
`stage_onnx_proto_to_encodings` (615-617), `stage_capture_model_io` (`stages/base_pipeline_stages.py:256-271`) and the file of GGUF exports
(`stages/gguf/gguf_export_stages.py:178-182`).

Simplifications: names have no slashes, directories are opaque; writing a file replaces its content, which is taken to be that of the export (a file that `onnx.save` extends
instead is replaced here); `onnx.save` with one file per tensor names the files after the tensors; `onnx_save_kwargs` is empty.
-/

namespace FF.Files

/-! ## Model -/

abbrev Name := List Char

/-- What is before and after the last dot. -/
def splitLast : Name → Option (Name × Name)
  | [] => none
  | c :: n => match splitLast n with
    | some (a, b) => some (c :: a, b)
    | none => if c = '.' then some ([], n) else none

/-- `PurePath.stem`: the name up to its last dot, unless that is the first or the last character. -/
def stem (n : Name) : Name := match splitLast n with
  | some (a, b) => if a = [] ∨ b = [] then n else a
  | none => n

/-- `f"{model_name}.{suffix}"` (onnx_export_stages.py:53). -/
def withSuffix (n suffix : Name) : Name := n ++ '.' :: suffix

def onnx : Name := ['o', 'n', 'n', 'x']
def encodings : Name := ['e', 'n', 'c', 'o', 'd', 'i', 'n', 'g', 's']
def gguf : Name := ['g', 'g', 'u', 'f']
def pickle : Name := ['_', 'i', 'n', 'p', 'u', 't', '_', 'o', 'u', 't', 'p', 'u', 't', '.', 'p', 'i', 'c', 'k', 'l', 'e']

/-- The options of `context` that concern files (onnx_export_stages.py:517-521). -/
structure Options where
  external : Bool := true
  oneFile : Bool := true
  location : Option Name := none
  captureIo : Bool := false

inductive Format where
  | qnn (o : Options)
  | gguf

/-- The files with weights beside the model (onnx_export_stages.py:517-527, `onnx.save`). -/
def external (o : Options) (n : Name) (tensors : List Name) : List Name :=
  if o.external then (if o.oneFile then [o.location.getD (stem (withSuffix n onnx))] else tensors) else []

/-- An export: directory, name, format, the names of the weights, and its content. -/
structure Export (D V : Type) where
  dir : D
  name : Name
  format : Format
  tensors : List Name
  content : V

variable {D V : Type} [DecidableEq D]

/-- The names of the files that are written, in order. -/
def names : Export D V → List Name
  | ⟨_, n, .gguf, _, _⟩ => [withSuffix n gguf]
  | ⟨_, n, .qnn o, ts, _⟩ => (if o.captureIo then [n ++ pickle] else []) ++ external o n ts ++ [withSuffix n onnx, withSuffix n encodings]

/-- The files with their directory. -/
def files (e : Export D V) : List (D × Name) := (names e).map fun n => (e.dir, n)

/-- Writing the files of an export. -/
def save (w : D × Name → Option V) (e : Export D V) : D × Name → Option V := fun f => if f ∈ files e then some e.content else w f

/-- A history of exports. -/
def run (w : D × Name → Option V) (es : List (Export D V)) : D × Name → Option V := es.foldl save w

/-! ## Specification -/

/-- Weights are in one file at the default place, or with the model. -/
def Usual (e : Export D V) : Prop := ∀ o, e.format = .qnn o → (o.external = true → o.oneFile = true ∧ o.location = none)

/-- A name that is another name with the ending of a file. -/
def Extends (m n : Name) : Prop := ∃ s ∈ [('.' :: onnx), ('.' :: encodings), ('.' :: gguf), pickle], m = n ++ s

/-! ## Lemmas -/

theorem splitLast_none : ∀ {n : Name}, '.' ∉ n → splitLast n = none
  | [], _ => rfl
  | c :: n, h => by
    have h1 : c ≠ '.' := fun e => h (e ▸ List.mem_cons_self)
    have h2 : '.' ∉ n := fun k => h (List.mem_cons_of_mem _ k)
    simp [splitLast, splitLast_none h2, h1]

theorem splitLast_append : ∀ (n : Name) {b : Name}, '.' ∉ b → splitLast (n ++ '.' :: b) = some (n, b)
  | [], b, h => by simp [splitLast, splitLast_none h]
  | c :: n, b, h => by simp [splitLast, splitLast_append n h]

theorem stem_onnx {n : Name} (h : n ≠ []) : stem (withSuffix n onnx) = n := by
  unfold stem withSuffix
  rw [splitLast_append n (by decide)]
  simp [h, onnx]

/-- The endings: none, and those of the files. -/
def endings : List Name := [[], ('.' :: onnx), ('.' :: encodings), ('.' :: gguf), pickle]

omit [DecidableEq D] in
theorem names_usual {e : Export D V} (hu : Usual e) (hn : e.name ≠ []) : ∀ f ∈ names e, ∃ s ∈ endings, f = e.name ++ s := by
  obtain ⟨d, n, fmt, ts, v⟩ := e
  cases fmt with
  | gguf =>
    intro f hf
    refine ⟨('.' :: gguf), by simp [endings], ?_⟩
    simpa [names, withSuffix] using hf
  | qnn o =>
    intro f hf
    have hu := hu o rfl
    simp only [names, List.mem_append, List.mem_cons, List.not_mem_nil, or_false] at hf
    rcases hf with (hf | hf) | hf | hf
    · refine ⟨pickle, by simp [endings], ?_⟩
      split at hf
      · simpa using hf
      · cases hf
    · refine ⟨[], by simp [endings], ?_⟩
      unfold external at hf
      split at hf
      · rename_i hx
        rw [if_pos (hu hx).1, (hu hx).2] at hf
        simp only [Option.getD_none, stem_onnx hn, List.mem_singleton] at hf
        simpa using hf
      · cases hf
    · exact ⟨('.' :: onnx), by simp [endings], by simpa [withSuffix] using hf⟩
    · exact ⟨('.' :: encodings), by simp [endings], by simpa [withSuffix] using hf⟩

/-- Endings with something in them cannot be mistaken for each other. -/
theorem endings_differ {n m s t : Name} (hs : s ∈ endings) (ht : t ∈ endings) (h : n ++ s = m ++ t) : n = m ∧ s = t ∨ (s = [] ∧ n = m ++ t) ∨ (t = [] ∧ m = n ++ s) := by
  by_cases h1 : s = []
  · subst h1; exact .inr (.inl ⟨rfl, by simpa using h⟩)
  by_cases h2 : t = []
  · subst h2; exact .inr (.inr ⟨rfl, by simpa using h.symm⟩)
  left
  have hl : s.getLast? = t.getLast? ∧ s.dropLast.getLast? = t.dropLast.getLast? := by
    have e : (n ++ s).reverse = (m ++ t).reverse := by rw [h]
    simp only [endings, List.mem_cons, List.not_mem_nil, or_false] at hs ht
    rw [List.reverse_append, List.reverse_append] at e
    rcases hs with rfl | rfl | rfl | rfl | rfl <;> rcases ht with rfl | rfl | rfl | rfl | rfl <;> simp_all [onnx, encodings, gguf, pickle]
  have hst : s = t := by
    simp only [endings, List.mem_cons, List.not_mem_nil, or_false] at hs ht
    rcases hs with rfl | rfl | rfl | rfl | rfl <;> rcases ht with rfl | rfl | rfl | rfl | rfl <;> first | rfl | (exfalso; revert hl; decide) | contradiction
  subst hst
  exact ⟨List.append_cancel_right h, rfl⟩

theorem extends_of {m n s : Name} (hs : s ∈ endings) (hne : m ≠ n) (h : m = n ++ s) : Extends m n := by
  unfold endings at hs
  rcases List.mem_cons.1 hs with rfl | hs
  · exact absurd (by simpa using h) hne
  · exact ⟨s, hs, h⟩

theorem run_other {es : List (Export D V)} : ∀ {w : D × Name → Option V} {f : D × Name}, (∀ e ∈ es, f ∉ files e) → run w es f = w f := by
  induction es with
  | nil => intro w f _; rfl
  | cons e es ih =>
    intro w f h
    show run (save w e) es f = w f
    rw [ih fun x hx => h x (List.mem_cons_of_mem _ hx)]
    exact if_neg (h e List.mem_cons_self)

omit [DecidableEq D] in
theorem disjoint {e e' : Export D V} (hu : Usual e) (hu' : Usual e') (hn : e.name ≠ []) (hn' : e'.name ≠ [])
    (h : e.dir ≠ e'.dir ∨ (e.name ≠ e'.name ∧ ¬ Extends e.name e'.name ∧ ¬ Extends e'.name e.name)) {f : D × Name} (hf : f ∈ files e) : f ∉ files e' := by
  intro hf'
  obtain ⟨x, hx, rfl⟩ := List.mem_map.1 hf
  obtain ⟨y, hy, hxy⟩ := List.mem_map.1 hf'
  injection hxy with hd he
  rcases h with h | ⟨h1, h2, h3⟩
  · exact h hd.symm
  obtain ⟨s, hs, hs'⟩ := names_usual hu hn x hx
  obtain ⟨t, ht, ht'⟩ := names_usual hu' hn' y hy
  rw [hs', ht'] at he
  rcases endings_differ ht hs he with ⟨h, -⟩ | ⟨-, h⟩ | ⟨-, h⟩
  · exact h1 h.symm
  · exact h3 (extends_of hs (Ne.symm h1) h)
  · exact h2 (extends_of ht h1 h)

/-! ## Properties -/

/-- **C148 (partial).** After any history of exports, all files of an export have its content, if each later export went to another directory, or has another name, and neither
name is the other with the ending of a file.

Missing: weights at another place or in one file each (`split_weights_overwritten`), and such names (`model_overwritten`). -/
theorem files_kept_partial (w : D × Name → Option V) (pre post : List (Export D V)) (e : Export D V) (hu : ∀ x ∈ e :: post, Usual x) (hn : ∀ x ∈ e :: post, x.name ≠ [])
    (h : ∀ x ∈ post, e.dir ≠ x.dir ∨ (e.name ≠ x.name ∧ ¬ Extends e.name x.name ∧ ¬ Extends x.name e.name)) : ∀ f ∈ files e, run w (pre ++ e :: post) f = some e.content := by
  intro f hf
  have : run w (pre ++ e :: post) = run (save (run w pre) e) post := by simp [run, List.foldl_append]
  rw [this, run_other fun x hx => disjoint (hu e List.mem_cons_self) (hu x (List.mem_cons_of_mem _ hx)) (hn e List.mem_cons_self) (hn x (List.mem_cons_of_mem _ hx)) (h x hx) hf]
  exact if_pos hf

/-- **C148.** Exports touch no file but their own. -/
theorem others_untouched (w : D × Name → Option V) (es : List (Export D V)) (f : D × Name) (h : ∀ e ∈ es, f ∉ files e) : run w es f = w f := run_other h

omit [DecidableEq D] in
/-- **C148 (partial).** The files of one export are different from each other: the model, its weights, its encodings and the recorded inputs and outputs.

Missing: as above, and empty names (`empty_name`). -/
theorem own_files_partial (d : D) (n : Name) (o : Options) (ts : List Name) (v : V) (hu : Usual (⟨d, n, .qnn o, ts, v⟩ : Export D V)) (hn : n ≠ []) :
    (files (⟨d, n, .qnn o, ts, v⟩ : Export D V)).Nodup ∧ (d, n ++ ('.' :: onnx)) ∈ files (⟨d, n, .qnn o, ts, v⟩ : Export D V) ∧
    (d, n ++ ('.' :: encodings)) ∈ files (⟨d, n, .qnn o, ts, v⟩ : Export D V) ∧ (o.external = true → (d, n) ∈ files (⟨d, n, .qnn o, ts, v⟩ : Export D V)) := by
  have hu := hu o rfl
  obtain ⟨x, y, l, c⟩ := o
  have h1 : n ++ '.' :: onnx ≠ n := fun h => by simpa using congrArg List.length h
  have h2 : n ++ '.' :: encodings ≠ n := fun h => by simpa using congrArg List.length h
  have h3 : n ++ pickle ≠ n := fun h => absurd (congrArg List.length h) (by simp [pickle])
  have h4 : n ++ '.' :: onnx ≠ n ++ '.' :: encodings := fun h => absurd (List.append_cancel_left h) (by decide)
  have h5 : n ++ pickle ≠ n ++ '.' :: onnx := fun h => absurd (List.append_cancel_left h) (by decide)
  have h6 : n ++ pickle ≠ n ++ '.' :: encodings := fun h => absurd (List.append_cancel_left h) (by decide)
  cases x with
  | false =>
    cases c <;> simp [files, names, external, withSuffix, h4, h5, h6]
  | true =>
    obtain ⟨hy, hl⟩ := hu rfl
    dsimp only at hy hl
    subst hy hl
    have hs := stem_onnx hn
    unfold withSuffix at hs
    cases c <;> simp [files, names, external, withSuffix, hs, h1.symm, h2.symm, h3, h4, h5, h6]

/-! ## Deviations -/

/-- **C148, deviation.** A model is overwritten by the weights of an export that has the name of its file as name. -/
theorem model_overwritten (w : D × Name → Option V) (d : D) (n : Name) (v v' : V) : run w [⟨d, n, .qnn {}, [], v⟩, ⟨d, n ++ ('.' :: onnx), .qnn {}, [], v'⟩]
    (d, n ++ ('.' :: onnx)) = some v' := by
  refine if_pos (List.mem_map.2 ⟨_, ?_, rfl⟩)
  have := stem_onnx (n := n ++ ('.' :: onnx)) (by simp)
  simp only [names, external, if_true, Option.getD_none, this]
  simp

/-- **C148, deviation.** With one file for each weight these are named after the weights only, so that the weights of two models in a directory overwrite each other. -/
theorem split_weights_overwritten (w : D × Name → Option V) (d : D) (n m t : Name) (v v' : V) :
    run w [⟨d, n, .qnn { oneFile := false }, [t], v⟩, ⟨d, m, .qnn { oneFile := false }, [t], v'⟩] (d, t) = some v' := by
  refine if_pos (List.mem_map.2 ⟨t, ?_, rfl⟩)
  simp [names, external]

omit [DecidableEq D] in
/-- **C148, deviation.** With an empty name, the model and its weights are the same file. -/
theorem empty_name (d : D) (v : V) : ¬ (files (⟨d, [], .qnn {}, [], v⟩ : Export D V)).Nodup := by
  have : stem (withSuffix [] onnx) = withSuffix [] onnx := by decide
  simp [files, names, external, this]

/-! ## Concrete cases -/

example : names (⟨0, "m".toList, .qnn { captureIo := true }, [], 1⟩ : Export Nat Nat) =
    ["m_input_output.pickle".toList, "m".toList, "m.onnx".toList, "m.encodings".toList] := by decide +kernel
example : Usual (⟨0, "m".toList, .qnn {}, [], 1⟩ : Export Nat Nat) := by
  intro o h
  cases h
  exact fun _ => ⟨rfl, rfl⟩
example : ¬ Extends ['m'] ['k'] ∧ ¬ Extends ['k'] ['m'] := by unfold Extends; decide

end FF.Files
