/-
Saving and loading the state of quantizers: quantization/save_load.py.

Simplifications:
* objects (modules, quantizers) are elements of a type `M`; `attr` says which submodule an attribute
  of a module refers to, with attribute names free of dots (as torch.nn.Module demands);
* `named_quantizers(model, remove_duplicate=False)` is given: the names of all quantizers that are
  not stubs, as lists of attribute names, without repetition;
* `quantizer.state_dict()` is a list of entries, tensors are elements of a type `T`;
* YAML gives back one object `obj q` for each saved quantizer object `q` (serialization.py and YAML's
  own handling of repeated objects), with parameters `own q`;
* SafeTensors files give back what was written; that SafeTensors refuses to write tensors which share
  memory is not modelled (it can only make saving fail);
* `load_state_dict(..., strict=False)` assigns the given values and reports missing and unexpected
  keys; shapes are not modelled; log messages are not modelled.
-/
import Verif.SaveLoad.Dedupe
import Verif.Config.Tags

set_option linter.unusedSectionVars false

namespace FF.SaveLoad
open FF

variable {M T : Type} [DecidableEq M]

/-! ## Model -/

/-- A parameter or buffer: uninitialised, or a tensor. -/
inductive Val (T : Type) where
  | lazy
  | tensor (t : T)
  deriving DecidableEq, Repr

/-- Exceptions. -/
inductive Err where
  | lazyParameters
  | version
  | identifier
  | metadata
  | missingTensor
  | keys
  | noParent
  | initialized
  | notQuantizer
  | badPolicy
  | weights
  deriving DecidableEq, Repr

/-- The pair of files: config.yaml and the SafeTensors file with its metadata. -/
structure File (M T : Type) where
  version : Text
  name : Text
  quantizers : List (Text × M)
  tensors : List (Text × T)
  metadata : List (Text × Text)

/-- `quantizers`: save_load.py:157-159. -/
def byQuantizer (named : List (Text × M)) : List (M × List Text) :=
  named.foldl (fun g e => Dict.set g e.2 ((Dict.get g e.2).getD [] ++ [e.1])) []

/-- The name of a stored tensor: save_load.py:172. -/
def tensorKey (first key : Text) : Text := first ++ '.' :: key

/-- One entry of the metadata of a quantizer: save_load.py:190. -/
def entryText (first : Text) (e : Text × Val T) : Text :=
  e.1 ++ '=' :: tensorKey first e.1 ++ (match e.2 with | .lazy => "::lazy".toList | .tensor _ => [])

/-- The loop over the quantizers: save_load.py:164-193. -/
def collectLoop (allowLazy : Bool) (sd : M → List (Text × Val T)) : List (M × List Text) →
    List (Text × T) → List (Text × Text) → Except Err (List (Text × T) × List (Text × Text))
  | [], state, metadata => .ok (state, metadata)
  | (q, names) :: rest, state, metadata =>
    let first := minName names
    let state' := (sd q).foldl (fun s e => match e.2 with
      | .lazy => s
      | .tensor t => Dict.set s (tensorKey first e.1) t) state
    if (sd q).any (fun e => match e.2 with | .lazy => true | .tensor _ => false) && !allowLazy then
      .error .lazyParameters
    else
      collectLoop allowLazy sd rest state'
        (names.foldl (fun m n => Dict.set m n (Tags.join ',' ((sd q).map (entryText first)))) metadata)

/-- `_collect_quantizer_state`, 128-198, and `_write_quantizer_state`, 227-285. -/
def save (allowLazy : Bool) (sd : M → List (Text × Val T)) (named : List (Text × M)) (name : Text) :
    Except Err (File M T) :=
  match collectLoop allowLazy sd (byQuantizer named) [] [] with
  | .error e => .error e
  | .ok (state, metadata) =>
    .ok {
      version := "1.0".toList
      name := name
      quantizers := (byQuantizer named).flatMap (fun g => g.2.map (fun n => (n, g.1)))
      tensors := state
      metadata :=
        if state.isEmpty && metadata.isEmpty then
          [("__ff_empty_quantizer_state__".toList, "true".toList)] else metadata }

/-- `s.split("::")`. -/
def splitColons : Text → List Text
  | [] => [[]]
  | [c] => [[c]]
  | c :: d :: r =>
    if c = ':' ∧ d = ':' then [] :: splitColons r
    else match splitColons (d :: r) with
      | [] => [[c]]
      | p :: ps => (c :: p) :: ps

/-- `"lazy" in decorators`. -/
def mentionsLazy (d : Text) : Bool := d.tails.any (fun s => "lazy".toList.isPrefixOf s)

/-- Reading one entry of the metadata: save_load.py:460-471.  The result is the key, the name of the
tensor and whether the parameter is lazy. -/
def parseEntry (s : Text) : Except Err (Text × Text × Bool) :=
  match Tags.split '=' s with
  | [key, tk] =>
    match splitColons tk with
    | [tk] => .ok (key, tk, false)
    | [tk, deco] => .ok (key, tk, mentionsLazy deco)
    | _ => .error .metadata
  | _ => .error .metadata

/-- Reading all entries. -/
def parseEntries : List Text → Except Err (List (Text × Text × Bool))
  | [] => .ok []
  | s :: ss =>
    match parseEntry s with
    | .error e => .error e
    | .ok x => match parseEntries ss with
      | .error e => .error e
      | .ok xs => .ok (x :: xs)

/-- Fetching the tensors: save_load.py:474-477. -/
def fetch (tensors : List (Text × T)) : List (Text × Text) → Except Err (List (Text × T))
  | [] => .ok []
  | (k, tk) :: rest =>
    match Dict.get tensors tk with
    | none => .error .missingTensor
    | some t => match fetch tensors rest with
      | .error e => .error e
      | .ok r => .ok ((k, t) :: r)

/-- `load_state_dict(given, strict=False)`: the new parameters. -/
def assignParams (own : List (Text × Val T)) (given : List (Text × T)) : List (Text × Val T) :=
  own.map (fun e => (e.1, match Dict.get given e.1 with | some t => .tensor t | none => e.2))

/-- One round of the loop in `_load_quantizer_state_from_files`: save_load.py:456-502. -/
def loadOne (allowLazy : Bool) (f : File M T) (params : M → List (Text × Val T))
    (n : Text) (q : M) : Except Err (M → List (Text × Val T)) :=
  match Dict.get f.metadata n with
  | none => .error .metadata
  | some text =>
    match parseEntries (Tags.split ',' text) with
    | .error e => .error e
    | .ok entries =>
      let stateKeys := Dict.ofList ((entries.filter (fun e => !e.2.2)).map (fun e => (e.1, e.2.1)))
      let lazies := (entries.filter (fun e => e.2.2)).map (fun e => e.1)
      match fetch f.tensors stateKeys with
      | .error e => .error e
      | .ok given =>
        let missing := (Dict.keys (params q)).filter (fun k => !(Dict.keys given).contains k)
        let unexpected := (Dict.keys given).filter (fun k => !(Dict.keys (params q)).contains k)
        if !lazies.isEmpty && !allowLazy then .error .lazyParameters
        else if !(missing.filter (fun k => !lazies.contains k)).isEmpty || !unexpected.isEmpty then
          .error .keys
        else .ok (fun q' => if q' = q then assignParams (params q) given else params q')

/-- The loop over the quantizers of the file. -/
def loadAll (allowLazy : Bool) (f : File M T) : List (Text × M) → (M → List (Text × Val T)) →
    Except Err (M → List (Text × Val T))
  | [], params => .ok params
  | (n, q) :: rest, params =>
    match loadOne allowLazy f params n q with
    | .error e => .error e
    | .ok params' => loadAll allowLazy f rest params'

/-- `overwrite_policy`. -/
inductive Policy where
  | error
  | skip
  | overwrite
  | other
  deriving DecidableEq, Repr

/-- The submodules of a model. -/
abbrev Attr (M : Type) := M → Text → Option M

/-- `attrgetter(path)(module)`. -/
def follow (attr : Attr M) : M → List Text → Option M
  | m, [] => some m
  | m, c :: cs =>
    match attr m c with
    | none => none
    | some m' => follow attr m' cs

/-- Facts about objects. -/
structure Lib (M : Type) where
  isQuantizer : M → Bool
  isStub : M → Bool
  /-- the object YAML builds for a saved quantizer -/
  obj : M → M

/-- `setattr`. -/
def assign (attr : Attr M) (o : M) (a : Text) (m : M) : Attr M :=
  fun o' a' => if o' = o ∧ a' = a then some m else attr o' a'

/-- One round of the attachment loop: save_load.py:504-537. -/
def attachOne (lib : Lib M) (policy : Policy) (root : M) (attr : Attr M) (n : Text) (q : M) :
    Except Err (Attr M) :=
  let parts := Tags.split '.' n
  match follow attr root parts.dropLast with
  | none => .error .noParent
  | some parent =>
    let a := parts.getLast?.getD []
    let isQ := match attr parent a with | some m => lib.isQuantizer m | none => false
    let isS := match attr parent a with | some m => lib.isStub m | none => false
    if isQ && !isS && policy = .error then .error .initialized
    else if isQ && !isS && policy = .skip then .ok attr
    else if isQ && !isS && !decide (policy = .overwrite) then .error .badPolicy
    else if !isQ then .error .notQuantizer
    else .ok (assign attr parent a (lib.obj q))

/-- The attachment loop: what was attached before an exception stays attached. -/
def attachAll (lib : Lib M) (policy : Policy) (root : M) :
    List (Text × M) → Attr M → Attr M × Option Err
  | [], attr => (attr, none)
  | (n, q) :: rest, attr =>
    match attachOne lib policy root attr n q with
    | .error e => (attr, some e)
    | .ok attr' => attachAll lib policy root rest attr'

/-- `_load_quantizer_state_from_files`: save_load.py:397-537.  The result is the model, the parameters
of the loaded quantizers and the exception, if any. -/
def load (lib : Lib M) (policy : Policy) (allowLazy : Bool) (expected : Option Text) (f : File M T)
    (own : M → List (Text × Val T)) (root : M) (attr : Attr M) :
    Attr M × (M → List (Text × Val T)) × Option Err :=
  if f.version ≠ "1.0".toList then (attr, own, some .version)
  else if expected.isSome && expected != some f.name then (attr, own, some .identifier)
  else
    match loadAll allowLazy f f.quantizers own with
    | .error e => (attr, own, some e)
    | .ok params =>
      let r := attachAll lib policy root f.quantizers attr
      (r.1, params, r.2)

/-! ## Specification -/

/-- `path` leads from module `m` to `o` without passing through (or ending in) a quantizer. -/
inductive Path (lib : Lib M) (attr : Attr M) : M → List Text → M → Prop
  | nil (m : M) : Path lib attr m [] m
  | cons {m m' o : M} {c : Text} {cs : List Text} : attr m c = some m' →
      lib.isQuantizer m' = false → Path lib attr m' cs o → Path lib attr m (c :: cs) o

/-- No character that has a meaning in the metadata or in names. -/
def Clean (s : Text) : Prop := ',' ∉ s ∧ '=' ∉ s ∧ ':' ∉ s

/-- The value a parameter should have after loading: the saved one, or if it was uninitialised when
saved the one of a fresh quantizer. -/
def Restored (saved fresh : Option (Val T)) : Option (Val T) :=
  match saved with
  | some .lazy => fresh
  | some (.tensor t) => some (.tensor t)
  | none => none

/-- An entry in the metadata, as text: `key=tensor`, possibly followed by `::` and a decoration. -/
def Entry.text (key tensor : Text) (deco : Option Text) : Text :=
  key ++ '=' :: tensor ++ (match deco with | none => [] | some d => "::".toList ++ d)

/-- An entry that can be read in one way only. -/
def Entry.Readable (key tensor : Text) (deco : Option Text) : Prop :=
  ',' ∉ Entry.text key tensor deco ∧ '=' ∉ key ∧ '=' ∉ tensor ∧ ¬ "::".toList <:+: tensor

/-- The metadata of the quantizer saved as `n` lists the given entries: keys, names of tensors and
decorations. -/
def Lists (f : File M T) (n : Text) (entries : List (Text × Text × Option Text)) : Prop :=
  (∀ e ∈ entries, Entry.Readable e.1 e.2.1 e.2.2) ∧
  Dict.get f.metadata n =
    some (Tags.join ',' (entries.map (fun e => Entry.text e.1 e.2.1 e.2.2)))

end FF.SaveLoad
