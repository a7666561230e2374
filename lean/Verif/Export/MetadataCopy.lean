/-!
# Metadata in saved ONNX graphs

Models `OnnxIrToProtoMetadataCopier` (`src/fastforward/export/stages/onnx/onnx_export_stages.py:532-584`) after `ir.to_proto` (`stage_onnx_program_to_proto`,
471-482), and how the metadata is read again (`_metadata_props_to_dict`, 95-109).

Simplifications: initializers, nodes, inputs and outputs are handled the same way, each by its own function of the code, and modelled by one; of `ir.to_proto`
only names and metadata are modelled, with `keeps` whether it keeps the metadata of items of this kind, which depends on the kind and the installed version.
-/

namespace FF.MetaCopy

/-! ## Model -/

/-- The entries of `metadata_props`. -/
abbrev Props := List (String × String)

/-- An item of the graph in memory; its metadata is a dictionary. -/
structure Item where
  name : Option String
  props : Props
  deriving DecidableEq

/-- An item of the graph as it is saved. -/
structure Saved where
  name : String
  props : Props
  deriving DecidableEq, Repr

/-- `ir.to_proto`: a missing name becomes an empty one. -/
def toProto (keeps : Bool) (irs : List Item) : List Saved := irs.map fun x => ⟨x.name.getD "", if keeps then x.props else []⟩

/-- The dictionary from names to items (555-557, 563-565, 571-573, 579-581), looked up: a later item replaces an earlier one. An item without name is found by no
name. -/
def lookup (irs : List Item) (n : String) : Option Item := irs.reverse.find? fun x => x.name = some n

/-- `_copy_metadata` (546-552). -/
def copyMetadata (src : Item) (dst : Saved) : Saved := if src.props = [] then dst else { dst with props := dst.props ++ src.props }

/-- `_copy_initializers`, `_copy_nodes`, `_copy_inputs` or `_copy_outputs` (554-584). -/
def copy (irs : List Item) (saved : List Saved) : List Saved :=
  saved.map fun p => match lookup irs p.name with
    | some x => copyMetadata x p
    | none => p

/-- `_metadata_props_to_dict` (95-109) of a saved item, looked up: a later entry replaces an earlier one. -/
def read (p : Props) (k : String) : Option String := (p.reverse.find? fun e => e.1 = k).map (·.2)

/-! ## Specification -/

/-- Every item has a name of its own. -/
def Named (irs : List Item) : Prop := (∀ x ∈ irs, x.name ≠ none) ∧ (irs.map (·.name)).Nodup

/-- A dictionary: one value for each key. -/
def IsDict (p : Props) : Prop := (p.map (·.1)).Nodup

/-! ## Lemmas -/

theorem eq_of_name : ∀ {irs : List Item}, (irs.map (·.name)).Nodup → ∀ {x y : Item}, x ∈ irs → y ∈ irs → x.name = y.name → x = y
  | [], _, _, _, hx, _, _ => by cases hx
  | a :: l, h, x, y, hx, hy, e => by
    rw [List.map_cons, List.nodup_cons] at h
    rcases List.mem_cons.1 hx with rfl | hx' <;> rcases List.mem_cons.1 hy with rfl | hy'
    · rfl
    · exact absurd (List.mem_map.2 ⟨y, hy', e.symm⟩) h.1
    · exact absurd (List.mem_map.2 ⟨x, hx', e⟩) h.1
    · exact eq_of_name h.2 hx' hy' e

theorem lookup_mem {irs : List Item} (h : (irs.map (·.name)).Nodup) {x : Item} (hx : x ∈ irs) {n : String} (hn : x.name = some n) : lookup irs n = some x := by
  unfold lookup
  cases hf : irs.reverse.find? fun x => decide (x.name = some n) with
  | none =>
    rw [List.find?_eq_none] at hf
    exact absurd hn (by simpa using hf x (by simpa using hx))
  | some y =>
    have hm := List.mem_of_find?_eq_some hf
    have hp := List.find?_some hf
    simp only [decide_eq_true_eq] at hp
    rw [eq_of_name h (List.mem_reverse.1 hm) hx (hp.trans hn.symm)]

theorem value_unique : ∀ {p : Props}, IsDict p → ∀ {k v w : String}, (k, v) ∈ p → (k, w) ∈ p → v = w
  | [], _, _, _, _, h, _ => by cases h
  | (a, b) :: p, hd, k, v, w, h1, h2 => by
    unfold IsDict at hd
    rw [List.map_cons, List.nodup_cons] at hd
    rcases List.mem_cons.1 h1 with e1 | h1' <;> rcases List.mem_cons.1 h2 with e2 | h2'
    · cases e1; cases e2; rfl
    · cases e1; exact absurd (List.mem_map.2 ⟨_, h2', rfl⟩) hd.1
    · cases e2; exact absurd (List.mem_map.2 ⟨_, h1', rfl⟩) hd.1
    · exact value_unique (p := p) hd.2 h1' h2'

/-- If every entry is one of a dictionary, and every entry of the dictionary is there, reading gives the dictionary. -/
theorem read_of {p q : Props} (hd : IsDict p) (h : ∀ e, e ∈ q ↔ e ∈ p) (k v : String) : read q k = some v ↔ (k, v) ∈ p := by
  unfold read
  constructor
  · intro hr
    cases hf : q.reverse.find? fun e => decide (e.1 = k) with
    | none => simp [hf] at hr
    | some e =>
      have hm := List.mem_of_find?_eq_some hf
      have hp := List.find?_some hf
      simp only [decide_eq_true_eq] at hp
      simp only [hf, Option.map_some, Option.some.injEq] at hr
      rw [← hp, ← hr]
      exact (h e).1 (List.mem_reverse.1 hm)
  · intro hm
    cases hf : q.reverse.find? fun e => decide (e.1 = k) with
    | none =>
      rw [List.find?_eq_none] at hf
      exact absurd (hf (k, v) (List.mem_reverse.2 ((h _).2 hm))) (by simp)
    | some e =>
      have he := List.mem_of_find?_eq_some hf
      have hp := List.find?_some hf
      simp only [decide_eq_true_eq] at hp
      have : (k, e.2) ∈ p := by rw [← hp]; exact (h e).1 (List.mem_reverse.1 he)
      simp [value_unique hd this hm]

/-! ## Properties -/

/-- **C138 (partial).** What is read from the saved graph for an item is the metadata of the item, whether or not saving keeps metadata by itself.

Missing: items without a name (`unnamed_lost`) and items of the same name (`same_name_mixed`). -/
theorem metadata_saved_partial (keeps : Bool) (irs : List Item) (h : Named irs) (i : Nat) (x : Item) (hx : irs[i]? = some x) (hd : IsDict x.props) :
    ∃ s, (copy irs (toProto keeps irs))[i]? = some s ∧ some s.name = x.name ∧ ∀ k v, read s.props k = some v ↔ (k, v) ∈ x.props := by
  have hm : x ∈ irs := List.mem_of_getElem? hx
  obtain ⟨n, hn⟩ := Option.ne_none_iff_exists'.1 (h.1 x hm)
  have hl := lookup_mem h.2 hm hn
  refine ⟨copyMetadata x ⟨n, if keeps then x.props else []⟩, ?_, ?_, ?_⟩
  · simp [copy, toProto, hx, hn, hl]
  · unfold copyMetadata
    split <;> simp [hn]
  · intro k v
    unfold copyMetadata
    split
    case isTrue he => simp [he, read]
    case isFalse he =>
      refine read_of hd (fun e => ?_) k v
      cases keeps <;> simp

/-- **C138.** Nothing but metadata changes: the items stay, in order and with their names, and what was there of metadata stays in front. -/
theorem rest_stays (irs : List Item) (saved : List Saved) (i : Nat) (s : Saved) (hs : saved[i]? = some s) :
    (copy irs saved).length = saved.length ∧ ∃ s' more, (copy irs saved)[i]? = some s' ∧ s'.name = s.name ∧ s'.props = s.props ++ more := by
  refine ⟨by simp [copy], ?_⟩
  cases hl : lookup irs s.name with
  | none => exact ⟨s, [], by simp [copy, hs, hl], rfl, by simp⟩
  | some x =>
    refine ⟨copyMetadata x s, x.props, by simp [copy, hs, hl], ?_, ?_⟩
    · unfold copyMetadata; split <;> rfl
    · unfold copyMetadata
      split
      case isTrue he => simp [he]
      case isFalse => rfl

/-- **C138.** Saved items get only metadata of items in memory of the same name. -/
theorem nothing_foreign (keeps : Bool) (irs : List Item) (i : Nat) (s : Saved) (hs : (copy irs (toProto keeps irs))[i]? = some s) (e : String × String)
    (he : e ∈ s.props) : ∃ x ∈ irs, x.name.getD "" = s.name ∧ e ∈ x.props := by
  simp only [copy, toProto, List.map_map, List.getElem?_map] at hs
  cases hx : irs[i]? with
  | none => simp [hx] at hs
  | some x =>
    have hm : x ∈ irs := List.mem_of_getElem? hx
    simp only [hx, Option.map_some, Function.comp, Option.some.injEq] at hs
    have base : e ∈ (if keeps then x.props else []) → e ∈ x.props := by
      cases keeps <;> simp
    cases hl : lookup irs (x.name.getD "") with
    | none =>
      rw [hl] at hs
      subst hs
      exact ⟨x, hm, rfl, base he⟩
    | some y =>
      rw [hl] at hs
      simp only at hs
      unfold copyMetadata at hs
      have hy := List.mem_of_find?_eq_some hl
      have hp := List.find?_some hl
      simp only [decide_eq_true_eq] at hp
      split at hs
      · subst hs; exact ⟨x, hm, rfl, base he⟩
      · subst hs
        rcases List.mem_append.1 he with h1 | h1
        · exact ⟨x, hm, rfl, base h1⟩
        · exact ⟨y, List.mem_reverse.1 hy, by simp [hp], h1⟩

/-! ## Deviations -/

/-- **C138, deviation.** The metadata of items without a name is lost, unless saving keeps it. -/
theorem unnamed_lost (p : Props) : copy [⟨none, p⟩] (toProto false [⟨none, p⟩]) = [⟨"", []⟩] := by
  simp [copy, toProto, lookup]

/-- **C138, deviation.** Of two items with the same name, the first is saved with the metadata of the second. -/
theorem same_name_mixed (n : String) (p q : Props) (hq : q ≠ []) :
    copy [⟨some n, p⟩, ⟨some n, q⟩] (toProto false [⟨some n, p⟩, ⟨some n, q⟩]) = [⟨n, q⟩, ⟨n, q⟩] := by
  simp [copy, toProto, lookup, copyMetadata, hq]

/-- **C138, deviation.** If saving keeps metadata by itself, every entry is saved twice. -/
theorem saved_twice (n : String) (p : Props) : copy [⟨some n, p⟩] (toProto true [⟨some n, p⟩]) = [⟨n, p ++ p⟩] := by
  by_cases h : p = [] <;> simp [copy, toProto, lookup, copyMetadata, h]

/-! ## Concrete cases -/

example : Named [⟨some "w", [("scale", "0.5"), ("offset", "0")]⟩, ⟨some "b", []⟩] ∧ IsDict [("scale", "0.5"), ("offset", "0")] := by
  unfold Named IsDict
  decide

example : copy [⟨some "w", [("scale", "0.5")]⟩, ⟨some "b", []⟩] (toProto false [⟨some "w", [("scale", "0.5")]⟩, ⟨some "b", []⟩]) =
    [⟨"w", [("scale", "0.5")]⟩, ⟨"b", []⟩] := by decide

end FF.MetaCopy
