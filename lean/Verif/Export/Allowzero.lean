/-!
# Reshape without `allowzero`

Models `_fix_reshape_allowzero` (`src/fastforward/export/_onnx_helpers.py:9-15`, run by `stage_fix_onnx_reshape_allowzero`,
`export/stages/onnx/onnx_export_stages.py:435-445`) and the shape that ONNX's `Reshape` gives, after its specification.

Simplifications: of a node the operator, the attributes with integer values and the nodes of its bodies are modelled.
-/

namespace FF.Allowzero

/-! ## Model -/

/-- A node of an ONNX graph; `body` are the nodes of graphs within it, as those of `If` and `Loop`. -/
inductive Node where
  | mk (op : String) (attrs : List (String × Int)) (body : List Node)

/-- `_fix_reshape_allowzero` (_onnx_helpers.py:12-15) for one node. -/
def fixNode : Node → Node
  | .mk op attrs body => if op = "Reshape" ∧ "allowzero" ∈ attrs.map (·.1) then .mk op (attrs.filter fun a => a.1 ≠ "allowzero") body else .mk op attrs body

/-- `_fix_reshape_allowzero`: the nodes of the graph. -/
def fix (g : List Node) : List Node := g.map fixNode

/-! ## Specification -/

/-- The value of the attribute, which is 0 if it is missing. -/
def Zero (attrs : List (String × Int)) : Bool := match attrs.find? fun a => a.1 = "allowzero" with
  | some a => a.2 = 1
  | none => false

/-- The sizes that are given: for -1 none, and for 0 that of the input, unless zero is allowed. -/
def sizes (zero : Bool) : List Nat → List Int → Option (List (Option Nat))
  | _, [] => some []
  | inp, d :: ds =>
    if d = -1 then (sizes zero inp.tail ds).map (none :: ·)
    else if d = 0 then
      if zero then (sizes zero inp.tail ds).map (some 0 :: ·)
      else match inp with
        | [] => none
        | n :: inp => (sizes zero inp ds).map (some n :: ·)
    else if d < 0 then none
    else (sizes zero inp.tail ds).map (some d.toNat :: ·)

def prod : List Nat → Nat
  | [] => 1
  | n :: l => n * prod l

/-- ONNX's `Reshape`: the shape of the output for the shape of the input and the target; `none` if it is refused. -/
def reshape (zero : Bool) (inp : List Nat) (target : List Int) : Option (List Nat) :=
  if zero ∧ (0 : Int) ∈ target ∧ (-1 : Int) ∈ target then none
  else match sizes zero inp target with
    | none => none
    | some l =>
      let known := prod (l.filterMap id)
      match (l.filter Option.isNone).length with
      | 0 => if known = prod inp then some (l.filterMap id) else none
      | 1 => if known ≠ 0 ∧ prod inp % known = 0 then some (l.map fun o => o.getD (prod inp / known)) else none
      | _ => none

/-! ## Lemmas -/

theorem sizes_same : ∀ (target : List Int) (inp : List Nat), (0 : Int) ∉ target → sizes true inp target = sizes false inp target
  | [], _, _ => rfl
  | d :: ds, inp, h => by
    rw [List.mem_cons, not_or] at h
    have h0 : d ≠ 0 := fun e => h.1 e.symm
    simp only [sizes, sizes_same ds inp.tail h.2, if_neg h0]

/-- A zero that is allowed makes the output empty. -/
theorem zero_size : ∀ (target : List Int) (inp : List Nat) (l : List (Option Nat)), (0 : Int) ∈ target → sizes true inp target = some l →
    prod (l.filterMap id) = 0
  | [], _, _, h, _ => by cases h
  | d :: ds, inp, l, h, hl => by
    unfold sizes at hl
    by_cases h1 : d = -1
    · rw [if_pos h1] at hl
      cases hs : sizes true inp.tail ds with
      | none => simp [hs] at hl
      | some l' =>
        simp only [hs, Option.map_some, Option.some.injEq] at hl
        subst hl
        have : (0 : Int) ∈ ds := by
          rcases List.mem_cons.1 h with e | e
          · rw [← e] at h1; cases h1
          · exact e
        simpa using zero_size ds _ _ this hs
    · rw [if_neg h1] at hl
      by_cases h2 : d = 0
      · rw [if_pos h2, if_pos rfl] at hl
        cases hs : sizes true inp.tail ds with
        | none => simp [hs] at hl
        | some l' =>
          simp only [hs, Option.map_some, Option.some.injEq] at hl
          subst hl
          simp [prod]
      · rw [if_neg h2] at hl
        by_cases h3 : d < 0
        · rw [if_pos h3] at hl; cases hl
        · rw [if_neg h3] at hl
          cases hs : sizes true inp.tail ds with
          | none => simp [hs] at hl
          | some l' =>
            simp only [hs, Option.map_some, Option.some.injEq] at hl
            subst hl
            have : (0 : Int) ∈ ds := by
              rcases List.mem_cons.1 h with e | e
              · exact absurd e.symm h2
              · exact e
            simp [prod, zero_size ds _ _ this hs]

theorem find_filter : ∀ attrs : List (String × Int), Zero (attrs.filter fun a => a.1 ≠ "allowzero") = false := by
  intro attrs
  unfold Zero
  have : (attrs.filter fun a => decide (a.1 ≠ "allowzero")).find? (fun a => decide (a.1 = "allowzero")) = none := by
    rw [List.find?_eq_none]
    intro x hx
    have := (List.mem_filter.1 hx).2
    simpa using this
  rw [this]

theorem find_missing {attrs : List (String × Int)} (h : "allowzero" ∉ attrs.map (·.1)) : Zero attrs = false := by
  unfold Zero
  have : attrs.find? (fun a => decide (a.1 = "allowzero")) = none := by
    rw [List.find?_eq_none]
    intro x hx he
    simp only [decide_eq_true_eq] at he
    exact h (List.mem_map.2 ⟨x, hx, he⟩)
  rw [this]

/-! ## Properties -/

/-- **C139.** Of the nodes of the graph, only those for `Reshape` change, in which zero is no longer allowed; other attributes and bodies stay. -/
theorem only_reshape (g : List Node) (i : Nat) (op : String) (attrs : List (String × Int)) (body : List Node) (h : g[i]? = some (.mk op attrs body)) :
    (fix g).length = g.length ∧ ∃ attrs', (fix g)[i]? = some (.mk op attrs' body) ∧ (op ≠ "Reshape" → attrs' = attrs) ∧
      (op = "Reshape" → Zero attrs' = false) ∧ ∀ a, a.1 ≠ "allowzero" → (a ∈ attrs' ↔ a ∈ attrs) := by
  refine ⟨by simp [fix], ?_⟩
  by_cases hc : op = "Reshape" ∧ "allowzero" ∈ attrs.map (·.1)
  · refine ⟨attrs.filter fun a => a.1 ≠ "allowzero", by simp only [fix, List.getElem?_map, h, Option.map_some, fixNode, if_pos hc], fun hn => absurd hc.1 hn,
      fun _ => find_filter attrs, fun a ha => ?_⟩
    rw [List.mem_filter]
    simp [ha]
  · refine ⟨attrs, by simp only [fix, List.getElem?_map, h, Option.map_some, fixNode, if_neg hc], fun _ => rfl, fun ho => find_missing fun hm => hc ⟨ho, hm⟩,
      fun _ _ => Iff.rfl⟩

/-- **C139 (partial).** Without a zero in the target, `Reshape` does the same with and without `allowzero`.

Missing: targets with zeros (`shape_changes`, `refused_becomes_accepted`). -/
theorem same_shape_partial (inp : List Nat) (target : List Int) (h : (0 : Int) ∉ target) : reshape true inp target = reshape false inp target := by
  simp [reshape, sizes_same target inp h, h]

/-- **C139 (partial).** On a tensor that is not empty, a `Reshape` that succeeds gives the same shape when zero is no longer allowed, whatever the target.

Missing: empty tensors (`shape_changes`, `accepted_becomes_refused`). -/
theorem nonempty_same_partial (zero : Bool) (inp : List Nat) (target : List Int) (s : List Nat) (hn : prod inp ≠ 0) (h : reshape zero inp target = some s) :
    reshape false inp target = some s := by
  cases zero with
  | false => exact h
  | true =>
    by_cases h0 : (0 : Int) ∈ target
    · exfalso
      unfold reshape at h
      split at h
      · cases h
      · cases hs : sizes true inp target with
        | none => simp [hs] at h
        | some l =>
          have hz := zero_size target inp l h0 hs
          simp only [hs, hz] at h
          split at h
          · rw [if_neg (fun e => hn e.symm)] at h; cases h
          · simp at h
          · cases h
    · rw [← same_shape_partial inp target h0]; exact h

/-! ## Deviations -/

/-- **C139, deviation.** An empty tensor of shape `(0, n)` that is reshaped to `(0, 0)` keeps its shape instead. -/
theorem shape_changes (n : Nat) : reshape true [0, n] [0, 0] = some [0, 0] ∧ reshape false [0, n] [0, 0] = some [0, n] := by
  simp [reshape, sizes, prod]

/-- **C139, deviation.** Reshaping an empty tensor from `(0, n)` to `(n, 0)` is refused. -/
theorem accepted_becomes_refused (n : Nat) (hn : n ≠ 0) :
    reshape true [0, n] [(n : Int), 0] = some [n, 0] ∧ reshape false [0, n] [(n : Int), 0] = none := by
  have h1 : (n : Int) ≠ -1 := by omega
  have h2 : (n : Int) ≠ 0 := by omega
  have h3 : ¬ (n : Int) < 0 := by omega
  have h4 : (-1 : Int) ≠ n := fun e => h1 e.symm
  simp [reshape, sizes, prod, h1, hn, h3, h4]
  exact fun e => (Nat.mul_eq_zero.1 e).elim hn hn

/-- **C139, deviation.** Reshaping `(n, m)` to `(0, m)`, which is an error, gives the shape `(n, m)`. -/
theorem refused_becomes_accepted (n m : Nat) (hn : n ≠ 0) (hm : m ≠ 0) :
    reshape true [n, m] [0, (m : Int)] = none ∧ reshape false [n, m] [0, (m : Int)] = some [n, m] := by
  have h1 : (m : Int) ≠ -1 := by omega
  have h3 : ¬ (m : Int) < 0 := by omega
  have h4 : (-1 : Int) ≠ m := fun e => h1 e.symm
  have h5 : 0 ≠ n * m := fun e => (Nat.mul_eq_zero.1 e.symm).elim hn hm
  simp [reshape, sizes, prod, h1, hm, h3, h4]
  omega

/-- **C139, deviation.** In the bodies of other nodes, zero stays allowed. -/
theorem bodies_stay (attrs : List (String × Int)) (body : List Node) : fix [.mk "If" attrs body] = [.mk "If" attrs body] := by
  simp [fix, fixNode]

/-! ## Concrete cases -/

example : (0 : Int) ∉ [-1, 4] ∧ reshape true [2, 3, 4] [-1, 4] = some [6, 4] := by decide

example : prod [2, 6] ≠ 0 ∧ reshape true [2, 6] [3, 4] = some [3, 4] := by decide

end FF.Allowzero
