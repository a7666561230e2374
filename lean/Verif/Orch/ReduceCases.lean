import Verif.Orch.ReduceProps
import Mathlib.Tactic.DeriveCountable
import Mathlib.Logic.Equiv.List
import Mathlib.Data.Countable.Basic
import Std.Data.String.ToInt

/-! # Reducing a graph: deviations and concrete cases (C78) -/

namespace FF.Orch

/-- A node of the graphs below. -/
def caseNode (id : ℕ) (name : String) (target : ℕ) (args : List Ref) (parent : Option ℕ := none) : Node where
  id := id
  name := name
  target := target
  isModule := true
  args := args
  kwargs := []
  parent := parent

/-- Modules that work elementwise: 1 and 6 add 1, 2 and 7 double; 4 concatenates; 3 and all modules from 8 on add 1 and double; 5 returns a pair of
what it gets, increased by 1, and the double of that. -/
def layerSem : Sem (List ℤ) Unit where
  constVal k := [k]
  item v a := match a with
    | .idx i => (v[i.toNat]?).map ([·])
    | .key _ => none
  getattr _ _ := none
  call _ _ m args _ := some (match m with
    | 1 => args.flatten.map (· + 1)
    | 2 => args.flatten.map (· * 2)
    | 4 => args.flatten
    | 5 => args.flatten.map (· + 1) ++ args.flatten.map (fun x => (x + 1) * 2)
    | 6 => args.flatten.map (· + 1)
    | 7 => args.flatten.map (· * 2)
    | _ => args.flatten.map (fun x => (x + 1) * 2))
  optimize w _ _ _ := some w
  move _ v := v
  moveModule w _ _ := w

def someDelegate : Delegate where
  fn := 7
  contexts := [0]

/-! ### Deviations -/

/-- A path `a`, `b` of which the graph returns the first component. -/
def componentOut : Graph where
  nodes := [caseNode 1 "a" 1 [.input "x"], caseNode 2 "b" 2 [.node 1]]
  inputs := ["x"]
  outputs := [.attr (.node 2) (.idx 0)]

/-- The graph it is reduced to. -/
def componentOutReduced : Graph where
  nodes := [{ id := 0, name := "subgraph_0", target := 100, isModule := true, args := [.input "x"], kwargs := [], delegate := some someDelegate }]
  inputs := ["x"]
  outputs := [.attr (.node 0) (.idx 0)]

/-- The graph of the path. -/
def componentPath : Graph where
  nodes := [caseNode 2 "b" 2 [.node 1], caseNode 1 "a" 1 [.input "x"]]
  inputs := ["x"]
  outputs := [.attr (.node 2) (.idx 0)]

/-- Modules that return what they get, except 100, which returns the list without its first element; a component of a list is the list without its
first element. -/
def tailSem : Sem (List ℤ) Unit where
  constVal k := [k]
  item v _ := some v.tail
  getattr _ _ := none
  call _ _ m args _ := some (if m = 100 then args.flatten.tail else args.flatten)
  optimize w _ _ _ := some w
  move _ v := v
  moveModule w _ _ := w

/-- **C78, deviation.** A graph that returns a component of a node in a path: the path's graph already returns the component, and
the new graph takes the component again, so that the output changes. -/
theorem reduced_part_of_output (parseInt : String → Option Int) :
    reduceResolution componentOut id parseInt (fun _ => 100) [⟨.span 1 2, someDelegate⟩] = .ok (componentOutReduced, [100]) ∧
    componentOut.resolve id (.span 1 2) = .ok ([2, 1], some componentPath) ∧ IsGraphModule tailSem () 0 100 componentPath ∧
    Val tailSem componentOut () 0 (fun _ => [1, 2, 3]) (.attr (.node 2) (.idx 0)) [2, 3] ∧
    Val tailSem componentOutReduced () 0 (fun _ => [1, 2, 3]) (.attr (.node 0) (.idx 0)) [3] := by
  refine ⟨rfl, rfl, fun b vs h => ?_, ?_, ?_⟩
  · obtain ⟨v, hv⟩ : ∃ v, vs = [v] := List.length_eq_one_iff.1 h.length_eq.symm
    subst hv
    obtain ⟨u, h1, h2⟩ := val_attr (List.forall₂_cons.1 h).1
    obtain ⟨n, us, e1, e2, e3⟩ := val_node h1
    obtain rfl := Option.some.inj e1
    obtain ⟨u1, rfl⟩ : ∃ v, us = [v] := List.length_eq_one_iff.1 e2.length_eq.symm
    obtain ⟨n, us, f1, f2, f3⟩ := val_node (List.forall₂_cons.1 e2).1
    obtain rfl := Option.some.inj f1
    obtain ⟨u2, rfl⟩ : ∃ v, us = [v] := List.length_eq_one_iff.1 f2.length_eq.symm
    have h3 := val_unique (List.forall₂_cons.1 f2).1 (Den.input (by decide) : Val tailSem componentPath () 0 b (.input "x") (b "x"))
    subst h3
    have e3' : b "x" = u1 := by simpa [tailSem, caseNode] using f3
    have e4' : u1 = u := by simpa [tailSem, caseNode] using e3
    have h2' : u.tail = v := by
      cases h2 with
      | cons h _ => exact Option.some.inj h
    refine ⟨v, ?_, fun _ => rfl, fun h => absurd rfl h⟩
    simp [tailSem, componentPath, e3', e4', h2']
  · refine .attr (d := [[1, 2, 3]]) ?_ (.cons rfl .nil)
    refine node_val (vs := [[1, 2, 3]]) rfl (.cons ?_ .nil) rfl
    exact node_val (vs := [[1, 2, 3]]) rfl (.cons (.input (by decide)) .nil) rfl
  · refine .attr (d := [[2, 3]]) ?_ (.cons rfl .nil)
    exact node_val (vs := [[1, 2, 3]]) rfl (.cons (.input (by decide)) .nil) rfl

/-- A module `m` takes `x[0][1]`. -/
def nestedArg : Graph where
  nodes := [caseNode 1 "m" 1 [.attr (.attr (.input "x") (.idx 0)) (.idx 1)]]
  inputs := ["x"]
  outputs := [.node 1]

/-- **C78, deviation.** A part of a part that goes into a group is replaced by another part: `x[0][1]` becomes `x[1]`. -/
theorem reduced_part_of_part (parseInt : String → Option Int) (hp : ParsesInts parseInt) :
    (reduceResolution nestedArg id parseInt (fun _ => 100) [⟨.group [1], someDelegate⟩]).toOption.map (fun p => p.1.nodes.map (·.args)) =
      some [[.attr (.input "x") (.idx 1)]] := by
  have h1 : parseInt "1" = some 1 := hp 1
  have h2 : resolveInput parseInt [("x", .input "x")] "x[1]" = .ok (.attr (.input "x") (.idx 1)) := by
    have e : resolveInput parseInt [("x", .input "x")] "x[1]" = (match parseInt "1" with
      | some i => .ok (.attr (.input "x") (.idx i))
      | none => if "1" ∈ ownAttributes then .error .typeError else .ok (.attr (.input "x") (.key "1"))) := rfl
    rw [e, h1]
  have hs : nestedArg.rewire parseInt (fun _ => 100) { graph := { inputs := ["x"] }, ctx := [("x", .input "x")] }
      (.sub { nodes := [caseNode 1 "m" 1 [.input "x[1]"]], inputs := ["x[1]"], outputs := [.node 1] }) =
      .ok { graph := { nodes := [caseNode 0 "subgraph_0" 100 [.attr (.input "x") (.idx 1)]], inputs := ["x"] },
            ctx := [("x", .input "x"), ("m", .node 0)], subs := 1 } := by
    unfold Graph.rewire
    simp only [List.mapM_cons, List.mapM_nil, h2]
    rfl
  unfold reduceResolution
  show (Except.toOption (do
    let s ← (nestedArg.rewire parseInt (fun _ => 100) { graph := { inputs := ["x"] }, ctx := [("x", .input "x")] }
      (.sub { nodes := [caseNode 1 "m" 1 [.input "x[1]"]], inputs := ["x[1]"], outputs := [.node 1] }) >>= fun s => pure s)
    _)).map _ = _
  rw [hs]
  rfl

/-- A fold `f` with the leaves `a` and `b`; only `b` is used outside. -/
def unusedResult : Graph where
  nodes := [caseNode 9 "f" 5 [.input "x"], caseNode 1 "a" 1 [.input "x"] (some 9), caseNode 2 "b" 2 [.node 1] (some 9), caseNode 3 "c" 4 [.node 2]]
  folds := [9]
  inputs := ["x"]
  outputs := [.node 3]

/-- The graph it is reduced to: `c` gets all that `f` returns. -/
def unusedResultReduced : Graph where
  nodes := [caseNode 0 "f" 5 [.input "x"], { caseNode 1 "c" 4 [.node 0] with delegate := some someDelegate }]
  inputs := ["x"]
  outputs := [.node 1]

/-- **C78, deviation.** A part that is named like an attribute of references, such as `x["id"]`, never becomes the part of what `x` stands for when it goes into a group. -/
theorem attribute_part_lost (parseInt : String → Option Int) (ctx : List (String × Ref)) {x : String} (h : '[' ∉ x.toList) {k : String}
    (hk : k ∈ ["id", "name", "unwrap_ref", "reference", "attribute"]) (hp : parseInt k = none) (r : Ref) :
    resolveInput parseInt ctx (liftedKey x (.key k)) ≠ .ok (.attr r (.key k)) := by
  rw [resolveInput_part parseInt ctx h]
  have hm : k ∈ ownAttributes := hk
  cases ctxGet ctx x with
  | error e => intro h; cases h
  | ok q =>
    simp only [Attr.text, hp, hm, if_true, bind, Except.bind]
    intro h; cases h

/-- **C78, deviation.** A module that returns two results of which the rest of the graph uses one: in the new graph the pair is passed
where the one result was used. Here `f` returns the values of `a` and of `b`, and the output changes from `[22]` to `[11, 22]`. -/
theorem fold_tuple (parseInt : String → Option Int) :
    reduceResolution unusedResult id parseInt (fun _ => 100) [⟨.module 4, someDelegate⟩] = .ok (unusedResultReduced, [4]) ∧
    (∀ (i : ℕ) (l : ℕ) (v : List ℤ), [1, 2][i]? = some l → Val layerSem unusedResult () 0 (fun _ => [10]) (.node l) v →
      Val layerSem unusedResult () 0 (fun _ => [10]) (.attr (.node 9) (.idx i)) v) ∧
    Val layerSem unusedResult () 0 (fun _ => [10]) (.node 3) [22] ∧ Val layerSem unusedResultReduced () 0 (fun _ => [10]) (.node 1) [11, 22] := by
  have hx : Val layerSem unusedResult () 0 (fun _ => [10]) (.input "x") [10] := .input (by decide)
  have ha : Val layerSem unusedResult () 0 (fun _ => [10]) (.node 1) [11] := node_val (vs := [[10]]) rfl (.cons hx .nil) rfl
  have hb : Val layerSem unusedResult () 0 (fun _ => [10]) (.node 2) [22] := node_val (vs := [[11]]) rfl (.cons ha .nil) rfl
  have hf : Val layerSem unusedResult () 0 (fun _ => [10]) (.node 9) [11, 22] := node_val (vs := [[10]]) rfl (.cons hx .nil) rfl
  refine ⟨rfl, fun i l v hi hv => ?_, node_val (vs := [[22]]) rfl (.cons hb .nil) rfl, ?_⟩
  · match i with
    | 0 =>
      obtain rfl : 1 = l := by simpa using hi
      rw [val_unique hv ha]
      exact .attr hf (.cons rfl .nil)
    | 1 =>
      obtain rfl : 2 = l := by simpa using hi
      rw [val_unique hv hb]
      exact .attr hf (.cons rfl .nil)
    | i + 2 => simp at hi
  · have hf' : Val layerSem unusedResultReduced () 0 (fun _ => [10]) (.node 0) [11, 22] :=
      node_val (vs := [[10]]) rfl (.cons (.input (by decide)) .nil) rfl
    exact node_val (vs := [[11, 22]]) rfl (.cons hf' .nil) rfl

/-- A fold with two outlets; `d` uses the first one and comes before the second one. -/
def earlyUse : Graph where
  nodes := [caseNode 9 "f" 5 [.input "x"], caseNode 1 "a" 1 [.input "x"] (some 9), caseNode 4 "d" 6 [.node 1],
    caseNode 2 "b" 2 [.node 1] (some 9), caseNode 3 "c" 4 [.node 2]]
  folds := [9]
  inputs := ["x"]
  outputs := [.node 3, .node 4]

/-- **C78, deviation.** A fold is placed where its last outlet is computed: a graph in which an earlier outlet is used before
that place ends in a `KeyError`. -/
theorem fold_placed_too_late (parseInt : String → Option Int) :
    topologicalSort earlyUse = .ok [1, 4, 2, 3] ∧
    reduceResolution earlyUse id parseInt (fun _ => 100) [⟨.module 6, someDelegate⟩] = .error .keyError := by
  refine ⟨rfl, rfl⟩

/-- A fold with two leaves. -/
def foldOfTwo : Graph where
  nodes := [caseNode 9 "f" 3 [.input "x"], caseNode 1 "a" 1 [.input "x"] (some 9), caseNode 2 "b" 2 [.node 1] (some 9)]
  folds := [9]
  inputs := ["x"]
  outputs := [.node 2]

/-- **C78, deviation.** A module and a module inside it are not refused as overlapping: the inner one is computed twice, and what its
delegate changes has an effect on the outer one. -/
theorem nested_regions_computed_twice (parseInt : String → Option Int) :
    Inside foldOfTwo 9 1 ∧
    (reduceResolution foldOfTwo id parseInt (fun _ => 100) [⟨.module 3, someDelegate⟩, ⟨.module 1, someDelegate⟩]).toOption.map
      (fun p => p.1.nodes.map fun n => (n.name, n.args, n.delegate)) =
      some [("a", [.input "x"], some someDelegate), ("f", [.input "x"], some someDelegate)] := by
  refine ⟨.child (n := caseNode 1 "a" 1 [.input "x"] (some 9)) (by decide) rfl, rfl⟩

/-- Module 1 is called by `a`, on the result of `p`, and by `b`. -/
def calledTwice : Graph where
  nodes := [caseNode 0 "p" 2 [.input "x"], caseNode 1 "a" 1 [.node 0], caseNode 2 "b" 1 [.input "x"]]
  inputs := ["x"]
  outputs := [.node 1, .node 2]

/-- **C78, deviation.** A module that two nodes call: the region is the first node in the order of insertion, but the delegate goes to the first node in
topological order. -/
theorem delegate_on_another_call (parseInt : String → Option Int) :
    calledTwice.resolve id (.module 1) = .ok ([1], none) ∧
    (reduceResolution calledTwice id parseInt (fun _ => 100) [⟨.module 1, someDelegate⟩]).toOption.map
      (fun p => p.1.nodes.map fun n => (n.name, n.delegate)) = some [("p", none), ("b", some someDelegate), ("a", none)] := by
  refine ⟨rfl, rfl⟩

/-- A node named like the input. -/
def inputName : Graph where
  nodes := [caseNode 1 "x" 1 [.input "x"], caseNode 2 "b" 2 [.input "x"]]
  inputs := ["x"]
  outputs := [.node 2]

/-- **C78, deviation.** A node named like an input takes its place: what used the input uses the node. -/
theorem node_replaces_input (parseInt : String → Option Int) :
    (reduceResolution inputName id parseInt (fun _ => 100) []).toOption.map (fun p => p.1.nodes.map (·.args)) =
      some [[.input "x"], [.node 0]] := rfl

/-! ### Concrete cases -/

theorem countable_char : Countable Char :=
  Function.Injective.countable (f := Char.toNat) fun _ _ h => Char.ext (UInt32.toNat_inj.1 h)

theorem countable_string : Countable String :=
  have := countable_char
  Function.Injective.countable (f := String.toList) fun _ _ h => String.ext h

attribute [local instance] countable_char countable_string

deriving instance Countable for Attr
deriving instance Countable for Ref
deriving instance Countable for Delegate
deriving instance Countable for Node
deriving instance Countable for Graph

/-- A fold `f` of `a` and `b`, a module `c` after it, and a path `d`, `e` that uses a part of `c`. -/
def layered : Graph where
  nodes := [caseNode 9 "f" 3 [.input "x"], caseNode 1 "a" 1 [.input "x"] (some 9), caseNode 2 "b" 2 [.node 1] (some 9),
    caseNode 3 "c" 4 [.node 2, .input "x"], caseNode 4 "d" 6 [.attr (.node 3) (.idx 1)], caseNode 5 "e" 7 [.node 4]]
  folds := [9]
  inputs := ["x"]
  outputs := [.node 5, .node 3]

def layerSpecs : List Spec := [⟨.span 6 7, someDelegate⟩, ⟨.module 4, { fn := 8, contexts := [0] }⟩]

/-- What it is reduced to: the fold, `c` and the path. -/
def layeredReduced (k : ℕ) : Graph where
  nodes := [caseNode 0 "f" 3 [.input "x"], { caseNode 1 "c" 4 [.node 0, .input "x"] with delegate := some { fn := 8, contexts := [0] } },
    { caseNode 2 "subgraph_0" k [.attr (.node 1) (.idx 1)] with delegate := some someDelegate }]
  inputs := ["x"]
  outputs := [.node 2, .node 1]

theorem parsesInts_toInt : ParsesInts String.toInt? := fun i => Int.toInt?_repr i

theorem layered_cases {n : Node} (h : n ∈ layered.nodes) : n = caseNode 9 "f" 3 [.input "x"] ∨ n = caseNode 1 "a" 1 [.input "x"] (some 9) ∨
    n = caseNode 2 "b" 2 [.node 1] (some 9) ∨ n = caseNode 3 "c" 4 [.node 2, .input "x"] ∨ n = caseNode 4 "d" 6 [.attr (.node 3) (.idx 1)] ∨
    n = caseNode 5 "e" 7 [.node 4] := by
  simpa [layered] using h

theorem layered_uses {a b : ℕ} (h : Uses layered a b) : b + 1 = a ∧ 1 ≤ b ∧ b ≤ 4 := by
  obtain ⟨n, hn, rfl, r, hr, hu⟩ := h
  rcases layered_cases hn with rfl | rfl | rfl | rfl | rfl | rfl <;>
    (rcases hr with hr | ⟨k, hr⟩ <;> simp [caseNode] at hr ⊢)
  · subst hr; simp [Ref.unwrap] at hu
  · subst hr; simp [Ref.unwrap] at hu
  · subst hr; simp [Ref.unwrap] at hu; omega
  · rcases hr with rfl | rfl <;> simp [Ref.unwrap] at hu
    omega
  · subst hr; simp [Ref.unwrap] at hu; omega
  · subst hr; simp [Ref.unwrap] at hu; omega

theorem layered_acyclic (n : ℕ) : ¬ Relation.TransGen (Uses layered) n n := by
  have : ∀ a b, Relation.TransGen (Uses layered) a b → b < a := by
    intro a b h
    induction h with
    | single h => have := layered_uses h; omega
    | tail _ h ih => have := layered_uses h; omega
  intro h
  exact Nat.lt_irrefl _ (this n n h)

theorem layered_tidy : Tidy layered where
  closed := graph_closed_of_check (by decide) (by decide) (by decide) (by decide) (by decide) (by decide)
  names := by decide
  apart := by decide
  plain := by decide
  plainInputs := by decide

theorem layered_inside {f id : ℕ} (h : Inside layered f id) : f = 9 ∧ (id = 1 ∨ id = 2) := by
  induction h with
  | child hn hp => rcases layered_cases hn with rfl | rfl | rfl | rfl | rfl | rfl <;> simp_all [caseNode]
  | deeper _ hn hp ih => rcases layered_cases hn with rfl | rfl | rfl | rfl | rfl | rfl <;> simp_all [caseNode]

theorem layered_nested : Nested layered where
  folds := by
    intro n hn p hp
    rcases layered_cases hn with rfl | rfl | rfl | rfl | rfl | rfl <;> simp_all [caseNode, layered]
  acyclic := by
    intro id h
    have := layered_inside h
    omega

theorem layered_region {id : ℕ} : InRegion layered (.span 6 7) id ↔ id = 4 ∨ id = 5 := by
  constructor
  · rintro ⟨a, b, h1, h2, h3, h4⟩
    obtain rfl : caseNode 4 "d" 6 [.attr (.node 3) (.idx 1)] = a := Option.some.inj h1
    obtain rfl : caseNode 5 "e" 7 [.node 4] = b := Option.some.inj h2
    have hle : ∀ x y, DependsOn layered x y → y ≤ x := by
      intro x y h
      induction h with
      | refl => exact Nat.le_refl _
      | tail _ h ih => have := layered_uses h; omega
    have := hle _ _ h3
    have := hle _ _ h4
    simp only [caseNode] at *
    omega
  · have h54 : Uses layered 5 4 := ⟨caseNode 5 "e" 7 [.node 4], by simp [layered], rfl, .node 4, Or.inl (by simp [caseNode]), rfl⟩
    rintro (rfl | rfl)
    · exact ⟨_, _, rfl, rfl, .single h54, .refl⟩
    · exact ⟨_, _, rfl, rfl, .refl, .single h54⟩

theorem layered_module {id : ℕ} : InRegion layered (.module 4) id ↔ id = 3 := by
  constructor
  · rintro ⟨n, h1, rfl⟩
    obtain rfl : caseNode 3 "c" 4 [.node 2, .input "x"] = n := Option.some.inj h1
    rfl
  · rintro rfl
    exact ⟨_, rfl, rfl⟩

theorem layered_simple : SimpleParts String.toInt? layered := by
  intro n hn r hr q a hq
  subst hq
  rcases layered_cases hn with rfl | rfl | rfl | rfl | rfl | rfl <;> simp [Node.allArgs, caseNode] at hr
  obtain ⟨rfl, rfl⟩ := hr
  exact ⟨rfl, by simp⟩

theorem layered_whole : WholeOutputs layered layerSpecs := by
  intro s hs _ r hr id hu _
  simp only [layered, List.mem_cons, List.not_mem_nil, or_false] at hr
  rcases hr with rfl | rfl <;> exact hu

theorem layered_unnested : Unnested layered layerSpecs := by
  intro s hs s' _ id id' h1 _ h3
  have h4 := (layered_inside h3).1
  subst h4
  simp only [layerSpecs, List.mem_cons, List.not_mem_nil, or_false] at hs
  rcases hs with rfl | rfl
  · have := layered_region.1 h1
    omega
  · have := layered_module.1 h1
    omega

/-- There are modules for the graphs. -/
theorem layered_fresh : ∃ modOf : Graph → ℕ, FreshModules layered modOf ∧ ∀ g, 8 ≤ modOf g := by
  obtain ⟨f, hf⟩ := exists_injective_nat Graph
  refine ⟨fun g => 8 + f g, ⟨fun a b h => hf (Nat.add_left_cancel h), fun a n hn => ?_⟩, fun g => Nat.le_add_right _ _⟩
  rcases layered_cases hn with rfl | rfl | rfl | rfl | rfl | rfl <;> simp only [caseNode] <;> omega

theorem layerSem_big {m : ℕ} (h : 8 ≤ m) (w : Unit) (c : Ctx) (args : List (List ℤ)) (kw : List (String × List ℤ)) :
    layerSem.call w c m args kw = some (args.flatten.map fun x => (x + 1) * 2) := by
  match m, h with
  | m + 8, _ => rfl

/-- They behave like the graph of the path. -/
theorem layered_modules {modOf : Graph → ℕ} (hm : ∀ g, 8 ≤ modOf g) : RegionModules layerSem layered () 0 modOf layerSpecs := by
  intro s hs hnm path sub hpath hcr b vs hvs
  refine ⟨_, layerSem_big (hm sub) _ _ _ _, ?_⟩
  have hap : NamesApart layered path := by
    intro n hn m hm h1 h2 h3
    exact h2 (name_inj layered_tidy hn hm h3 ▸ h1)
  obtain ⟨c1, c2, c3, c4, c5, c6, _⟩ := create_spec layered_tidy.closed hap hcr
  simp only [layerSpecs, List.mem_cons, List.not_mem_nil, or_false] at hs
  have hone : ∀ {α : Type} (l : List α) (x : α), l.Nodup → (∀ y, y ∈ l ↔ y = x) → l = [x] := by
    intro α l x hnd hmem
    match l, hnd, hmem with
    | [], _, hmem => exact absurd ((hmem x).2 rfl) (by simp)
    | [y], _, hmem => rw [(hmem y).1 (by simp)]
    | y :: z :: l, hnd, hmem =>
      have h1 := (hmem y).1 (by simp)
      have h2 := (hmem z).1 (by simp)
      rw [h1, h2] at hnd
      simp at hnd
  rcases hs with rfl | rfl
  swap
  · exact absurd rfl (hnm 4)
  have hp : ∀ id, id ∈ path ↔ id = 4 ∨ id = 5 := fun id => (hpath id).trans layered_region
  have hin : sub.inputs = ["c[1]"] := by
    refine hone _ _ c2 fun y => (c3 y).trans ⟨?_, ?_⟩
    · rintro ⟨id, hid, n, hn, r, hr, he, rfl⟩
      rcases (hp id).1 hid with rfl | rfl
      · obtain rfl : caseNode 4 "d" 6 [.attr (.node 3) (.idx 1)] = n := Option.some.inj hn
        obtain rfl : r = .attr (.node 3) (.idx 1) := by simpa [Node.allArgs, caseNode] using hr
        rfl
      · obtain rfl : caseNode 5 "e" 7 [.node 4] = n := Option.some.inj hn
        obtain rfl : r = .node 4 := by simpa [Node.allArgs, caseNode] using hr
        simp [externalRef, Ref.unwrap, hp] at he
    · rintro rfl
      exact ⟨4, (hp 4).2 (Or.inl rfl), _, rfl, .attr (.node 3) (.idx 1), by decide, by simp [externalRef, Ref.unwrap, hp], rfl⟩
  have hout : sub.outputs = [.node 5] := by
    refine hone _ _ c5 fun y => (c6 y).trans ⟨?_, ?_⟩
    · rintro (⟨hy, id, hid, hu⟩ | ⟨id, hid, rfl, m, hm, hu⟩)
      · simp only [layered, List.mem_cons, List.not_mem_nil, or_false] at hy
        rcases hy with rfl | rfl
        · rfl
        · simp only [Ref.unwrap, Ref.node.injEq] at hu
          subst hu
          simp [hp] at hid
      · have := layered_uses hu
        rcases (hp id).1 hid with rfl | rfl
        · exact absurd ((hp m).2 (by omega)) hm
        · omega
    · rintro rfl
      exact Or.inl ⟨by decide, 5, (hp 5).2 (Or.inr rfl), rfl⟩
  have hap1 : ∀ id, id ∈ path → ∃ n, layered.find? id = some n ∧ sub.find? id = some (liftNode layered.nameOf path n) := fun id hid => find_lift c4 hid
  rw [hout] at hvs
  obtain ⟨v, rfl⟩ : ∃ v, vs = [v] := List.length_eq_one_iff.1 hvs.length_eq.symm
  have hv := (List.forall₂_cons.1 hvs).1
  obtain ⟨n, us, e1, e2, e3⟩ := val_node hv
  obtain ⟨n5, g1, g2⟩ := hap1 5 ((hp 5).2 (Or.inr rfl))
  obtain rfl := Option.some.inj (g1.symm.trans (rfl : layered.find? 5 = some (caseNode 5 "e" 7 [.node 4])))
  obtain rfl := Option.some.inj (g2.symm.trans e1)
  rw [liftNode_allArgs] at e2
  have l4 : (caseNode 5 "e" 7 [.node 4]).allArgs.map (lift layered.nameOf path) = [.node 4] := by
    show [lift layered.nameOf path (.node 4)] = _
    rw [lift_node ((hp 4).2 (Or.inl rfl))]
  rw [l4] at e2
  obtain ⟨u, rfl⟩ : ∃ v, us = [v] := List.length_eq_one_iff.1 e2.length_eq.symm
  obtain ⟨n, us, f1, f2, f3⟩ := val_node (List.forall₂_cons.1 e2).1
  obtain ⟨n4, g3, g4⟩ := hap1 4 ((hp 4).2 (Or.inl rfl))
  obtain rfl := Option.some.inj (g3.symm.trans (rfl : layered.find? 4 = some (caseNode 4 "d" 6 [.attr (.node 3) (.idx 1)])))
  obtain rfl := Option.some.inj (g4.symm.trans f1)
  rw [liftNode_allArgs] at f2
  have l3 : (caseNode 4 "d" 6 [.attr (.node 3) (.idx 1)]).allArgs.map (lift layered.nameOf path) = [.input "c[1]"] := by
    show [lift layered.nameOf path (.attr (.node 3) (.idx 1))] = _
    rw [lift_external (by simp [externalRef, Ref.unwrap, hp])]
    rfl
  rw [l3] at f2
  obtain ⟨u', rfl⟩ : ∃ v, us = [v] := List.length_eq_one_iff.1 f2.length_eq.symm
  have hb := val_unique (List.forall₂_cons.1 f2).1 (Den.input (by rw [hin]; simp) : Val layerSem sub () 0 b (.input "c[1]") (b "c[1]"))
  subst hb
  have f3' : (b "c[1]").map (· + 1) = u := by simpa [layerSem, liftNode, caseNode] using f3
  have e3' : u.map (· * 2) = v := by simpa [layerSem, liftNode, caseNode] using e3
  refine ⟨fun _ => ?_, fun h => absurd rfl h⟩
  rw [hin]
  simp only [List.map_cons, List.map_nil, List.flatten_cons, List.flatten_nil, List.append_nil]
  rw [← e3', ← f3', List.map_map]
  rfl

/-- The values for the input `[10]`. -/
theorem layered_val : Val layerSem layered () 0 (fun _ => [10]) (.node 9) [22] ∧ Val layerSem layered () 0 (fun _ => [10]) (.node 1) [11] ∧
    Val layerSem layered () 0 (fun _ => [10]) (.node 2) [22] ∧ Val layerSem layered () 0 (fun _ => [10]) (.node 3) [22, 10] ∧
    Val layerSem layered () 0 (fun _ => [10]) (.node 4) [11] ∧ Val layerSem layered () 0 (fun _ => [10]) (.node 5) [22] := by
  have hx : Val layerSem layered () 0 (fun _ => [10]) (.input "x") [10] := .input (by decide)
  have h1 : Val layerSem layered () 0 (fun _ => [10]) (.node 1) [11] := node_val (vs := [[10]]) rfl (.cons hx .nil) rfl
  have h2 : Val layerSem layered () 0 (fun _ => [10]) (.node 2) [22] := node_val (vs := [[11]]) rfl (.cons h1 .nil) rfl
  have h3 : Val layerSem layered () 0 (fun _ => [10]) (.node 3) [22, 10] := node_val (vs := [[22], [10]]) rfl (.cons h2 (.cons hx .nil)) rfl
  have h31 : Val layerSem layered () 0 (fun _ => [10]) (.attr (.node 3) (.idx 1)) [10] := Den.attr (d := [[22, 10]]) h3 (List.Forall₂.cons rfl .nil)
  have h4 : Val layerSem layered () 0 (fun _ => [10]) (.node 4) [11] := node_val (vs := [[10]]) rfl (.cons h31 .nil) rfl
  exact ⟨node_val (vs := [[10]]) rfl (.cons hx .nil) rfl, h1, h2, h3, h4, node_val (vs := [[11]]) rfl (.cons h4 .nil) rfl⟩

theorem layered_outlets {ls : List ℕ} (h : Outlets layered 9 ls) : ls = [2] := by
  obtain ⟨h1, h2⟩ := h
  have hmem : ∀ id, id ∈ ls ↔ id = 2 := by
    intro id
    rw [h2 id]
    constructor
    · rintro ⟨_, hin, hout⟩
      rcases (layered_inside hin).2 with rfl | rfl
      · rcases hout with ⟨m, _, hm, hu⟩ | ⟨r, hr, hu⟩
        · have := layered_uses hu
          obtain rfl : m = 2 := by omega
          exact absurd (Inside.child (f := 9) (n := caseNode 2 "b" 2 [.node 1] (some 9)) (by decide) rfl) hm
        · simp only [layered, List.mem_cons, List.not_mem_nil, or_false] at hr
          rcases hr with rfl | rfl <;> simp [Ref.unwrap] at hu
      · rfl
    · rintro rfl
      refine ⟨⟨caseNode 2 "b" 2 [.node 1] (some 9), by decide, rfl, by decide⟩, .child (n := caseNode 2 "b" 2 [.node 1] (some 9)) (by decide) rfl, Or.inl ⟨3, ⟨caseNode 3 "c" 4 [.node 2, .input "x"], by decide, rfl, by decide⟩,
        fun h => by have := layered_inside h; omega, ⟨caseNode 3 "c" 4 [.node 2, .input "x"], by decide, rfl, .node 2, Or.inl (by decide), rfl⟩⟩⟩
  have hnd : ls.Nodup := h1.nodup (by decide)
  match ls, hnd, hmem with
  | [], _, hmem => exact absurd ((hmem 2).2 rfl) (by simp)
  | [y], _, hmem => rw [(hmem y).1 (by simp)]
  | y :: z :: l, hnd, hmem =>
    have h1 := (hmem y).1 (by simp)
    have h2 := (hmem z).1 (by simp)
    rw [h1, h2] at hnd
    simp at hnd

/-- The graph of the path. -/
def layeredPath : Graph where
  nodes := [caseNode 5 "e" 7 [.node 4], caseNode 4 "d" 6 [.input "c[1]"]]
  inputs := ["c[1]"]
  outputs := [.node 5]

/-- The names after the first two parts. -/
def layeredCtx : List (String × Ref) := [("x", .input "x"), ("f", .node 0), ("b", .node 0), ("c", .node 1)]

/-- After the first two parts. -/
def layeredTwo : Rewired where
  graph := { nodes := [caseNode 0 "f" 3 [.input "x"], caseNode 1 "c" 4 [.node 0, .input "x"]], inputs := ["x"] }
  ctx := layeredCtx

/-- The new graph before delegates are attached. -/
def layeredThree (k : ℕ) : Graph where
  nodes := [caseNode 0 "f" 3 [.input "x"], caseNode 1 "c" 4 [.node 0, .input "x"], caseNode 2 "subgraph_0" k [.attr (.node 1) (.idx 1)]]
  inputs := ["x"]

/-- With outputs. -/
def layeredOut (k : ℕ) : Graph := { layeredThree (k + 8) with outputs := [.node 2, .node 1] }

/-- With the first delegate. -/
def layeredOne (k : ℕ) : Graph where
  nodes := [caseNode 0 "f" 3 [.input "x"], caseNode 1 "c" 4 [.node 0, .input "x"],
    { caseNode 2 "subgraph_0" (k + 8) [.attr (.node 1) (.idx 1)] with delegate := some someDelegate }]
  inputs := ["x"]
  outputs := [.node 2, .node 1]

theorem layered_reduced (parseInt : String → Option Int) (hp : ParsesInts parseInt) (modOf : Graph → ℕ) (hm : ∀ g, 8 ≤ modOf g) :
    reduceResolution layered id parseInt modOf layerSpecs = .ok (layeredReduced (modOf layeredPath), [modOf layeredPath, 4]) := by
  have h1 : parseInt "1" = some 1 := hp 1
  have h2 : resolveInput parseInt layeredCtx "c[1]" = .ok (.attr (.node 1) (.idx 1)) := by
    have e : resolveInput parseInt layeredCtx "c[1]" = (match parseInt "1" with
      | some i => .ok (.attr (.node 1) (.idx i))
      | none => if "1" ∈ ownAttributes then .error .typeError else .ok (.attr (.node 1) (.key "1"))) := rfl
    rw [e, h1]
  have hs : layered.rewire parseInt modOf layeredTwo (.sub layeredPath) =
      .ok { graph := layeredThree (modOf layeredPath), ctx := layeredCtx ++ [("e", .node 2)], subs := 1 } := by
    unfold Graph.rewire
    have hi : layeredPath.inputs = ["c[1]"] := rfl
    have hc : layeredTwo.ctx = layeredCtx := rfl
    simp only [hi, hc, List.mapM_cons, List.mapM_nil, h2]
    rfl
  obtain ⟨k, hk⟩ : ∃ k, modOf layeredPath = k + 8 := ⟨modOf layeredPath - 8, by have := hm layeredPath; omega⟩
  unfold reduceResolution
  show (do
    let s ← (layered.rewire parseInt modOf layeredTwo (.sub layeredPath) >>= fun s => pure s)
    let outs ← layered.outputs.mapM (layered.rewireOutput s.graph s.ctx)
    let new ← ([modOf layeredPath, 4].zip [someDelegate, { fn := 8, contexts := [0] }]).foldlM (fun (new : Graph) (p : ℕ × Delegate) => new.attach p.1 p.2) { s.graph with outputs := outs }
    .ok (new, [modOf layeredPath, 4])) = _
  rw [hs, hk]
  have hr : (layeredOut k).nodeRef (k + 8) = .ok 2 := by simp [Graph.nodeRef, layeredOut, layeredThree, caseNode]
  have ha : (layeredOut k).attach (k + 8) someDelegate = .ok (layeredOne k) := by
    unfold Graph.attach
    rw [hr]
    rfl
  show (do
    let new ← ((layeredOut k).attach (k + 8) someDelegate >>= fun new => new.attach 4 { fn := 8, contexts := [0] } >>= fun new => pure new)
    Except.ok (new, [k + 8, 4])) = _
  rw [ha]
  rfl

/-- The graph `layered` with its specifications meets every hypothesis, and is reduced to `layeredReduced`. -/
example : ∃ modOf, FreshModules layered modOf ∧ RegionModules layerSem layered () 0 modOf layerSpecs ∧ Tidy layered ∧ Nested layered ∧
    (∀ n, ¬ Relation.TransGen (Uses layered) n n) ∧ ParsesInts String.toInt? ∧ SimpleParts String.toInt? layered ∧ WholeOutputs layered layerSpecs ∧
    Unnested layered layerSpecs ∧ (∀ n ∈ layered.nodes, ∃ v, Val layerSem layered () 0 (fun _ => [10]) (.node n.id) v) ∧
    FoldsCompute layerSem layered () 0 (fun _ => [10]) ∧
    (∀ s ∈ layerSpecs, ∀ t, s.region = .module t → ∀ n ∈ layered.nodes, ∀ m ∈ layered.nodes, n.target = t → m.target = t → n = m) ∧
    ∃ k, reduceResolution layered id String.toInt? modOf layerSpecs = .ok (layeredReduced k, [k, 4]) := by
  obtain ⟨modOf, hfr, hbig⟩ := layered_fresh
  refine ⟨modOf, hfr, layered_modules hbig, layered_tidy, layered_nested, layered_acyclic, parsesInts_toInt, layered_simple, layered_whole, layered_unnested,
    ?_, ?_, ?_, ?_⟩
  · obtain ⟨h9, h1, h2, h3, h4, h5⟩ := layered_val
    intro n hn
    rcases layered_cases hn with rfl | rfl | rfl | rfl | rfl | rfl
    exacts [⟨_, h9⟩, ⟨_, h1⟩, ⟨_, h2⟩, ⟨_, h3⟩, ⟨_, h4⟩, ⟨_, h5⟩]
  · intro f hf ls vs hl hvs
    obtain rfl : f = 9 := by simpa [layered] using hf
    obtain rfl := layered_outlets hl
    obtain ⟨v, rfl⟩ : ∃ v, vs = [v] := List.length_eq_one_iff.1 hvs.length_eq.symm
    have := val_unique (List.forall₂_cons.1 hvs).1 layered_val.2.2.1
    subst this
    exact ⟨[22], layered_val.1, fun _ => rfl, fun h => absurd rfl h⟩
  · intro s hs t ht n hn m hm h1 h2
    simp only [layerSpecs, List.mem_cons, List.not_mem_nil, or_false] at hs
    rcases hs with rfl | rfl
    · simp at ht
    · simp only [Region.module.injEq] at ht
      subst ht
      rcases layered_cases hn with rfl | rfl | rfl | rfl | rfl | rfl <;> simp [caseNode] at h1
      rcases layered_cases hm with rfl | rfl | rfl | rfl | rfl | rfl <;> simp [caseNode] at h2
      rfl
  · exact ⟨_, layered_reduced _ parsesInts_toInt modOf hbig⟩

/-- Two nodes that take the same argument and are used by the same node, and a third that takes both. -/
def forked : Graph where
  inputs := ["x"]
  nodes := [caseNode 0 "r" 0 [.input "x"], caseNode 1 "a" 1 [.node 0], caseNode 2 "b" 2 [.node 0], caseNode 3 "c" 3 [.node 1, .node 2]]
  outputs := [.node 3]

/-- The two are accepted as siblings; one of them and the third, or the first, are not. -/
example : forked.UniqueIds ∧ forked.siblings [1, 2] = .ok () ∧ forked.siblings [1, 3] = .error .valueError ∧
    forked.siblings [0, 2] = .error .valueError := by
  refine ⟨by decide, rfl, rfl, rfl⟩

/-- A reduction with them succeeds. -/
example : (reduceResolution forked id String.toInt? (fun _ => 100) [⟨.group [1, 2], someDelegate⟩]).toOption.isSome = true := by
  decide +kernel

end FF.Orch
