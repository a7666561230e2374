import Mathlib.Data.List.Forall2
import Mathlib.Data.List.Pairwise
import Mathlib.Data.List.Nodup
import Mathlib.Logic.Function.Basic
import Mathlib.Order.Basic
import Mathlib.Order.Defs.LinearOrder
import Mathlib.Data.Nat.Init
import Mathlib.Algebra.Order.Group.Nat

/-!
# Removing quantize and dequantize nodes from an exported graph

Models `export/stages/passes.py:24-71` (`AnnotateFFQuantSpecs`).
-/

namespace FF.Annotate

/-! ## Model -/

/-- What a node does. A quantize node carries its quantization spec (`_ff_quantizer_spec`, modelled in `Verif.Export.Encodings`). -/
inductive Kind
  | quantize (spec : ℕ)
  | dequantize
  | other (op : ℕ)
  deriving DecidableEq

/-- `passes.py:144-152` `_ff_quantization_nodes`: the nodes that are removed. -/
def Kind.removed : Kind → Bool
  | .quantize _ => true
  | .dequantize => true
  | .other _ => false

/-- A node of a `torch.fx` graph: `args` are the nodes it uses. -/
structure Node where
  id : ℕ
  kind : Kind
  args : List ℕ
  deriving DecidableEq

/-- A graph and the annotations (`FF_QUANTIZATION_SPEC` in `meta`). -/
structure Graph where
  nodes : List Node
  spec : ℕ → Option ℕ

/-- Exceptions. -/
inductive Err
  | indexError
  | notInGraph
  deriving DecidableEq

/-- `Node.replace_all_uses_with(b)` followed by `Graph.erase_node`. -/
def bypass (ns : List Node) (i b : ℕ) : List Node :=
  (ns.filter (fun n => n.id != i)).map (fun n => { n with args := n.args.map (fun a => if a = i then b else a) })

/-- `passes.py:46-69`: the body of the loop, for the node named `i`. -/
def step (g : Graph) (i : ℕ) : Except Err Graph :=
  match g.nodes.find? (fun n => n.id == i) with
  | none => .error .notInGraph
  | some n =>
    match n.args with
    | [] => .error .indexError
    | b :: _ =>
      match n.kind with
      | .quantize s => .ok { nodes := bypass g.nodes i b, spec := Function.update g.spec b (some s) }
      | .dequantize => .ok { g with nodes := bypass g.nodes i b }
      | .other _ => .ok g

/-- `passes.py:43-71`: the pass. The nodes to visit are listed before the first edit. -/
def annotate (g : Graph) : Except Err Graph :=
  ((g.nodes.filter (fun n => n.kind.removed)).map Node.id).foldlM step g

/-! ## Specification -/

/-- The tensor behind `x`: itself, or what is behind the input of the quantize or dequantize node `x`. -/
inductive Behind (g : Graph) : ℕ → ℕ → Prop
  | self (x : ℕ) (h : ∀ n ∈ g.nodes, n.id = x → n.kind.removed = false) : Behind g x x
  | through (n : Node) (b : ℕ) (l : List ℕ) (r : ℕ) (hn : n ∈ g.nodes) (hk : n.kind.removed = true) (ha : n.args = b :: l)
      (h : Behind g b r) : Behind g n.id r

/-- The graph is in graph order: ids number the nodes in their order, nodes use earlier nodes only, and quantize and dequantize nodes
have an input. -/
structure Ordered (g : Graph) : Prop where
  sorted : (g.nodes.map Node.id).Pairwise (· < ·)
  uses : ∀ n ∈ g.nodes, ∀ a ∈ n.args, a < n.id
  input : ∀ n ∈ g.nodes, n.kind.removed = true → n.args ≠ []

/-! ## Lemmas -/

theorem same_node {g : Graph} (ho : Ordered g) {n m : Node} (hn : n ∈ g.nodes) (hm : m ∈ g.nodes) (h : n.id = m.id) : n = m :=
  List.inj_on_of_nodup_map (ho.sorted.imp (fun h => Nat.ne_of_lt h)) hn hm h

theorem behind_unique {g : Graph} (ho : Ordered g) {x r r' : ℕ} (h : Behind g x r) (h' : Behind g x r') : r = r' := by
  induction h with
  | self x hx =>
    cases h' with
    | self _ _ => rfl
    | through n b l _ hn hk ha h => rw [hx n hn rfl] at hk; cases hk
  | through n b l r hn hk ha h ih =>
    generalize hx : n.id = x at h'
    cases h' with
    | self _ hs => rw [hs n hn hx] at hk; cases hk
    | through m b' l' _ hm hk' ha' h' =>
      have := same_node ho hn hm hx
      subst this
      rw [ha] at ha'
      cases ha'
      exact ih h'

theorem behind_le {g : Graph} (ho : Ordered g) {x r : ℕ} (h : Behind g x r) : r ≤ x := by
  induction h with
  | self => exact le_refl _
  | through n b l r hn hk ha h ih => exact le_trans ih (ho.uses n hn b (by simp [ha])).le

/-- The state of the pass after the nodes `done`: uses are redirected by `ρ`. -/
structure Inv (g : Graph) (ρ : ℕ → ℕ) (done : List ℕ) (h : Graph) : Prop where
  nodes : h.nodes = (g.nodes.filter (fun n => n.id ∉ done)).map (fun n => { n with args := n.args.map ρ })
  behind : ∀ x r, Behind g (ρ x) r → Behind g x r
  le : ∀ x, ρ x ≤ x
  fresh : ∀ x, ρ x ∉ done

/-- The annotations after a node of the kind has been visited. -/
def specAfter (k : Kind) (sp : ℕ → Option ℕ) (b : ℕ) : ℕ → Option ℕ :=
  match k with
  | .quantize s => Function.update sp b (some s)
  | _ => sp

theorem step_inv {g h : Graph} (ho : Ordered g) {ρ : ℕ → ℕ} {done : List ℕ} (hi : Inv g ρ done h) {n : Node} (hn : n ∈ g.nodes)
    (hk : n.kind.removed = true) (hd : n.id ∉ done) :
    ∃ b l, n.args = b :: l
      ∧ step h n.id = .ok { nodes := bypass h.nodes n.id (ρ b), spec := specAfter n.kind h.spec (ρ b) }
      ∧ Inv g (fun x => if ρ x = n.id then ρ b else ρ x) (done ++ [n.id]) { nodes := bypass h.nodes n.id (ρ b), spec := specAfter n.kind h.spec (ρ b) } := by
  cases ha : n.args with
  | nil => exact absurd ha (ho.input n hn hk)
  | cons b l =>
    refine ⟨b, l, rfl, ?_, ?_⟩
    · have hfind : h.nodes.find? (fun m => m.id == n.id) = some { n with args := n.args.map ρ } := by
        have hmem : ({ n with args := n.args.map ρ } : Node) ∈ h.nodes := by
          rw [hi.nodes, List.mem_map]
          exact ⟨n, List.mem_filter.2 ⟨hn, by simpa using hd⟩, rfl⟩
        cases hf : h.nodes.find? (fun m => m.id == n.id) with
        | none =>
          rw [List.find?_eq_none] at hf
          exact absurd (by simp) (hf _ hmem)
        | some m =>
          have hm := List.mem_of_find?_eq_some hf
          have he := List.find?_some hf
          rw [hi.nodes, List.mem_map] at hm
          obtain ⟨m', hm', rfl⟩ := hm
          have : m' = n := same_node ho (List.mem_filter.1 hm').1 hn (by simpa using he)
          rw [this]
      unfold step
      rw [hfind]
      simp only [ha, List.map_cons]
      cases hkk : n.kind with
      | quantize s => rfl
      | dequantize => rfl
      | other op => rw [hkk] at hk; cases hk
    · refine ⟨?_, ?_, ?_, ?_⟩
      · simp only [bypass, hi.nodes, List.filter_map, List.map_map, List.filter_filter]
        congr 1
        · funext m
          simp [Function.comp_def]
        · apply List.filter_congr
          intro m _
          simp only [Function.comp_apply, List.mem_append, List.mem_singleton, not_or]
          by_cases h1 : m.id ∈ done <;> by_cases h2 : m.id = n.id <;> simp [h1, h2]
      · intro x r
        by_cases hx : ρ x = n.id
        · rw [if_pos hx]
          intro hb
          apply hi.behind
          rw [hx]
          exact Behind.through n b l r hn hk ha (hi.behind _ _ hb)
        · rw [if_neg hx]
          exact hi.behind x r
      · intro x
        by_cases hx : ρ x = n.id
        · rw [if_pos hx]
          have h1 := hi.le x
          have h2 := hi.le b
          have h3 := ho.uses n hn b (by simp [ha])
          omega
        · rw [if_neg hx]; exact hi.le x
      · intro x
        simp only [List.mem_append, List.mem_singleton, not_or]
        by_cases hx : ρ x = n.id
        · rw [if_pos hx]
          have h2 := hi.le b
          have h3 := ho.uses n hn b (by simp [ha])
          exact ⟨hi.fresh b, by omega⟩
        · rw [if_neg hx]; exact ⟨hi.fresh x, hx⟩

/-- What the annotations are after the removed nodes in `ns` have been visited. -/
def lastSpec (P : Node → ℕ → Prop) (ns : List Node) (before : ℕ → Option ℕ) (after : ℕ → Option ℕ) : Prop :=
  ∀ x, (∀ pre n post s, ns = pre ++ n :: post → n.kind = .quantize s → P n x →
          (∀ m ∈ post, ∀ s', m.kind = .quantize s' → ¬ P m x) → after x = some s)
    ∧ ((∀ n ∈ ns, ∀ s, n.kind = .quantize s → ¬ P n x) → after x = before x)

theorem lastSpec_cons {P : Node → ℕ → Prop} {n : Node} {ns : List Node} {s0 s1 s2 : ℕ → Option ℕ}
    (h : lastSpec P ns s1 s2)
    (h1 : ∀ x, (∀ s, n.kind = .quantize s → P n x → s1 x = some s) ∧ ((∀ s, n.kind = .quantize s → ¬ P n x) → s1 x = s0 x)) :
    lastSpec P (n :: ns) s0 s2 := by
  intro x
  obtain ⟨ha, hb⟩ := h x
  refine ⟨?_, ?_⟩
  · intro pre m post s he hk hp hpost
    cases pre with
    | nil =>
      simp only [List.nil_append, List.cons.injEq] at he
      obtain ⟨rfl, rfl⟩ := he
      rw [hb hpost, (h1 x).1 s hk hp]
    | cons a pre =>
      simp only [List.cons_append, List.cons.injEq] at he
      exact ha pre m post s he.2 hk hp hpost
  · intro hno
    rw [hb (fun m hm => hno m (by simp [hm])), (h1 x).2 (hno n (by simp))]

theorem run_inv {g : Graph} (ho : Ordered g) (rest : List Node) (donen : List Node)
    (hall : g.nodes.filter (fun n => n.kind.removed) = donen ++ rest) {ρ : ℕ → ℕ} {h : Graph}
    (hi : Inv g ρ (donen.map Node.id) h) :
    ∃ ρ' g', (rest.map Node.id).foldlM step h = .ok g'
      ∧ Inv g ρ' ((g.nodes.filter (fun n => n.kind.removed)).map Node.id) g'
      ∧ lastSpec (fun n x => Behind g n.id x) rest h.spec g'.spec := by
  induction rest generalizing donen ρ h with
  | nil =>
    refine ⟨ρ, h, rfl, ?_, ?_⟩
    · rw [hall, List.append_nil]; exact hi
    · intro x
      refine ⟨?_, fun _ => rfl⟩
      intro pre n post s he
      simp at he
  | cons n rest ih =>
    have hmem : n ∈ g.nodes.filter (fun n => n.kind.removed) := by rw [hall]; simp
    obtain ⟨hn, hk⟩ := List.mem_filter.1 hmem
    have hsorted : ((donen ++ n :: rest).map Node.id).Pairwise (· < ·) := by
      rw [← hall]
      exact List.Pairwise.sublist (List.Sublist.map _ List.filter_sublist) ho.sorted
    have hd : n.id ∉ donen.map Node.id := by
      intro hc
      rw [List.map_append, List.map_cons, List.pairwise_append] at hsorted
      exact absurd (hsorted.2.2 _ hc _ (List.mem_cons_self ..)) (lt_irrefl _)
    obtain ⟨b, l, ha, hs, hi'⟩ := step_inv ho hi hn hk hd
    obtain ⟨ρ', g', hr, hinv, hlast⟩ := ih (donen ++ [n]) (by rw [hall]; simp) (by simpa using hi')
    refine ⟨ρ', g', ?_, hinv, ?_⟩
    · rw [List.map_cons, List.foldlM_cons, hs]
      exact hr
    · apply lastSpec_cons hlast
      intro x
      -- the input of `n` is redirected to what is behind it
      have hbn : b < n.id := ho.uses n hn b (by simp [ha])
      have hself : Behind g (ρ b) (ρ b) := by
        apply Behind.self
        intro m hm hme
        by_contra hmk
        have hmk : m.kind.removed = true := by simpa using hmk
        have hmm : m ∈ donen ++ n :: rest := by rw [← hall]; exact List.mem_filter.2 ⟨hm, hmk⟩
        have hlt : m.id < n.id := by rw [hme]; exact lt_of_le_of_lt (hi.le b) hbn
        rw [List.mem_append] at hmm
        rcases hmm with hmm | hmm
        · exact hi.fresh b (by rw [← hme]; exact List.mem_map.2 ⟨m, hmm, rfl⟩)
        · rw [List.map_append, List.map_cons, List.pairwise_append, List.pairwise_cons] at hsorted
          rw [List.mem_cons] at hmm
          rcases hmm with rfl | hmm
          · exact lt_irrefl _ hlt
          · have := hsorted.2.1.1 m.id (List.mem_map.2 ⟨m, hmm, rfl⟩)
            omega
      have hbeh : Behind g n.id (ρ b) := Behind.through n b l _ hn hk ha (hi.behind _ _ hself)
      constructor
      · intro s hks hp
        have hx : x = ρ b := behind_unique ho hp hbeh
        simp [hks, hx, specAfter]
      · intro hno
        cases hkk : n.kind with
        | quantize s =>
          have hx : x ≠ ρ b := fun e => hno s hkk (e ▸ hbeh)
          simp [specAfter, Function.update_of_ne hx]
        | dequantize => rfl
        | other op => rfl

theorem final_inv {g : Graph} (ho : Ordered g) :
    ∃ ρ g', annotate g = .ok g' ∧ Inv g ρ ((g.nodes.filter (fun n => n.kind.removed)).map Node.id) g'
      ∧ lastSpec (fun n x => Behind g n.id x) (g.nodes.filter (fun n => n.kind.removed)) g.spec g'.spec := by
  apply run_inv ho _ [] rfl (ρ := id)
  refine ⟨?_, fun _ _ h => h, fun _ => le_refl _, fun _ => by simp⟩
  simp

theorem kept_iff {g : Graph} (ho : Ordered g) {n : Node} (hn : n ∈ g.nodes) :
    n.id ∉ (g.nodes.filter (fun n => n.kind.removed)).map Node.id ↔ n.kind.removed = false := by
  rw [List.mem_map]
  constructor
  · intro h
    by_contra hk
    exact h ⟨n, List.mem_filter.2 ⟨hn, by simpa using hk⟩, rfl⟩
  · rintro h ⟨m, hm, e⟩
    obtain ⟨hm1, hm2⟩ := List.mem_filter.1 hm
    rw [same_node ho hm1 hn e] at hm2
    rw [hm2] at h
    cases h

/-! ## Properties -/

/-- **C71.** The pass does not fail, removes all quantize and dequantize nodes, keeps all other nodes in their order, and every use of a quantize or dequantize node becomes a
use of the tensor behind it: the remaining graph is the original graph with quantization taken to be the identity. -/
theorem annotate_removes (g : Graph) (ho : Ordered g) :
    ∃ g', annotate g = .ok g'
      ∧ List.Forall₂ (fun n n' => n'.id = n.id ∧ n'.kind = n.kind ∧ List.Forall₂ (Behind g) n.args n'.args)
          (g.nodes.filter (fun n => !n.kind.removed)) g'.nodes
      ∧ (∀ n' ∈ g'.nodes, (∀ s, n'.kind ≠ .quantize s) ∧ n'.kind ≠ .dequantize)
      ∧ ∀ n ∈ g.nodes, ∀ op, n.kind = .other op → ∃ n' ∈ g'.nodes, n'.id = n.id ∧ n'.kind = .other op := by
  obtain ⟨ρ, g', hr, hi, -⟩ := final_inv ho
  suffices hmain : List.Forall₂ (fun n n' => n'.id = n.id ∧ n'.kind = n.kind ∧ List.Forall₂ (Behind g) n.args n'.args)
          (g.nodes.filter (fun n => !n.kind.removed)) g'.nodes by
    refine ⟨g', hr, hmain, ?_, ?_⟩
    · intro n' hn'
      obtain ⟨i, hi', rfl⟩ := List.mem_iff_getElem.1 hn'
      have hlt : i < (g.nodes.filter (fun n => !n.kind.removed)).length := by rw [hmain.length_eq]; exact hi'
      have hk := (hmain.get hlt hi').2.1
      have hmem := List.getElem_mem hlt
      rw [List.mem_filter] at hmem
      simp only [List.get_eq_getElem] at hk
      rw [hk]
      have h2 := hmem.2
      constructor
      · intro s he
        rw [he] at h2
        cases h2
      · intro he
        rw [he] at h2
        cases h2
    · intro n hn op hk
      have hmem : n ∈ g.nodes.filter (fun n => !n.kind.removed) := List.mem_filter.2 ⟨hn, by rw [hk]; rfl⟩
      obtain ⟨i, hi', he⟩ := List.mem_iff_getElem.1 hmem
      have hlt : i < g'.nodes.length := by rw [← hmain.length_eq]; exact hi'
      have hh := hmain.get hi' hlt
      simp only [List.get_eq_getElem, he] at hh
      exact ⟨_, List.getElem_mem hlt, hh.1, by rw [hh.2.1, hk]⟩
  rw [hi.nodes]
  have : g.nodes.filter (fun n => n.id ∉ (g.nodes.filter (fun n => n.kind.removed)).map Node.id)
      = g.nodes.filter (fun n => !n.kind.removed) := by
    apply List.filter_congr
    intro n hn
    have := kept_iff ho hn
    cases hk : n.kind.removed <;> simp_all
  rw [this, List.forall₂_map_right_iff, List.forall₂_same]
  intro n _
  refine ⟨rfl, rfl, ?_⟩
  rw [List.forall₂_map_right_iff, List.forall₂_same]
  intro a _
  apply hi.behind
  apply Behind.self
  intro m hm hme
  rw [← kept_iff ho hm, hme]
  exact hi.fresh a

/-- **C71.** Every tensor that is quantized is annotated with the spec of the last quantize node (in graph order) that it is behind,
and no other annotation is changed. -/
theorem annotate_spec (g g' : Graph) (ho : Ordered g) (h : annotate g = .ok g') (x : ℕ) :
    (∀ pre n post s, g.nodes = pre ++ n :: post → n.kind = .quantize s → Behind g n.id x →
        (∀ m ∈ post, ∀ s', m.kind = .quantize s' → ¬ Behind g m.id x) → g'.spec x = some s)
    ∧ ((∀ n ∈ g.nodes, ∀ s, n.kind = .quantize s → ¬ Behind g n.id x) → g'.spec x = g.spec x) := by
  obtain ⟨ρ, g'', hr, -, hl⟩ := final_inv ho
  rw [hr] at h
  cases h
  obtain ⟨h1, h2⟩ := hl x
  constructor
  · intro pre n post s he hk hb hpost
    refine h1 (pre.filter (fun n => n.kind.removed)) n (post.filter (fun n => n.kind.removed)) s ?_ hk hb ?_
    · rw [he, List.filter_append, List.filter_cons_of_pos (by rw [hk]; rfl)]
    · intro m hm
      exact hpost m (List.mem_filter.1 hm).1
  · intro hno
    exact h2 (fun n hn => hno n (List.mem_filter.1 hn).1)

/-- **C71, deviation.** A tensor with two quantize nodes of different specs (the same activation quantized by the input quantizers
of two layers) keeps only the second; both uses become uses of the tensor itself. -/
theorem requantization_keeps_last (s t : ℕ) (sp : ℕ → Option ℕ) :
    ∃ g', annotate { nodes := [⟨0, .other 0, []⟩, ⟨1, .quantize s, [0]⟩, ⟨2, .other 1, [1]⟩, ⟨3, .quantize t, [0]⟩, ⟨4, .other 1, [3]⟩]
                     spec := sp } = .ok g'
      ∧ g'.nodes = [⟨0, .other 0, []⟩, ⟨2, .other 1, [0]⟩, ⟨4, .other 1, [0]⟩] ∧ g'.spec 0 = some t := by
  refine ⟨_, rfl, rfl, ?_⟩
  simp

/-! ## Concrete cases -/

/-- A quantized linear layer: input 0, weight 1, quantize and dequantize both, multiply. -/
def layer : Graph :=
  { nodes := [⟨0, .other 0, []⟩, ⟨1, .other 0, []⟩, ⟨2, .quantize 7, [0]⟩, ⟨3, .dequantize, [2]⟩, ⟨4, .quantize 8, [1]⟩,
      ⟨5, .dequantize, [4]⟩, ⟨6, .other 1, [3, 5]⟩, ⟨7, .quantize 9, [6]⟩, ⟨8, .dequantize, [7]⟩, ⟨9, .other 2, [8]⟩]
    spec := fun _ => none }

example : Ordered layer where
  sorted := by decide
  uses := by decide
  input := by decide
example : (annotate layer).map (fun g => (g.nodes, (List.range 10).map g.spec))
    = .ok ([⟨0, .other 0, []⟩, ⟨1, .other 0, []⟩, ⟨6, .other 1, [0, 1]⟩, ⟨9, .other 2, [6]⟩],
      [some 7, some 8, none, none, none, none, some 9, none, none, none]) := by decide +kernel
example : Behind layer 8 6 :=
  .through ⟨8, .dequantize, [7]⟩ 7 [] 6 (by decide) rfl rfl
    (.through ⟨7, .quantize 9, [6]⟩ 6 [] 6 (by decide) rfl rfl (.self 6 (by decide)))

end FF.Annotate
