import Verif.Util.Dict
import Mathlib.Data.List.Induction
import Mathlib.Tactic.ByContra

/-!
# Exporting the modules of a model

Models `export/_io_capture.py` and `export/module_export.py`: recording what modules are called with, and adding the quantization of the
recorded tensors to the encodings of the exported graphs.
-/

namespace FF.ModIO

/-! ## Model -/

/-- A leaf of the arguments or the result of a call: a tensor, with its quantization parameters if it is quantized, or something else
(`None`, a number, a string, …). -/
inductive Leaf (S : Type)
  | tensor (q : Option S)
  | other

/-- Nested tuples, lists and dictionaries. -/
inductive Tree (A : Type)
  | leaf (a : A)
  | node (cs : List (Tree A))

/-- Exceptions. -/
inductive Err
  | typeError
  | runtimeError
  deriving DecidableEq

variable {S A B : Type}

/-- `_io_capture.py:140-167`, `218-225`: the quantization parameters that are recorded for a leaf. -/
def Leaf.setting : Leaf S → Option S
  | .tensor q => q
  | .other => none

mutual

/-- `_io_capture.py:194-230` `_deep_dequantize`: flattens, maps and restores the structure. -/
def Tree.map (f : A → B) : Tree A → Tree B
  | .leaf a => .leaf (f a)
  | .node cs => .node (mapL f cs)

/-- The same for the parts. -/
def mapL (f : A → B) : List (Tree A) → List (Tree B)
  | [] => []
  | t :: ts => t.map f :: mapL f ts

end

mutual

/-- `_io_capture.py:66` `pytree.tree_leaves`. -/
def Tree.leaves : Tree A → List A
  | .leaf a => [a]
  | .node cs => leavesL cs

/-- The same for the parts. -/
def leavesL : List (Tree A) → List A
  | [] => []
  | t :: ts => t.leaves ++ leavesL ts

end

/-- The activation encodings that a schema handler holds. -/
abbrev Encs (S : Type) := List (String × S)

/-- `_export_schemas.py` `add_encoding` for an activation: the first encoding of a name stays. -/
def put (h : Encs S) (n : String) (s : S) : Encs S := if (Dict.get h n).isSome then h else h ++ [(n, s)]

/-- `add_encoding` if the setting is not `None`. A nested setting is no dictionary of parameters: looking up the scale is a `TypeError`
(`_export_schemas.py:39`). -/
def addSetting (h : Encs S) (n : String) : Tree (Option S) → Except Err (Encs S)
  | .leaf none => .ok h
  | .leaf (some s) => .ok (put h n s)
  | .node _ => .error .typeError

/-- `settings.get(name)`, `none` standing for `None`. -/
def lookup (kw : List (String × Tree (Option S))) (n : String) : Option (Tree (Option S)) :=
  match Dict.get kw n with
  | some (.leaf none) => none
  | o => o

/-- `module_export.py:248-283`: the loop over the graph's inputs. -/
def extendInputs (kw : List (String × Tree (Option S))) (pos : List (Tree (Option S))) : ℕ → Encs S → List String → Except Err (Encs S)
  | _, h, [] => .ok h
  | i, h, n :: ns =>
    match lookup kw n with
    | some t => (addSetting h n t).bind fun h => extendInputs kw pos i h ns
    | none =>
      match pos[i]? with
      | some t => (addSetting h n t).bind fun h => extendInputs kw pos (i + 1) h ns
      | none => extendInputs kw pos i h ns

/-- `module_export.py:285-293`: the loop over the graph's outputs. -/
def extendOutputs (h : Encs S) : List (String × Option S) → Encs S
  | [] => h
  | (n, some s) :: l => extendOutputs (put h n s) l
  | (_, none) :: l => extendOutputs h l

/-- What is recorded of the call of a module, and the names in the graph exported from it. -/
structure Rec (S : Type) where
  name : String
  args : List (Tree (Leaf S))
  kwargs : List (String × Tree (Leaf S))
  out : Tree (Leaf S)
  inputs : List String
  outputs : List String
  /-- the encodings that the export itself adds -/
  own : Encs S

/-- `module_export.py:204-298` `maybe_extend_encodings_file`. -/
def extend (h : Encs S) (r : Rec S) : Except Err (Encs S) :=
  (extendInputs (r.kwargs.map fun k => (k.1, k.2.map Leaf.setting)) (r.args.map (Tree.map Leaf.setting)) 0 h r.inputs).map fun h =>
    extendOutputs h (r.outputs.zip (r.out.leaves.map Leaf.setting))

/-- `module_export.py:149-201`: export of the modules one by one. The export of a module clears the handler and adds the encodings in the graph
(`onnx_export_stages.py:186-217`); what is written are the name and the encodings. The handler is cleared afterwards. -/
def exportAll : Encs S → List (Rec S) → Except Err (List (String × Encs S))
  | _, [] => .ok []
  | _, r :: rs => do
    let h := r.own.foldl (fun h e => put h e.1 e.2) []
    let h ← extend h r
    let files ← exportAll [] rs
    pure ((r.name, h) :: files)

/-! ### Recorders -/

/-- Recorder `r` is attached to module `m` or detached; module `m` is called. -/
inductive Op (V : Type)
  | attach (r m : ℕ)
  | detach (r : ℕ)
  | call (m : ℕ) (io : V)

/-- The hooks of all modules, which recorders have a handle, and what they have recorded. -/
structure State (V : Type) where
  hooks : List (ℕ × ℕ)
  handle : ℕ → Bool
  io : ℕ → Option V

variable {V : Type}

/-- Nothing attached. -/
def init : State V := ⟨[], fun _ => false, fun _ => none⟩

/-- `_io_capture.py:73-83` `attach`, `detach` and `:44-67` `__call__`. A removed handle is kept. An error leaves the state as it was. -/
def step (st : State V) : Op V → State V × Option Err
  | .attach r m =>
    if st.handle r then (st, some .runtimeError)
    else ({ st with hooks := st.hooks ++ [(r, m)], handle := fun x => if x = r then true else st.handle x }, none)
  | .detach r => if st.handle r then ({ st with hooks := st.hooks.filter fun h => h.1 ≠ r }, none) else (st, none)
  | .call m v => ({ st with io := fun r => if (r, m) ∈ st.hooks then some v else st.io r }, none)

/-- A sequence of operations. -/
def run (st : State V) (ops : List (Op V)) : State V := ops.foldl (fun st op => (step st op).1) st

/-- `module_export.py:123-147`: what `export_modules` does with recorders for the modules `mods`, numbered from `r` on. First the
model is run without quantization, in a context that detaches the recorders in any case; then again, with the recorders detached afterwards.
`ok₁`, `ok₂`: whether the runs succeed. The calls made in the runs are `calls₁`, `calls₂`. -/
def exportOps (r : ℕ) (mods : List ℕ) (calls₁ calls₂ : List (ℕ × V)) (ok₁ ok₂ : Bool) : List (Op V) :=
  let att := fun r => (mods.zipIdx r).map fun p => Op.attach p.2 p.1
  let det := fun r => (mods.zipIdx r).map fun p => Op.detach p.2
  let calls := fun (l : List (ℕ × V)) => l.map fun c => Op.call c.1 c.2
  att r ++ calls calls₁ ++ det r ++
    if ok₁ then att (r + mods.length) ++ calls calls₂ ++ if ok₂ then det (r + mods.length) else [] else []

/-! ## Specification -/

mutual

/-- The tensors in a structure, in order, each with its quantization parameters if it is quantized. -/
def Tree.tensors : Tree (Leaf S) → List (Option S)
  | .leaf (.tensor q) => [q]
  | .leaf .other => []
  | .node cs => tensorsL cs

/-- The same for the parts. -/
def tensorsL : List (Tree (Leaf S)) → List (Option S)
  | [] => []
  | t :: ts => t.tensors ++ tensorsL ts

end

/-- The inputs of the exported graph that come from keyword arguments: one for each tensor, named after the argument unless nested. -/
inductive KwInputs : List (String × Tree (Leaf S)) → List (String × Option S) → Prop
  | nil : KwInputs [] []
  | tensor {k q ks l} : KwInputs ks l → KwInputs ((k, .leaf (.tensor q)) :: ks) ((k, q) :: l)
  | other {k ks l} : KwInputs ks l → KwInputs ((k, .leaf .other) :: ks) l
  | node {k cs ks l l'} : l.map Prod.snd = tensorsL cs → KwInputs ks l' → KwInputs ((k, .node cs) :: ks) (l ++ l')

/-- The inputs and outputs of the graph exported from a module, each with the quantization of the tensor it stands for: the inputs are the
tensors among the positional arguments, then those among the keyword arguments; the outputs are the tensors in the result. Names are distinct, and
inputs for positional arguments are not named like keyword arguments. -/
structure GraphOf (r : Rec S) (gi go : List (String × Option S)) : Prop where
  inputs : r.inputs = gi.map Prod.fst
  outputs : r.outputs = go.map Prod.fst
  parts : ∃ ps ks, gi = ps ++ ks ∧ ps.map Prod.snd = tensorsL r.args ∧ KwInputs r.kwargs ks ∧
    ∀ p ∈ ps, p.1 ∉ r.kwargs.map Prod.fst
  results : go.map Prod.snd = r.out.tensors
  nodup : (gi.map Prod.fst ++ go.map Prod.fst).Nodup
  kwNodup : (r.kwargs.map Prod.fst).Nodup

/-- The encodings `h'` are `h` and, for names without encoding there, those of the tensors in `g`. -/
def AddsExactly (g : List (String × Option S)) (h h' : Encs S) : Prop :=
  ∀ n s, Dict.get h' n = some s ↔ Dict.get h n = some s ∨ Dict.get h n = none ∧ (n, some s) ∈ g

/-- After the operations, recorder `r` listens to module `m`: it was attached, not before, and not detached since. -/
def Listening (ops : List (Op V)) (r m : ℕ) : Prop :=
  ∃ pre post, ops = pre ++ .attach r m :: post ∧ (∀ m', Op.attach r m' ∉ pre) ∧ Op.detach r ∉ post

/-! ## Lemmas -/

theorem get_append (h : Encs S) (n m : String) (s : S) :
    Dict.get (h ++ [(n, s)]) m = (Dict.get h m).or (if n = m then some s else none) := by
  induction h with
  | nil => simp [Dict.get]
  | cons e h ih =>
    obtain ⟨a, b⟩ := e
    simp only [List.cons_append, Dict.get, ih]
    by_cases ha : a = m <;> simp [ha]

theorem get_put (h : Encs S) (n m : String) (s : S) :
    Dict.get (put h n s) m = (Dict.get h m).or (if n = m then some s else none) := by
  unfold put
  split
  · rename_i hs
    by_cases hn : n = m
    · subst hn
      obtain ⟨v, hv⟩ := Option.isSome_iff_exists.1 hs
      rw [hv]; rfl
    · simp [hn]
  · exact get_append h n m s

theorem extendOutputs_append (h : Encs S) (a b : List (String × Option S)) : extendOutputs h (a ++ b) = extendOutputs (extendOutputs h a) b := by
  induction a generalizing h with
  | nil => rfl
  | cons e a ih =>
    obtain ⟨n, q⟩ := e
    cases q <;> exact ih _

theorem extendOutputs_adds (g : List (String × Option S)) (hn : (g.map Prod.fst).Nodup) (h : Encs S) : AddsExactly g h (extendOutputs h g) := by
  induction g generalizing h with
  | nil =>
    intro n s
    simp [extendOutputs]
  | cons e g ih =>
    obtain ⟨n₀, q⟩ := e
    simp only [List.map_cons, List.nodup_cons] at hn
    intro n s
    cases q with
    | none =>
      simp only [extendOutputs]
      rw [ih hn.2 h n s]
      simp
    | some s₀ =>
      simp only [extendOutputs]
      rw [ih hn.2 _ n s, get_put]
      cases hg : Dict.get h n with
      | some v => simp
      | none =>
        by_cases he : n₀ = n
        · subst he
          simp only [if_true, Option.none_or, List.mem_cons, Prod.mk.injEq, true_and, Option.some.injEq]
          have : (n₀, some s) ∉ g := fun hm => hn.1 (List.mem_map.2 ⟨_, hm, rfl⟩)
          simp [this, eq_comm]
        · simp [he, Ne.symm he]

theorem mapL_eq (f : A → B) (ts : List (Tree A)) : mapL f ts = ts.map (Tree.map f) := by
  induction ts with
  | nil => rfl
  | cons t ts ih => simp [mapL, ih]

theorem args_tensors (args : List (Tree (Leaf S))) (h : ∀ a ∈ args, ∃ q, a = .leaf (.tensor q)) :
    args.map (Tree.map Leaf.setting) = (tensorsL args).map .leaf := by
  induction args with
  | nil => rfl
  | cons a args ih =>
    obtain ⟨q, rfl⟩ := h a (List.mem_cons_self ..)
    simp [tensorsL, Tree.tensors, Tree.map, Leaf.setting, ih fun a ha => h a (List.mem_cons_of_mem _ ha)]

mutual

theorem out_tensors (t : Tree (Leaf S)) (h : ∀ l ∈ t.leaves, ∃ q, l = .tensor q) : t.leaves.map Leaf.setting = t.tensors := by
  match t with
  | .leaf (.tensor q) => rfl
  | .leaf .other =>
    obtain ⟨q, hq⟩ := h .other (by simp [Tree.leaves])
    cases hq
  | .node cs => exact out_tensorsL cs h

theorem out_tensorsL (ts : List (Tree (Leaf S))) (h : ∀ l ∈ leavesL ts, ∃ q, l = .tensor q) : (leavesL ts).map Leaf.setting = tensorsL ts := by
  match ts with
  | [] => rfl
  | t :: ts =>
    simp only [leavesL, tensorsL, List.map_append]
    rw [out_tensors t fun l hl => h l (by simp [leavesL, hl]), out_tensorsL ts fun l hl => h l (by simp [leavesL, hl])]

end

theorem extend_pos (kw : List (String × Tree (Option S))) (qs : List (Option S)) (ps : List (String × Option S)) (rest : List String) :
    ∀ (i : ℕ) (h : Encs S), ps.map Prod.snd = qs.drop i → i ≤ qs.length → (∀ p ∈ ps, Dict.get kw p.1 = none) →
      extendInputs kw (qs.map .leaf) i h (ps.map Prod.fst ++ rest) = extendInputs kw (qs.map .leaf) qs.length (extendOutputs h ps) rest := by
  induction ps with
  | nil =>
    intro i h hq hi _
    have : qs.length ≤ i := by
      have := congrArg List.length hq
      simp at this
      omega
    rw [show i = qs.length by omega]
    rfl
  | cons p ps ih =>
    intro i h hq hi hk
    obtain ⟨n, q⟩ := p
    have hl : i < qs.length := by
      by_contra hge
      rw [List.drop_eq_nil_of_le (by omega)] at hq
      simp at hq
    rw [List.drop_eq_getElem_cons hl] at hq
    simp only [List.map_cons, List.cons.injEq] at hq
    have hlk : lookup kw n = none := by
      unfold lookup
      rw [hk (n, q) (List.mem_cons_self ..)]
    have hp : (qs.map Tree.leaf)[i]? = some (.leaf q) := by
      rw [List.getElem?_map, List.getElem?_eq_getElem hl, hq.1]
      rfl
    simp only [List.map_cons, List.cons_append, extendInputs, hlk, hp]
    have ih' := fun h => ih (i + 1) h hq.2 hl fun p hp => hk p (List.mem_cons_of_mem _ hp)
    cases q with
    | none => exact ih' h
    | some s => exact ih' _

theorem kwInputs_mem {ks : List (String × Tree (Leaf S))} {l : List (String × Option S)} (h : KwInputs ks l)
    (hd : ∀ k ∈ ks, ∃ a, k.2 = .leaf a) : ∀ e ∈ l, (e.1, .leaf (.tensor e.2)) ∈ ks := by
  induction h with
  | nil => simp
  | tensor _ ih =>
    intro e he
    rcases List.mem_cons.1 he with rfl | he
    · exact List.mem_cons_self ..
    · exact List.mem_cons_of_mem _ (ih (fun k hk => hd k (List.mem_cons_of_mem _ hk)) e he)
  | other _ ih =>
    intro e he
    exact List.mem_cons_of_mem _ (ih (fun k hk => hd k (List.mem_cons_of_mem _ hk)) e he)
  | node _ _ _ =>
    obtain ⟨a, ha⟩ := hd _ (List.mem_cons_self ..)
    cases ha

theorem extend_kw (kw : List (String × Tree (Option S))) (pos : List (Tree (Option S))) (l : List (String × Option S)) :
    ∀ (h : Encs S), (∀ e ∈ l, Dict.get kw e.1 = some (.leaf e.2)) →
      extendInputs kw pos pos.length h (l.map Prod.fst) = .ok (extendOutputs h l) := by
  induction l with
  | nil => intro h _; rfl
  | cons e l ih =>
    intro h hk
    obtain ⟨n, q⟩ := e
    have hg := hk (n, q) (List.mem_cons_self ..)
    have ih' := fun h => ih h fun e he => hk e (List.mem_cons_of_mem _ he)
    have hp : pos[pos.length]? = none := by simp
    cases q with
    | none =>
      have : lookup kw n = none := by unfold lookup; rw [hg]
      simp only [List.map_cons, extendInputs, this, hp]
      exact ih' h
    | some s =>
      have : lookup kw n = some (.leaf (some s)) := by unfold lookup; rw [hg]
      simp only [List.map_cons, extendInputs, this]
      exact ih' _

theorem extend_eq {r : Rec S} {gi go : List (String × Option S)} (g : GraphOf r gi go) (ha : ∀ a ∈ r.args, ∃ q, a = .leaf (.tensor q))
    (hk : ∀ k ∈ r.kwargs, ∃ a, k.2 = .leaf a) (ho : ∀ l ∈ r.out.leaves, ∃ q, l = .tensor q) (h : Encs S) :
    extend h r = .ok (extendOutputs h (gi ++ go)) := by
  obtain ⟨ps, ks, rfl, hps, hks, hdis⟩ := g.parts
  have hkw : ∀ n t, Dict.get (r.kwargs.map fun k => (k.1, k.2.map Leaf.setting)) n = some t ↔
      ∃ t', Dict.get r.kwargs n = some t' ∧ t = t'.map Leaf.setting := by
    intro n t
    rw [Dict.get_map]
    cases Dict.get r.kwargs n <;> simp [eq_comm]
  unfold extend
  rw [g.inputs, List.map_append, args_tensors _ ha, extend_pos _ (tensorsL r.args) ps _ 0 h (by simpa using hps) (by omega)]
  · have h2 := extend_kw (r.kwargs.map fun k => (k.1, k.2.map Leaf.setting)) ((tensorsL r.args).map .leaf) ks (extendOutputs h ps) (by
      intro e he
      rw [hkw]
      have := kwInputs_mem hks hk e he
      exact ⟨_, (Dict.get_eq_some_iff (by exact g.kwNodup)).2 this, rfl⟩)
    rw [List.length_map] at h2
    rw [h2, out_tensors _ ho, g.outputs, ← g.results]
    have hz : ∀ l : List (String × Option S), (l.map Prod.fst).zip (l.map Prod.snd) = l := by
      intro l
      induction l with
      | nil => rfl
      | cons e l ih => simp [ih]
    rw [hz, extendOutputs_append, extendOutputs_append]
    rfl
  · intro p hp
    rw [Dict.get_map]
    have : Dict.get r.kwargs p.1 = none := Dict.get_none_iff.2 (hdis p hp)
    rw [this]
    rfl

theorem get_own (own : Encs S) (h : Encs S) (n : String) :
    Dict.get (own.foldl (fun h e => put h e.1 e.2) h) n = (Dict.get h n).or (Dict.get own n) := by
  induction own generalizing h with
  | nil => simp [Dict.get]
  | cons e own ih =>
    obtain ⟨a, b⟩ := e
    simp only [List.foldl_cons, ih, get_put, Dict.get]
    cases Dict.get h n <;> by_cases ha : a = n <;> simp [ha]

/-! ### Recorders -/

theorem run_snoc (st : State V) (ops : List (Op V)) (op : Op V) : run st (ops ++ [op]) = (step (run st ops) op).1 := by
  simp [run, List.foldl_append]

theorem run_append (st : State V) (a b : List (Op V)) : run st (a ++ b) = run (run st a) b := by
  simp [run, List.foldl_append]

/-- Splitting a list at an element before its end. -/
theorem snoc_split {α : Type} {l pre post : List α} {x y : α} (h : l ++ [x] = pre ++ y :: post) :
    (post = [] ∧ l = pre ∧ x = y) ∨ ∃ post', post = post' ++ [x] ∧ l = pre ++ y :: post' := by
  rcases List.eq_nil_or_concat post with rfl | ⟨post', z, rfl⟩
  · left
    have := List.append_inj' h (by simp)
    exact ⟨rfl, this.1, by simpa using this.2⟩
  · right
    rw [List.concat_eq_append, ← List.cons_append, ← List.append_assoc] at h
    have := List.append_inj' h (by simp)
    have hx : x = z := by simpa using this.2
    subst hx
    exact ⟨post', by simp, this.1⟩

theorem handle_iff (ops : List (Op V)) (r : ℕ) : (run init ops).handle r = true ↔ ∃ m, Op.attach r m ∈ ops := by
  induction ops using List.reverseRecOn with
  | nil => simp [run, init]
  | append_singleton ops op ih =>
    rw [run_snoc]
    cases op with
    | attach r' m' =>
      simp only [step]
      split
      · rename_i hh
        rw [ih]
        constructor
        · rintro ⟨m, h⟩; exact ⟨m, by simp [h]⟩
        · rintro ⟨m, h⟩
          rcases List.mem_append.1 h with h | h
          · exact ⟨m, h⟩
          · simp only [List.mem_singleton, Op.attach.injEq] at h
            obtain ⟨rfl, rfl⟩ := h
            exact ih.1 hh
      · simp only
        by_cases hr : r = r'
        · subst hr
          simp
        · rw [if_neg hr, ih]
          simp [hr]
    | detach r' =>
      simp only [step]
      split <;> simp [ih]
    | call m v => simp [step, ih]

theorem listening_snoc (ops : List (Op V)) (op : Op V) (r m : ℕ) : Listening (ops ++ [op]) r m ↔
    (op = .attach r m ∧ ∀ m', Op.attach r m' ∉ ops) ∨ (op ≠ .detach r ∧ Listening ops r m) := by
  constructor
  · rintro ⟨pre, post, h, h1, h2⟩
    rcases snoc_split h with ⟨rfl, rfl, rfl⟩ | ⟨post', rfl, rfl⟩
    · exact .inl ⟨rfl, h1⟩
    · refine .inr ⟨fun he => h2 (by simp [he]), pre, post', rfl, h1, fun hm => h2 (by simp [hm])⟩
  · rintro (⟨rfl, h⟩ | ⟨hne, pre, post, rfl, h1, h2⟩)
    · exact ⟨ops, [], rfl, h, by simp⟩
    · exact ⟨pre, post ++ [op], by simp, h1, by simp [h2, Ne.symm hne]⟩

theorem hooks_iff (ops : List (Op V)) (r m : ℕ) : (r, m) ∈ (run init ops).hooks ↔ Listening ops r m := by
  induction ops using List.reverseRecOn with
  | nil =>
    constructor
    · intro h; simp [run, init] at h
    · rintro ⟨pre, post, h, -⟩; simp at h
  | append_singleton ops op ih =>
    rw [run_snoc, listening_snoc]
    cases op with
    | attach r' m' =>
      simp only [step]
      split
      · rename_i hh
        rw [ih]
        obtain ⟨m'', hm⟩ := (handle_iff ops r').1 hh
        constructor
        · intro h; exact .inr ⟨by simp, h⟩
        · rintro (⟨he, h⟩ | ⟨-, h⟩)
          · cases he
            exact absurd hm (h _)
          · exact h
      · rename_i hh
        have hno : ∀ m, Op.attach r' m ∉ ops := fun m hm => hh ((handle_iff ops r').2 ⟨m, hm⟩)
        simp only [List.mem_append, List.mem_singleton, Prod.mk.injEq, ih, Op.attach.injEq, ne_eq, reduceCtorEq, not_false_eq_true, true_and]
        constructor
        · rintro (h | ⟨rfl, rfl⟩)
          · exact .inr h
          · exact .inl ⟨⟨rfl, rfl⟩, hno⟩
        · rintro (⟨⟨rfl, rfl⟩, -⟩ | h)
          · exact .inr ⟨rfl, rfl⟩
          · exact .inl h
    | detach r' =>
      simp only [step]
      split
      · simp only [List.mem_filter, ih, ne_eq, decide_eq_true_eq, reduceCtorEq, false_and, false_or, Op.detach.injEq]
        constructor
        · rintro ⟨h, hr⟩; exact ⟨fun he => hr he.symm, h⟩
        · rintro ⟨hr, h⟩; exact ⟨h, fun he => hr he.symm⟩
      · rename_i hh
        have hno : ∀ m, Op.attach r' m ∉ ops := fun m hm => hh ((handle_iff ops r').2 ⟨m, hm⟩)
        simp only [ih, reduceCtorEq, false_and, false_or, ne_eq, Op.detach.injEq]
        constructor
        · intro h
          refine ⟨?_, h⟩
          rintro rfl
          obtain ⟨pre, post, rfl, -⟩ := h
          exact hno m (by simp)
        · exact fun h => h.2
    | call m' v => simp [step, ih]

theorem attach_run (mods : List ℕ) : ∀ (r : ℕ) (st : State V), (∀ x, r ≤ x → st.handle x = false) →
    (run st ((mods.zipIdx r).map fun p => Op.attach p.2 p.1)).hooks = st.hooks ++ (mods.zipIdx r).map (fun p => (p.2, p.1)) ∧
    (∀ x, (run st ((mods.zipIdx r).map fun p => Op.attach p.2 p.1)).handle x = (st.handle x || decide (r ≤ x ∧ x < r + mods.length))) := by
  induction mods with
  | nil =>
    intro r st _
    refine ⟨by simp [run], fun x => ?_⟩
    have : ¬(r ≤ x ∧ x < r) := by omega
    simp [run, this]
  | cons m mods ih =>
    intro r st h
    have hs : (step st (.attach r m)).1 = { st with hooks := st.hooks ++ [(r, m)], handle := fun x => if x = r then true else st.handle x } := by
      simp [step, h r (Nat.le_refl r)]
    have := ih (r + 1) (step st (.attach r m)).1 (by
      intro x hx
      rw [hs]
      simp only
      rw [if_neg (by omega)]
      exact h x (by omega))
    simp only [List.zipIdx_cons, List.map_cons]
    have hr : ∀ l, run st (Op.attach r m :: l) = run (step st (.attach r m)).1 l := fun l => rfl
    rw [hr]
    refine ⟨by rw [this.1, hs]; simp, fun x => ?_⟩
    rw [this.2, hs]
    simp only [List.length_cons]
    by_cases hx : x = r
    · subst hx
      simp
    · rw [if_neg hx]
      congr 1
      exact decide_eq_decide.2 (by omega)

theorem calls_run (l : List (ℕ × V)) (st : State V) : (run st (l.map fun c => Op.call c.1 c.2)).hooks = st.hooks ∧
    (run st (l.map fun c => Op.call c.1 c.2)).handle = st.handle := by
  induction l generalizing st with
  | nil => exact ⟨rfl, rfl⟩
  | cons c l ih => exact ih (step st (.call c.1 c.2)).1

theorem detach_run (mods : List ℕ) : ∀ (r : ℕ) (st : State V), (∀ x, r ≤ x → x < r + mods.length → st.handle x = true) →
    (run st ((mods.zipIdx r).map fun p => Op.detach p.2)).hooks = st.hooks.filter (fun h => decide (¬(r ≤ h.1 ∧ h.1 < r + mods.length))) ∧
    (run st ((mods.zipIdx r).map fun p => Op.detach p.2)).handle = st.handle := by
  induction mods with
  | nil =>
    intro r st _
    refine ⟨?_, rfl⟩
    simp only [run, List.zipIdx_nil, List.map_nil, List.foldl_nil]
    rw [List.filter_eq_self.2]
    intro h _
    have : ¬(r ≤ h.1 ∧ h.1 < r) := by omega
    simp [this]
  | cons m mods ih =>
    intro r st h
    have hs : (step st (.detach r)).1 = { st with hooks := st.hooks.filter fun h => h.1 ≠ r } := by
      simp [step, h r (Nat.le_refl r) (by simp)]
    have := ih (r + 1) (step st (.detach r)).1 (by
      intro x hx hx'
      rw [hs]
      exact h x (by omega) (by simp; omega))
    simp only [List.zipIdx_cons, List.map_cons]
    have hr : ∀ l, run st (Op.detach r :: l) = run (step st (.detach r)).1 l := fun l => rfl
    rw [hr]
    refine ⟨?_, by rw [this.2, hs]⟩
    rw [this.1, hs]
    simp only [List.filter_filter, List.length_cons]
    refine List.filter_congr fun x _ => ?_
    rw [Bool.eq_iff_iff]
    simp only [Bool.and_eq_true, decide_eq_true_eq, ne_eq]
    omega

theorem filter_new (mods : List ℕ) (r : ℕ) (hooks : List (ℕ × ℕ)) (h : ∀ x ∈ hooks, x.1 < r) :
    (hooks ++ (mods.zipIdx r).map (fun p => (p.2, p.1))).filter (fun h => decide (¬(r ≤ h.1 ∧ h.1 < r + mods.length))) = hooks := by
  rw [List.filter_append, List.filter_eq_self.2, List.filter_eq_nil_iff.2, List.append_nil]
  · intro x hx
    obtain ⟨p, hp, rfl⟩ := List.mem_map.1 hx
    obtain ⟨h1, h2, -⟩ := List.mem_zipIdx hp
    simp only [decide_eq_true_eq]
    omega
  · intro x hx
    have := h x hx
    simp only [decide_eq_true_eq]
    omega

/-- A whole phase: attach, run, detach. -/
theorem phase (mods : List ℕ) (r : ℕ) (calls : List (ℕ × V)) (st : State V) (hh : ∀ x, r ≤ x → st.handle x = false) (hk : ∀ x ∈ st.hooks, x.1 < r) :
    let st' := run st ((mods.zipIdx r).map (fun p => Op.attach p.2 p.1) ++ calls.map (fun c => Op.call c.1 c.2) ++
      (mods.zipIdx r).map fun p => Op.detach p.2)
    st'.hooks = st.hooks ∧ ∀ x, r + mods.length ≤ x → st'.handle x = false := by
  simp only [run_append]
  obtain ⟨a1, a2⟩ := attach_run mods r st hh
  generalize run st _ = s1 at a1 a2 ⊢
  obtain ⟨c1, c2⟩ := calls_run calls s1
  generalize run s1 _ = s2 at c1 c2 ⊢
  obtain ⟨d1, d2⟩ := detach_run mods r s2 (by
    intro x hx hx'
    rw [c2, a2]
    simp [hx, hx'])
  rw [d1, d2, c1, a1, c2, filter_new _ _ _ hk]
  refine ⟨rfl, fun x hx => ?_⟩
  rw [a2, hh x (by omega)]
  have : ¬(r ≤ x ∧ x < r + mods.length) := by omega
  simp [this]

/-! ## Properties -/

/-- **C96 (partial).** The encodings of a module's inputs and outputs are completed with the quantization of the tensors that the module was called
with and that it returned: each input and output of the graph without encoding gets that of its own tensor if it is quantized, and
nothing else is added. This holds if all positional arguments are tensors, no keyword argument is nested and all results are tensors.
Missing: `other_argument_shifts`, `nested_argument_fails`, `nested_keyword_lost` and `none_result_shifts` show that these conditions are
needed. -/
theorem encodings_completed_partial {r : Rec S} {gi go : List (String × Option S)} (g : GraphOf r gi go)
    (ha : ∀ a ∈ r.args, ∃ q, a = .leaf (.tensor q)) (hk : ∀ k ∈ r.kwargs, ∃ a, k.2 = .leaf a) (ho : ∀ l ∈ r.out.leaves, ∃ q, l = .tensor q)
    (h : Encs S) : ∃ h', extend h r = .ok h' ∧ AddsExactly (gi ++ go) h h' :=
  ⟨_, extend_eq g ha hk ho h, extendOutputs_adds _ (by rw [List.map_append]; exact g.nodup) h⟩

/-- **C96 (partial).** The encodings written for a module are those of its own graph (the first one for each name), completed as above: neither what
the handler held before nor the other modules exported matter.
Missing: as for `encodings_completed_partial`. -/
theorem modules_independent_partial (h : Encs S) (rs : List (Rec S)) (hr : ∀ r ∈ rs, (∃ gi go, GraphOf r gi go) ∧
      (∀ a ∈ r.args, ∃ q, a = .leaf (.tensor q)) ∧ (∀ k ∈ r.kwargs, ∃ a, k.2 = .leaf a) ∧ ∀ l ∈ r.out.leaves, ∃ q, l = .tensor q) :
    ∃ files, exportAll h rs = .ok files ∧ files.map Prod.fst = rs.map Rec.name ∧
      ∀ i (hi : i < rs.length) f, files[i]? = some f → ∀ gi go, GraphOf rs[i] gi go → AddsExactly (gi ++ go) rs[i].own f.2 := by
  induction rs generalizing h with
  | nil => exact ⟨[], rfl, rfl, fun i hi => absurd hi (by simp)⟩
  | cons r rs ih =>
    obtain ⟨files, h1, h2, h3⟩ := ih [] fun r hr' => hr r (List.mem_cons_of_mem _ hr')
    obtain ⟨⟨gi, go, g⟩, ha, hk, ho⟩ := hr r (List.mem_cons_self ..)
    have he := extend_eq g ha hk ho (r.own.foldl (fun h e => put h e.1 e.2) [])
    refine ⟨(r.name, extendOutputs (r.own.foldl (fun h e => put h e.1 e.2) []) (gi ++ go)) :: files, ?_, ?_, ?_⟩
    · simp only [exportAll, bind, Except.bind, he, h1]
      rfl
    · simp [h2]
    · intro i hi f hf gi' go' g'
      cases i with
      | zero =>
        simp only [List.getElem?_cons_zero, Option.some.injEq] at hf
        subst hf
        have he' := extend_eq g' ha hk ho (r.own.foldl (fun h e => put h e.1 e.2) [])
        have heq : extendOutputs (r.own.foldl (fun h e => put h e.1 e.2) []) (gi ++ go) =
            extendOutputs (r.own.foldl (fun h e => put h e.1 e.2) []) (gi' ++ go') := by
          have := he.symm.trans he'
          simpa using this
        simp only [heq]
        have := extendOutputs_adds _ (by rw [List.map_append]; exact g'.nodup) (r.own.foldl (fun h e => put h e.1 e.2) [])
        intro n s
        rw [this n s, get_own]
        rfl
      | succ i => exact h3 i (by simpa using hi) f (by simpa using hf) gi' go' g'

/-- **C96.** After any sequence of attaching and detaching recorders and calling modules, a recorder is called by a module iff it listens to it. -/
theorem listens_iff (ops : List (Op V)) (r m : ℕ) : (r, m) ∈ (run init ops).hooks ↔ Listening ops r m := hooks_iff ops r m

/-- **C96.** A recorder has recorded the last call that was made to a module while the recorder listened to it. -/
theorem records_last_call (ops : List (Op V)) (r : ℕ) (v : V) : (run init ops).io r = some v ↔
    ∃ pre m post, ops = pre ++ .call m v :: post ∧ Listening pre r m ∧
      ∀ pre' m' v' post', post = pre' ++ .call m' v' :: post' → ¬ Listening (pre ++ .call m v :: pre') r m' := by
  induction ops using List.reverseRecOn with
  | nil => simp [run, init]
  | append_singleton ops op ih =>
    rw [run_snoc]
    have hold : (∃ pre m post, ops = pre ++ .call m v :: post ∧ Listening pre r m ∧
          ∀ pre' m' v' post', post = pre' ++ .call m' v' :: post' → ¬ Listening (pre ++ .call m v :: pre') r m') →
        (∀ m' v', op = .call m' v' → ¬ Listening ops r m') →
        ∃ pre m post, ops ++ [op] = pre ++ .call m v :: post ∧ Listening pre r m ∧
          ∀ pre' m' v' post', post = pre' ++ .call m' v' :: post' → ¬ Listening (pre ++ .call m v :: pre') r m' := by
      rintro ⟨pre, m, post, rfl, h1, h2⟩ hop
      refine ⟨pre, m, post ++ [op], by simp, h1, ?_⟩
      intro pre' m' v' post' he
      rcases snoc_split he with ⟨rfl, rfl, rfl⟩ | ⟨post'', rfl, rfl⟩
      · exact hop m' v' rfl
      · exact h2 pre' m' v' post'' rfl
    have hnew : (∃ pre m post, ops ++ [op] = pre ++ .call m v :: post ∧ Listening pre r m ∧
          ∀ pre' m' v' post', post = pre' ++ .call m' v' :: post' → ¬ Listening (pre ++ .call m v :: pre') r m') →
        (∃ m, op = .call m v ∧ Listening ops r m) ∨ ((∃ pre m post, ops = pre ++ .call m v :: post ∧ Listening pre r m ∧
          ∀ pre' m' v' post', post = pre' ++ .call m' v' :: post' → ¬ Listening (pre ++ .call m v :: pre') r m') ∧
          ∀ m' v', op = .call m' v' → ¬ Listening ops r m') := by
      rintro ⟨pre, m, post, he, h1, h2⟩
      rcases snoc_split he with ⟨rfl, rfl, rfl⟩ | ⟨post'', rfl, rfl⟩
      · exact .inl ⟨m, rfl, h1⟩
      · refine .inr ⟨⟨pre, m, post'', rfl, h1, fun pre' m' v' post' hp => ?_⟩, ?_⟩
        · exact h2 pre' m' v' (post' ++ [op]) (by simp [hp])
        · rintro m' v' rfl
          exact h2 post'' m' v' [] rfl
    cases op with
    | attach r' m' =>
      have : (step (run init ops) (.attach r' m')).1.io = (run init ops).io := by simp only [step]; split <;> rfl
      rw [this, ih]
      constructor
      · exact fun h => hold h (by simp)
      · intro h
        rcases hnew h with ⟨m, hm, -⟩ | ⟨h, -⟩
        · cases hm
        · exact h
    | detach r' =>
      have : (step (run init ops) (.detach r')).1.io = (run init ops).io := by simp only [step]; split <;> rfl
      rw [this, ih]
      constructor
      · exact fun h => hold h (by simp)
      · intro h
        rcases hnew h with ⟨m, hm, -⟩ | ⟨h, -⟩
        · cases hm
        · exact h
    | call m' v' =>
      simp only [step]
      by_cases hl : (r, m') ∈ (run init ops).hooks
      · rw [if_pos hl]
        rw [hooks_iff] at hl
        constructor
        · intro h
          cases h
          exact ⟨ops, m', [], rfl, hl, by simp⟩
        · intro h
          rcases hnew h with ⟨m, hm, -⟩ | ⟨-, h⟩
          · cases hm; rfl
          · exact absurd hl (h m' v' rfl)
      · rw [if_neg hl, ih]
        rw [hooks_iff] at hl
        constructor
        · intro h
          refine hold h ?_
          intro m'' v'' he
          cases he
          exact hl
        · intro h
          rcases hnew h with ⟨m, hm, h'⟩ | ⟨h, -⟩
          · cases hm; exact absurd h' hl
          · exact h

/-- **C96 (partial).** Exporting modules leaves no hooks behind: the hooks are those there were before, if the second run of the model does not fail.
Missing: `failed_run_leaves_hooks`. -/
theorem hooks_removed_partial (st : State V) (r : ℕ) (hh : ∀ x, r ≤ x → st.handle x = false) (hk : ∀ x ∈ st.hooks, x.1 < r) (mods : List ℕ)
    (calls₁ calls₂ : List (ℕ × V)) (ok₁ ok₂ : Bool) (hok : ok₁ = false ∨ ok₂ = true) :
    (run st (exportOps r mods calls₁ calls₂ ok₁ ok₂)).hooks = st.hooks := by
  unfold exportOps
  obtain ⟨p1, p2⟩ := phase mods r calls₁ st hh hk
  rw [run_append]
  generalize run st _ = s1 at p1 p2 ⊢
  rcases hok with rfl | rfl
  · simpa [run] using p1
  · cases ok₁ with
    | false => simpa [run] using p1
    | true =>
      obtain ⟨q1, -⟩ := phase mods (r + mods.length) calls₂ s1 p2 (by
        intro x hx
        rw [p1] at hx
        have := hk x hx
        omega)
      simp only [if_true]
      rw [q1, p1]

/-! ## Deviations -/

/-- **C96, deviation.** If the run of the model with quantization fails, the recorders stay attached to all modules. -/
theorem failed_run_leaves_hooks (r : ℕ) (m : ℕ) (mods : List ℕ) (calls₁ calls₂ : List (ℕ × V)) (hm : m ∈ mods) :
    ∃ x, (x, m) ∈ (run init (exportOps r mods calls₁ calls₂ true false)).hooks := by
  unfold exportOps
  obtain ⟨p1, p2⟩ := phase mods r calls₁ (init : State V) (fun _ _ => rfl) (by simp [init])
  rw [run_append]
  generalize run init _ = s1 at p1 p2 ⊢
  simp only [if_true, Bool.false_eq_true, if_false, List.append_nil]
  rw [run_append, (calls_run _ _).1, (attach_run mods (r + mods.length) s1 p2).1]
  obtain ⟨i, hi, rfl⟩ := List.getElem_of_mem hm
  refine ⟨r + mods.length + i, List.mem_append_right _ (List.mem_map.2 ⟨(mods[i], r + mods.length + i), ?_, rfl⟩)⟩
  rw [List.mem_zipIdx_iff_le_and_getElem?_sub]
  refine ⟨by omega, ?_⟩
  simp [hi]

/-- **C96, deviation.** A recorder that was detached cannot be attached again. -/
theorem reattach_fails (ops : List (Op V)) (r m m' : ℕ) (h : Op.attach r m ∈ ops) :
    (step (run init (ops ++ [.detach r])) (.attach r m')).2 = some .runtimeError ∧
      ¬ Listening (ops ++ [.detach r, .attach r m']) r m' := by
  constructor
  · have : (run (init : State V) (ops ++ [.detach r])).handle r = true := (handle_iff _ _).2 ⟨m, by simp [h]⟩
    simp [step, this]
  · rw [show ops ++ [.detach r, .attach r m'] = (ops ++ [.detach r]) ++ [.attach r m'] by simp, listening_snoc]
    rintro (⟨-, hn⟩ | ⟨-, hl⟩)
    · exact hn m (by simp [h])
    · rw [listening_snoc] at hl
      rcases hl with ⟨h, -⟩ | ⟨h, -⟩
      · cases h
      · exact h rfl

/-- `f(x, None, y, mask=m)` with `y` quantized. -/
def shifted : Rec ℕ where
  name := "f"
  args := [.leaf (.tensor none), .leaf .other, .leaf (.tensor (some 7))]
  kwargs := [("mask", .leaf (.tensor none))]
  out := .leaf (.tensor none)
  inputs := ["x", "y", "mask"]
  outputs := ["out"]
  own := []

/-- **C96, deviation.** A positional argument that is no tensor is no input of the graph, but counted as one: the inputs after it get the
quantization of others. In `f(x, None, y, mask=m)` with `y` quantized, `mask` gets the encoding of `y`, and `y` none. -/
theorem other_argument_shifts : ∃ (r : Rec ℕ) (gi go : List (String × Option ℕ)) (h' : Encs ℕ) (n n' : String) (s : ℕ), GraphOf r gi go ∧
    extend [] r = .ok h' ∧ (n, some s) ∈ gi ∧ Dict.get h' n = none ∧ (n', none) ∈ gi ∧ Dict.get h' n' = some s := by
  refine ⟨shifted, [("x", none), ("y", some 7), ("mask", none)], [("out", none)], [("mask", 7)], "y", "mask", 7, ?_, rfl, by simp, rfl, by simp, rfl⟩
  exact ⟨rfl, rfl, ⟨[("x", none), ("y", some 7)], [("mask", none)], rfl, rfl, .tensor .nil, by simp [shifted]⟩, rfl, by decide, by decide⟩

/-- **C96, deviation.** A module that is called with a tuple of tensors as positional argument cannot be exported, even if none of them is quantized. -/
theorem nested_argument_fails (cs : List (Tree (Leaf S))) (r : Rec S) (h : Encs S) (n : String) (ns : List String) (ha : r.args = [.node cs])
    (hk : r.kwargs = []) (hn : r.inputs = n :: ns) : extend h r = .error .typeError := by
  unfold extend
  rw [ha, hk, hn]
  rfl

/-- **C96, deviation.** The quantization of tensors nested in keyword arguments is lost. -/
theorem nested_keyword_lost : ∃ (r : Rec ℕ) (gi go : List (String × Option ℕ)) (h' : Encs ℕ) (n : String) (s : ℕ), GraphOf r gi go ∧
    extend [] r = .ok h' ∧ (n, some s) ∈ gi ∧ Dict.get h' n = none := by
  refine ⟨⟨"f", [], [("states", .node [.leaf (.tensor (some 7))])], .leaf (.tensor none), ["states_0"], ["out"], []⟩,
    [("states_0", some 7)], [("out", none)], [], "states_0", 7, ?_, rfl, by simp, rfl⟩
  exact ⟨rfl, rfl, ⟨[], [("states_0", some 7)], rfl, rfl, .node (l := [("states_0", some 7)]) (l' := []) rfl .nil, by simp⟩, rfl,
    by decide, by decide⟩

/-- **C96, deviation.** A result that is no tensor is no output of the graph, but counted as one: if a module returns `None` and two tensors, the second
one gets the encoding of the first. -/
theorem none_result_shifts : ∃ (r : Rec ℕ) (gi go : List (String × Option ℕ)) (h' : Encs ℕ) (n n' : String) (s : ℕ), GraphOf r gi go ∧
    extend [] r = .ok h' ∧ (n, some s) ∈ go ∧ Dict.get h' n = none ∧ (n', none) ∈ go ∧ Dict.get h' n' = some s := by
  refine ⟨⟨"f", [.leaf (.tensor none)], [], .node [.leaf .other, .leaf (.tensor (some 7)), .leaf (.tensor none)], ["x"], ["a", "b"], []⟩,
    [("x", none)], [("a", some 7), ("b", none)], [("b", 7)], "a", "b", 7, ?_, rfl, by simp, rfl, by simp, rfl⟩
  exact ⟨rfl, rfl, ⟨[("x", none)], [], rfl, rfl, .nil, by simp⟩, rfl, by decide, by decide⟩

/-! ## Concrete cases -/

/-- `f(x, y, mask=m, flag=True)`, with `y`, `m` and the second result quantized. -/
def sample : Rec ℕ where
  name := "f"
  args := [.leaf (.tensor none), .leaf (.tensor (some 1))]
  kwargs := [("flag", .leaf .other), ("mask", .leaf (.tensor (some 2)))]
  out := .node [.leaf (.tensor none), .leaf (.tensor (some 3))]
  inputs := ["x", "y", "mask"]
  outputs := ["a", "b"]
  own := [("y", 5), ("c", 6)]

example : GraphOf sample [("x", none), ("y", some 1), ("mask", some 2)] [("a", none), ("b", some 3)] :=
  ⟨rfl, rfl, ⟨[("x", none), ("y", some 1)], [("mask", some 2)], rfl, rfl, .other (.tensor .nil), by simp [sample]⟩, rfl, by decide, by decide⟩

example : (∀ a ∈ sample.args, ∃ q, a = .leaf (.tensor q)) ∧ (∀ k ∈ sample.kwargs, ∃ a, k.2 = .leaf a) ∧
    ∀ l ∈ sample.out.leaves, ∃ q, l = .tensor q := by
  simp [sample, Tree.leaves, leavesL]

example : exportAll [("y", 9)] [sample, sample] = .ok [("f", [("y", 5), ("c", 6), ("mask", 2), ("b", 3)]),
    ("f", [("y", 5), ("c", 6), ("mask", 2), ("b", 3)])] := rfl

/-- Two modules are called in turn while a recorder listens to the first of them. -/
example : (run (init : State ℕ) [.call 1 9, .attach 0 1, .call 1 5, .call 2 6, .call 1 7, .detach 0, .call 1 8]).io 0 = some 7 := rfl

end FF.ModIO
