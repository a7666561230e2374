import Mathlib.Data.Nat.Notation
import Verif.Util.Dict

/-!
# Renaming in exported ONNX graphs

Models `src/fastforward/export/_onnx_helpers.py` (`_fix_onnx_names`) and the renaming of inputs and outputs in
`src/fastforward/export/stages/onnx/onnx_export_stages.py`. In memory the values of a graph are objects that nodes share; in the file that is written
values are connected by their names. Values are numbered; a graph over numbers is the one in memory, a graph over strings the one in the file.
The operators of nodes are numbers too. Simplifications: setting a name never fails (the IR library may reject a name that another initializer has),
subgraphs are left out.
-/

namespace FF.OnnxNames

/-! ## Model -/

/-- A node: its operator, inputs (`None` for an omitted one) and outputs. -/
structure Node (K : Type) where
  op : ℕ
  ins : List (Option K)
  outs : List K

/-- A graph: initializers with their data, inputs, nodes in order and outputs. -/
structure Graph (K T : Type) where
  inits : List (K × T)
  inputs : List K
  nodes : List (Node K)
  outputs : List K

variable {K T : Type}

/-- `onnx_export_stages.py:471-483` `stage_onnx_program_to_proto`: what is written, given the values' names. -/
def toProto (g : Graph ℕ T) (σ : ℕ → String) : Graph String T where
  inits := g.inits.map fun i => (σ i.1, i.2)
  inputs := g.inputs.map σ
  nodes := g.nodes.map fun n => ⟨n.op, n.ins.map (·.map σ), n.outs.map σ⟩
  outputs := g.outputs.map σ

/-- `value.name = s`. -/
def setName (σ : ℕ → String) (v : ℕ) (s : String) : ℕ → String := fun x => if x = v then s else σ x

/-- `_onnx_helpers.py:27`: `f"{new_name_prefix}_{old_name}_0"`. -/
def altered (p n : String) : String := p ++ "_" ++ n ++ "_0"

/-- `_onnx_helpers.py:25-29`, `41-45`: rename a value, if it has a name, and remember that. -/
def renameOne (p : String) (st : (ℕ → String) × List (String × String)) (v : ℕ) : (ℕ → String) × List (String × String) :=
  if st.1 v = "" then st else (setName st.1 v (altered p (st.1 v)), Dict.set st.2 (st.1 v) (altered p (st.1 v)))

/-- `_onnx_helpers.py:50-56`, `60-61`, `65-70`: rename a value again whose name is in the mapping. -/
def followOne (map : List (String × String)) (σ : ℕ → String) (v : ℕ) : ℕ → String :=
  if σ v = "" then σ
  else match Dict.get map (σ v) with
    | some s => setName σ v s
    | none => σ

/-- `_onnx_helpers.py:18-72` `_fix_onnx_names`: initializers, then outputs of nodes, are renamed; then inputs of nodes, graph inputs and
graph outputs are visited. The names of nodes (renamed alike) connect nothing and are left out. -/
def alter (p : String) (g : Graph ℕ T) (σ : ℕ → String) : ℕ → String :=
  let st := (g.inits.map Prod.fst).foldl (renameOne p) (σ, [])
  let st := (g.nodes.flatMap Node.outs).foldl (renameOne p) st
  let σ := (g.nodes.flatMap fun n => n.ins.filterMap id).foldl (followOne st.2) st.1
  let σ := g.inputs.foldl (followOne st.2) σ
  g.outputs.foldl (followOne st.2) σ

/-- `onnx_export_stages.py:56-92` `_rename_onnx_input_output_names`; `none` is the `ValueError`. Names not given are the present ones, taken
before any renaming. -/
def renameIO (g : Graph ℕ T) (σ : ℕ → String) (ins outs : Option (List String)) : Option (ℕ → String) :=
  let ins := ins.getD (g.inputs.map σ)
  let outs := outs.getD (g.outputs.map σ)
  if g.inputs.length ≠ ins.length ∨ g.outputs.length ≠ outs.length then none
  else
    let σ := (g.inputs.zip ins).foldl (fun σ e => setName σ e.1 e.2) σ
    some ((g.outputs.zip outs).foldl (fun σ e => setName σ e.1 e.2) σ)

/-! ## Specification -/

section Spec

variable [DecidableEq K]

/-- Bind keys to values, later ones hiding earlier ones. -/
def bindAll (ρ : K → Option T) : List (K × T) → K → Option T
  | [] => ρ
  | (k, t) :: l => bindAll (fun x => if x = k then some t else ρ x) l

/-- Evaluate nodes in order. -/
def evalNodes (sem : ℕ → List (Option T) → List T) (ρ : K → Option T) : List (Node K) → K → Option T
  | [] => ρ
  | n :: ns => evalNodes sem (bindAll ρ (n.outs.zip (sem n.op (n.ins.map fun i => i.bind ρ)))) ns

/-- The meaning of a graph, whatever identifies its values: its outputs for given inputs, operators meaning `sem`. -/
def eval (sem : ℕ → List (Option T) → List T) (g : Graph K T) (args : List T) : List (Option T) :=
  g.outputs.map (evalNodes sem (bindAll (bindAll (fun _ => none) g.inits) (g.inputs.zip args)) g.nodes)

end Spec

/-- The values that a graph itself defines: initializers and outputs of nodes. -/
def Defines (g : Graph K T) (v : K) : Prop := v ∈ g.inits.map Prod.fst ∨ ∃ n ∈ g.nodes, v ∈ n.outs

/-- The values that a node reads or that are graph outputs. -/
def Uses (g : Graph K T) (v : K) : Prop := (∃ n ∈ g.nodes, some v ∈ n.ins) ∨ v ∈ g.outputs

/-- All values of a graph. -/
def Has (g : Graph K T) (v : K) : Prop := Defines g v ∨ Uses g v ∨ v ∈ g.inputs

/-- Each value is defined once. -/
def Once (g : Graph K T) : Prop := (g.inits.map Prod.fst ++ g.nodes.flatMap Node.outs).Nodup

/-- All values have a name, different ones different names. -/
def Distinct (g : Graph ℕ T) (σ : ℕ → String) : Prop :=
  (∀ v, Has g v → σ v ≠ "") ∧ ∀ v w, Has g v → Has g w → σ v = σ w → v = w

/-! ## Lemmas -/

theorem altered_inj {p a b : String} (h : altered p a = altered p b) : a = b := by
  have := congrArg String.toList h
  simp only [altered, String.toList_append, List.append_assoc] at this
  have := List.append_cancel_left (List.append_cancel_left this)
  exact String.toList_inj.1 (List.append_cancel_right this)

theorem altered_ne (p a : String) : altered p a ≠ "" := by
  intro h
  have := congrArg String.toList h
  simp [altered, String.toList_append] at this

theorem altered_ne_self (p a : String) : altered p a ≠ a := by
  intro h
  have := congrArg (fun s => s.toList.length) h
  simp [altered, String.toList_append] at this
  omega

theorem defines_iff (g : Graph K T) (v : K) : Defines g v ↔ v ∈ g.inits.map Prod.fst ++ g.nodes.flatMap Node.outs := by
  simp [Defines]

theorem foldl_renameOne (p : String) (l : List ℕ) (hn : l.Nodup) (σ : ℕ → String) (m : List (String × String)) (he : ∀ v ∈ l, σ v ≠ "") :
    (∀ v, (l.foldl (renameOne p) (σ, m)).1 v = if v ∈ l then altered p (σ v) else σ v) ∧
      ∀ k, Dict.get (l.foldl (renameOne p) (σ, m)).2 k = if k ∈ l.map σ then some (altered p k) else Dict.get m k := by
  induction l generalizing σ m with
  | nil => simp
  | cons a l ih =>
    obtain ⟨ha, hn⟩ := List.nodup_cons.1 hn
    have hs : renameOne p (σ, m) a = (setName σ a (altered p (σ a)), Dict.set m (σ a) (altered p (σ a))) := by
      simp [renameOne, he a (List.mem_cons_self ..)]
    have hσ : ∀ v ∈ l, setName σ a (altered p (σ a)) v = σ v := by
      intro v hv
      have : v ≠ a := by rintro rfl; exact ha hv
      simp [setName, this]
    rw [List.foldl_cons, hs]
    obtain ⟨h1, h2⟩ := ih hn (setName σ a (altered p (σ a))) (Dict.set m (σ a) (altered p (σ a)))
      (fun v hv => by rw [hσ v hv]; exact he v (List.mem_cons_of_mem _ hv))
    constructor
    · intro v
      rw [h1]
      by_cases hv : v ∈ l
      · rw [if_pos hv, if_pos (List.mem_cons_of_mem _ hv), hσ v hv]
      · rw [if_neg hv]
        by_cases hva : v = a
        · subst hva; simp [setName]
        · simp [setName, hva, hv]
    · intro k
      have hm : l.map (setName σ a (altered p (σ a))) = l.map σ := List.map_congr_left hσ
      rw [h2, hm, Dict.get_set]
      by_cases hk : k ∈ l.map σ
      · rw [if_pos hk, if_pos (by simp only [List.map_cons]; exact List.mem_cons_of_mem _ hk)]
      · rw [if_neg hk]
        by_cases hka : k = σ a
        · subst hka; simp
        · have : k ∉ (a :: l).map σ := by simp only [List.map_cons, List.mem_cons]; rintro (h | h); exacts [hka h, hk h]
          rw [if_neg this]
          simp [Ne.symm hka]

theorem followOne_other (m : List (String × String)) (σ : ℕ → String) {v w : ℕ} (h : w ≠ v) : followOne m σ v w = σ w := by
  unfold followOne
  split
  · rfl
  · cases Dict.get m (σ v) with
    | none => rfl
    | some s => simp [setName, h]

/-- A value whose name is not in the mapping keeps it. -/
theorem foldl_follow_stable (m : List (String × String)) (l : List ℕ) (σ : ℕ → String) (v : ℕ) (h : Dict.get m (σ v) = none) :
    l.foldl (followOne m) σ v = σ v := by
  induction l generalizing σ with
  | nil => rfl
  | cons a l ih =>
    rw [List.foldl_cons]
    have hs : followOne m σ a v = σ v := by
      by_cases hva : v = a
      · subst hva
        unfold followOne
        split
        · rfl
        · rw [h]
      · exact followOne_other m σ hva
    rw [ih _ (by rw [hs]; exact h), hs]

/-- A value that is visited and whose name is in the mapping gets the name there, if that is not in the mapping. -/
theorem foldl_follow_moved (m : List (String × String)) (l : List ℕ) (σ : ℕ → String) (v : ℕ) (s : String) (hv : v ∈ l) (hne : σ v ≠ "")
    (h : Dict.get m (σ v) = some s) (hs : Dict.get m s = none) : l.foldl (followOne m) σ v = s := by
  induction l generalizing σ with
  | nil => cases hv
  | cons a l ih =>
    rw [List.foldl_cons]
    by_cases hva : v = a
    · subst hva
      have : followOne m σ v v = s := by simp [followOne, hne, h, setName]
      rw [foldl_follow_stable _ _ _ _ (by rw [this]; exact hs), this]
    · have h' := followOne_other m σ hva
      refine ih (followOne m σ a) ?_ (by rw [h']; exact hne) (by rw [h']; exact h)
      rcases List.mem_cons.1 hv with h | h
      · exact absurd h hva
      · exact h

/-- `alter` in two passes. -/
theorem alter_eq (p : String) (g : Graph ℕ T) (σ : ℕ → String) : alter p g σ =
    ((g.nodes.flatMap fun n => n.ins.filterMap id) ++ g.inputs ++ g.outputs).foldl
      (followOne ((g.inits.map Prod.fst ++ g.nodes.flatMap Node.outs).foldl (renameOne p) (σ, [])).2)
      ((g.inits.map Prod.fst ++ g.nodes.flatMap Node.outs).foldl (renameOne p) (σ, [])).1 := by
  simp [alter, List.foldl_append]

theorem first_pass (p : String) {g : Graph ℕ T} {σ : ℕ → String} (ho : Once g) (hd : Distinct g σ) :
    let st := (g.inits.map Prod.fst ++ g.nodes.flatMap Node.outs).foldl (renameOne p) (σ, [])
    (∀ v, Defines g v → st.1 v = altered p (σ v)) ∧ (∀ v, ¬ Defines g v → st.1 v = σ v) ∧
      (∀ v, Defines g v → Dict.get st.2 (σ v) = some (altered p (σ v))) ∧ ∀ k, (∀ v, Defines g v → σ v ≠ k) → Dict.get st.2 k = none := by
  obtain ⟨h1, h2⟩ := foldl_renameOne p _ ho σ [] (fun v hv => hd.1 v (.inl ((defines_iff g v).2 hv)))
  refine ⟨?_, ?_, ?_, ?_⟩
  · intro v hv
    rw [h1, if_pos ((defines_iff g v).1 hv)]
  · intro v hv
    rw [h1, if_neg fun h => hv ((defines_iff g v).2 h)]
  · intro v hv
    rw [h2, if_pos (List.mem_map_of_mem ((defines_iff g v).1 hv))]
  · intro k hk
    rw [h2, if_neg]
    · rfl
    · intro h
      obtain ⟨v, hv, rfl⟩ := List.mem_map.1 h
      exact hk v ((defines_iff g v).2 hv) rfl

theorem uses_mem {g : Graph ℕ T} {v : ℕ} (h : Uses g v) :
    v ∈ (g.nodes.flatMap fun n => n.ins.filterMap id) ++ g.inputs ++ g.outputs := by
  rcases h with ⟨n, hn, h⟩ | h
  · refine List.mem_append_left _ (List.mem_append_left _ (List.mem_flatMap.2 ⟨n, hn, ?_⟩))
    simpa using h
  · exact List.mem_append_right _ h

/-! ### Evaluation does not depend on what identifies values -/

section

variable {L : Type} [DecidableEq K] [DecidableEq L]

theorem bindAll_map (f : K → L) (P : K → Prop) (hf : ∀ v w, P v → P w → f v = f w → v = w) (l : List (K × T)) (hl : ∀ e ∈ l, P e.1)
    (ρ : K → Option T) (ρ' : L → Option T) (h : ∀ v, P v → ρ' (f v) = ρ v) :
    ∀ v, P v → bindAll ρ' (l.map fun e => (f e.1, e.2)) (f v) = bindAll ρ l v := by
  induction l generalizing ρ ρ' with
  | nil => exact h
  | cons e l ih =>
    obtain ⟨k, t⟩ := e
    refine ih (fun e he => hl e (List.mem_cons_of_mem _ he)) _ _ fun v hv => ?_
    by_cases hk : v = k
    · subst hk; simp
    · have : f v ≠ f k := fun hc => hk (hf v k hv (hl (k, t) (List.mem_cons_self ..)) hc)
      simp [hk, this, h v hv]

omit [DecidableEq K] [DecidableEq L] in
theorem zip_map_left' (f : K → L) (l : List K) (ts : List T) : (l.map f).zip ts = (l.zip ts).map fun e => (f e.1, e.2) := by
  induction l generalizing ts with
  | nil => rfl
  | cons a l ih =>
    cases ts with
    | nil => rfl
    | cons t ts => simp [ih]

theorem evalNodes_map (sem : ℕ → List (Option T) → List T) (f : K → L) (P : K → Prop) (hf : ∀ v w, P v → P w → f v = f w → v = w)
    (ns : List (Node K)) (hn : ∀ n ∈ ns, (∀ v, some v ∈ n.ins → P v) ∧ ∀ v ∈ n.outs, P v)
    (ρ : K → Option T) (ρ' : L → Option T) (h : ∀ v, P v → ρ' (f v) = ρ v) :
    ∀ v, P v → evalNodes sem ρ' (ns.map fun n => ⟨n.op, n.ins.map (·.map f), n.outs.map f⟩) (f v) = evalNodes sem ρ ns v := by
  induction ns generalizing ρ ρ' with
  | nil => exact h
  | cons n ns ih =>
    obtain ⟨h1, h2⟩ := hn n (List.mem_cons_self ..)
    have hins : (n.ins.map (·.map f)).map (fun i => i.bind ρ') = n.ins.map fun i => i.bind ρ := by
      rw [List.map_map]
      refine List.map_congr_left fun i hi => ?_
      cases i with
      | none => rfl
      | some v => simpa using h v (h1 v hi)
    refine ih (fun n hn' => hn n (List.mem_cons_of_mem _ hn')) _ _ ?_
    simp only [hins, zip_map_left']
    refine bindAll_map f P hf _ ?_ ρ ρ' h
    rintro ⟨k, t⟩ he
    exact h2 k (List.of_mem_zip he).1

end

/-- The graph in the file means the same as that in memory if names are distinct. -/
theorem eval_toProto (sem : ℕ → List (Option T) → List T) (g : Graph ℕ T) (σ : ℕ → String) (hd : ∀ v w, Has g v → Has g w → σ v = σ w → v = w)
    (args : List T) : eval sem (toProto g σ) args = eval sem g args := by
  unfold eval toProto
  simp only [List.map_map]
  refine List.map_congr_left fun o ho => ?_
  refine evalNodes_map sem σ (Has g) hd g.nodes ?_ _ _ ?_ o (.inr (.inl (.inr ho)))
  · intro n hn
    exact ⟨fun v hv => .inr (.inl (.inl ⟨n, hn, hv⟩)), fun v hv => .inl (.inr ⟨n, hn, hv⟩)⟩
  · rw [zip_map_left']
    refine bindAll_map σ (Has g) hd _ ?_ _ _ ?_
    · rintro ⟨k, t⟩ he
      exact .inr (.inr (List.of_mem_zip he).1)
    · refine bindAll_map σ (Has g) hd _ ?_ _ _ (fun _ _ => rfl)
      intro e he
      exact .inl (.inl (List.mem_map_of_mem he))

theorem foldl_setName (l : List (ℕ × String)) (hn : (l.map Prod.fst).Nodup) (σ : ℕ → String) :
    (∀ e ∈ l, l.foldl (fun σ e => setName σ e.1 e.2) σ e.1 = e.2) ∧
      ∀ v, v ∉ l.map Prod.fst → l.foldl (fun σ e => setName σ e.1 e.2) σ v = σ v := by
  induction l generalizing σ with
  | nil => simp
  | cons a l ih =>
    obtain ⟨ha, hn⟩ := List.nodup_cons.1 hn
    obtain ⟨h1, h2⟩ := ih hn (setName σ a.1 a.2)
    constructor
    · intro e he
      rcases List.mem_cons.1 he with rfl | he
      · rw [List.foldl_cons, h2 _ ha]
        simp [setName]
      · exact h1 e he
    · intro v hv
      simp only [List.map_cons, List.mem_cons, not_or] at hv
      rw [List.foldl_cons, h2 v hv.2]
      simp [setName, hv.1]

theorem map_of_zip {l : List ℕ} {ns : List String} (hl : l.length = ns.length) {σ : ℕ → String} (h : ∀ e ∈ l.zip ns, σ e.1 = e.2) :
    l.map σ = ns := by
  induction l generalizing ns with
  | nil => cases ns <;> simp_all
  | cons a l ih =>
    cases ns with
    | nil => simp at hl
    | cons n ns =>
      simp only [List.zip_cons_cons, List.mem_cons, forall_eq_or_imp] at h
      simp only [List.map_cons, ih (by simpa using hl) h.2, h.1]

/-! ## Properties -/

/-- **C97 (partial).** Altering the names of an exported graph renames each initializer and node output `n` to `prefix_n_0` and nothing else, keeps names
distinct, and the file that is written means what it meant before, for all inputs and whatever the operators mean. This holds if no
value is called `prefix_n_0` before for an initializer or node output `n`. Missing: `altered_name_taken`, `altered_input_taken`. -/
theorem alter_keeps_partial (p : String) (g : Graph ℕ T) (σ : ℕ → String) (ho : Once g) (hd : Distinct g σ)
    (hf : ∀ v w, Defines g v → Has g w → σ w ≠ p ++ "_" ++ σ v ++ "_0") :
    (∀ v, Defines g v → alter p g σ v = p ++ "_" ++ σ v ++ "_0") ∧ (∀ v, Has g v → ¬ Defines g v → alter p g σ v = σ v) ∧
      Distinct g (alter p g σ) ∧ ∀ sem args, eval sem (toProto g (alter p g σ)) args = eval sem (toProto g σ) args := by
  obtain ⟨h1, h2, -, h4⟩ := first_pass p ho hd
  have hA : ∀ v, Defines g v → alter p g σ v = altered p (σ v) := by
    intro v hv
    rw [alter_eq, foldl_follow_stable, h1 v hv]
    rw [h1 v hv]
    exact h4 _ fun w hw => hf v w hv (.inl hw)
  have hB : ∀ v, Has g v → ¬ Defines g v → alter p g σ v = σ v := by
    intro v hv hn
    rw [alter_eq, foldl_follow_stable, h2 v hn]
    rw [h2 v hn]
    refine h4 _ fun w hw he => ?_
    have := hd.2 w v (.inl hw) hv he
    subst this
    exact hn hw
  have hD : Distinct g (alter p g σ) := by
    constructor
    · intro v hv
      by_cases hn : Defines g v
      · rw [hA v hn]; exact altered_ne p _
      · rw [hB v hv hn]; exact hd.1 v hv
    · intro v w hv hw he
      by_cases hn : Defines g v <;> by_cases hm : Defines g w
      · rw [hA v hn, hA w hm] at he
        exact hd.2 v w hv hw (altered_inj he)
      · rw [hA v hn, hB w hw hm] at he
        exact absurd he.symm (hf v w hn hw)
      · rw [hB v hv hn, hA w hm] at he
        exact absurd he (hf w v hm hv)
      · rw [hB v hv hn, hB w hw hm] at he
        exact hd.2 v w hv hw he
  refine ⟨hA, hB, hD, fun sem args => ?_⟩
  rw [eval_toProto sem g _ hD.2, eval_toProto sem g _ hd.2]

/-- **C97 (partial).** If no value is both input and output or output twice and the names given are distinct and not those of other values,
then inputs and outputs get the names given, all other values keep theirs, names stay distinct and the file that is written means what it meant before.
Missing: `given_name_taken`, `passed_through_input` and `returned_twice`. -/
theorem renameIO_keeps_partial (g : Graph ℕ T) (σ : ℕ → String) (ins outs : List String) (hd : Distinct g σ) (hi : g.inputs.length = ins.length)
    (ho : g.outputs.length = outs.length) (hv : (g.inputs ++ g.outputs).Nodup) (hn : (ins ++ outs).Nodup) (he : "" ∉ ins ++ outs)
    (hf : ∀ v, Has g v → v ∉ g.inputs ++ g.outputs → σ v ∉ ins ++ outs) :
    ∃ σ', renameIO g σ (some ins) (some outs) = some σ' ∧ g.inputs.map σ' = ins ∧ g.outputs.map σ' = outs ∧
      (∀ v, v ∉ g.inputs ++ g.outputs → σ' v = σ v) ∧ Distinct g σ' ∧
      ∀ sem args, eval sem (toProto g σ') args = eval sem (toProto g σ) args := by
  have hz : (g.inputs.zip ins ++ g.outputs.zip outs).map Prod.fst = g.inputs ++ g.outputs := by
    rw [List.map_append, List.map_fst_zip (by omega), List.map_fst_zip (by omega)]
  obtain ⟨h1, h2⟩ := foldl_setName (g.inputs.zip ins ++ g.outputs.zip outs) (by rw [hz]; exact hv) σ
  rw [hz] at h2
  generalize hs : List.foldl (fun σ e => setName σ e.1 e.2) σ (g.inputs.zip ins ++ g.outputs.zip outs) = σ' at h1 h2
  have hmi : g.inputs.map σ' = ins := map_of_zip hi fun e h => h1 e (List.mem_append_left _ h)
  have hmo : g.outputs.map σ' = outs := map_of_zip ho fun e h => h1 e (List.mem_append_right _ h)
  have hm : (g.inputs ++ g.outputs).map σ' = ins ++ outs := by rw [List.map_append, hmi, hmo]
  have hD : Distinct g σ' := by
    constructor
    · intro v hv'
      by_cases hm' : v ∈ g.inputs ++ g.outputs
      · intro h
        refine he ?_
        rw [← hm, ← h]
        exact List.mem_map_of_mem hm'
      · rw [h2 v hm']; exact hd.1 v hv'
    · intro v w hv' hw' h
      by_cases ha : v ∈ g.inputs ++ g.outputs <;> by_cases hb : w ∈ g.inputs ++ g.outputs
      · obtain ⟨i, hi', rfl⟩ := List.getElem_of_mem ha
        obtain ⟨j, hj', rfl⟩ := List.getElem_of_mem hb
        have hl : (ins ++ outs).length = (g.inputs ++ g.outputs).length := by simp [hi, ho]
        have hij : (ins ++ outs)[i]'(by omega) = (ins ++ outs)[j]'(by omega) := by
          simp only [← hm, List.getElem_map]
          exact h
        have := (List.getElem_inj hn).1 hij
        subst this
        rfl
      · rw [h2 w hb] at h
        refine absurd ?_ (hf w hw' hb)
        rw [← h, ← hm]
        exact List.mem_map_of_mem ha
      · rw [h2 v ha] at h
        refine absurd ?_ (hf v hv' ha)
        rw [h, ← hm]
        exact List.mem_map_of_mem hb
      · rw [h2 v ha, h2 w hb] at h
        exact hd.2 v w hv' hw' h
  refine ⟨σ', ?_, hmi, hmo, h2, hD, fun sem args => ?_⟩
  · rw [← hs, List.foldl_append]
    simp [renameIO, hi, ho]
  · rw [eval_toProto sem g _ hD.2, eval_toProto sem g _ hd.2]

/-- **C97.** Renaming is refused exactly if the number of names given is wrong; without names given nothing changes. -/
theorem renameIO_refused (g : Graph ℕ T) (σ : ℕ → String) (ins outs : Option (List String)) :
    (renameIO g σ ins outs = none ↔ (∃ l, ins = some l ∧ l.length ≠ g.inputs.length) ∨ ∃ l, outs = some l ∧ l.length ≠ g.outputs.length) ∧
      renameIO g σ none none = some σ := by
  constructor
  · cases ins with
    | none => cases outs with
      | none => simp [renameIO]
      | some m => simp [renameIO, eq_comm]
    | some l => cases outs with
      | none => simp [renameIO, eq_comm]
      | some m =>
        simp only [renameIO, Option.getD_some, ne_eq, ite_eq_left_iff, reduceCtorEq, imp_false, not_not, Option.some.injEq,
          exists_eq_left']
        rw [eq_comm, @eq_comm _ g.outputs.length]
  · have : ∀ (l : List ℕ) (σ' : ℕ → String), σ' = σ → (l.zip (l.map σ)).foldl (fun σ e => setName σ e.1 e.2) σ' = σ := by
      intro l
      induction l with
      | nil => exact fun σ' h => h
      | cons a l ih =>
        rintro σ' rfl
        simp only [List.map_cons, List.zip_cons_cons, List.foldl_cons]
        refine ih _ (funext fun v => ?_)
        by_cases hv : v = a <;> simp [setName, hv]
    simp [renameIO, this]

/-! ## Deviations -/

/-- **C97, deviation.** If a graph has values `n` and `prefix_n_0`, both initializers or node outputs, and the first is used anywhere, then altering names
gives both the same name (unless it goes on with `prefix_prefix_n_0_0`). -/
theorem altered_name_taken (p : String) (g : Graph ℕ T) (σ : ℕ → String) (ho : Once g) (hd : Distinct g σ) (v w : ℕ) (hv : Defines g v)
    (hu : Uses g v) (hw : Defines g w) (hn : σ w = p ++ "_" ++ σ v ++ "_0") (hlast : ∀ x, Defines g x → σ x ≠ p ++ "_" ++ σ w ++ "_0") :
    v ≠ w ∧ alter p g σ v = alter p g σ w := by
  obtain ⟨h1, h2, h3, h4⟩ := first_pass p ho hd
  refine ⟨fun h => ?_, ?_⟩
  · subst h
    exact altered_ne_self p (σ v) hn.symm
  · have hn : σ w = altered p (σ v) := hn
    rw [alter_eq, foldl_follow_moved _ _ _ v (altered p (σ w)) (uses_mem hu) (by rw [h1 v hv]; exact altered_ne p _)
      (by rw [h1 v hv, ← hn]; exact h3 w hw) (h4 _ hlast), foldl_follow_stable _ _ _ w (by rw [h1 w hw]; exact h4 _ hlast), h1 w hw]

/-- **C97, deviation.** If the graph has an input called `prefix_n_0` and a value `n` of its own, then altering names gives both the same name. -/
theorem altered_input_taken (p : String) (g : Graph ℕ T) (σ : ℕ → String) (ho : Once g) (hd : Distinct g σ) (v w : ℕ) (hv : Defines g v)
    (hw : w ∈ g.inputs) (hw' : ¬ Defines g w) (hn : σ w = p ++ "_" ++ σ v ++ "_0") : v ≠ w ∧ alter p g σ v = alter p g σ w := by
  obtain ⟨h1, h2, h3, h4⟩ := first_pass p ho hd
  have hk : ∀ x, Defines g x → σ x ≠ σ w := by
    intro x hx he
    have := hd.2 x w (.inl hx) (.inr (.inr hw)) he
    subst this
    exact hw' hx
  refine ⟨?_, ?_⟩
  · rintro rfl
    exact hw' hv
  · have hn : σ w = altered p (σ v) := hn
    rw [alter_eq, foldl_follow_stable _ _ _ v (by rw [h1 v hv, ← hn]; exact h4 _ hk), foldl_follow_stable _ _ _ w (by rw [h2 w hw']; exact h4 _ hk),
      h1 v hv, h2 w hw', hn]

/-- The values in `shifted`. -/
def names : ℕ → String
  | 0 => "x"
  | 1 => "add"
  | 2 => "ff_add_0"
  | _ => "y"

/-- `add = f(x); ff_add_0 = g(x); y = h(add, ff_add_0)`. -/
def shifted : Graph ℕ ℕ := ⟨[], [0], [⟨1, [some 0], [1]⟩, ⟨2, [some 0], [2]⟩, ⟨3, [some 1, some 2], [3]⟩], [3]⟩

/-- **C97, deviation.** Altering names can change what the exported file computes. -/
theorem alter_changes_meaning : ∃ (g : Graph ℕ ℕ) (σ : ℕ → String) (sem : ℕ → List (Option ℕ) → List ℕ) (args : List ℕ), Once g ∧
    Distinct g σ ∧ eval sem (toProto g (alter "ff" g σ)) args ≠ eval sem (toProto g σ) args := by
  refine ⟨shifted, names, fun op l => match op, l with
    | 1, [some x] => [x + 1]
    | 2, [some x] => [x + 2]
    | _, [some x, some y] => [10 * x + y]
    | _, _ => [], [0], by unfold Once; decide, ?_, by decide +kernel⟩
  have hh : ∀ v, Has shifted v → v = 0 ∨ v = 1 ∨ v = 2 ∨ v = 3 := by
    intro v
    simp [Has, Defines, Uses, shifted]
    omega
  constructor
  · intro v hv
    rcases hh v hv with rfl | rfl | rfl | rfl <;> decide
  · intro v w hv hw
    rcases hh v hv with rfl | rfl | rfl | rfl <;> rcases hh w hw with rfl | rfl | rfl | rfl <;> decide

/-- **C97, deviation.** A name given for an output is not compared with those of other values: calling the output `add` changes what is computed. -/
theorem given_name_taken : ∃ (g : Graph ℕ ℕ) (σ σ' : ℕ → String) (sem : ℕ → List (Option ℕ) → List ℕ) (args : List ℕ), Once g ∧
    renameIO g σ none (some ["add", "out"]) = some σ' ∧ (∀ v ∈ [0, 1, 2, 3], ∀ w ∈ [0, 1, 2, 3], σ v = σ w → v = w) ∧
    eval sem (toProto g σ') args ≠ eval sem (toProto g σ) args := by
  refine ⟨⟨[], [0], [⟨1, [some 0], [1]⟩, ⟨2, [some 0], [2]⟩, ⟨3, [some 1], [3]⟩], [2, 3]⟩, names, _, fun op l => match op, l with
    | 1, [some x] => [x + 1]
    | 2, [some x] => [x + 2]
    | _, [some x] => [10 * x]
    | _, _ => [], [0], by unfold Once; decide, rfl, by decide, by decide +kernel⟩

/-- **C97, deviation.** An input that is returned as it is gets its old name back: the name given for it is lost, even if none is given
for outputs. -/
theorem passed_through_input (g : Graph ℕ T) (σ : ℕ → String) (v : ℕ) (ins : List String) (hi : g.inputs.length = ins.length)
    (ho : v ∈ g.outputs) (hn : g.outputs.Nodup) : ∃ σ', renameIO g σ (some ins) none = some σ' ∧ σ' v = σ v := by
  refine ⟨_, by simp [renameIO, hi]; rfl, ?_⟩
  have h1 := (foldl_setName (g.outputs.zip (g.outputs.map σ)) (by rw [List.map_fst_zip (by simp)]; exact hn)
    ((g.inputs.zip ins).foldl (fun σ e => setName σ e.1 e.2) σ)).1
  refine h1 (v, σ v) ?_
  obtain ⟨i, hi', rfl⟩ := List.getElem_of_mem ho
  refine List.mem_iff_getElem.2 ⟨i, by simp [hi'], by simp⟩

/-- **C97, deviation.** If a model returns a tensor twice, both outputs get the second name given. -/
theorem returned_twice (g : Graph ℕ T) (σ : ℕ → String) (v : ℕ) (a b : String) (ho : g.outputs = [v, v]) :
    ∃ σ', renameIO g σ none (some [a, b]) = some σ' ∧ (toProto g σ').outputs = [b, b] := by
  refine ⟨_, by simp [renameIO, ho]; rfl, ?_⟩
  simp [toProto, ho, setName]

/-! ## Concrete cases -/

/-- `w` an initializer, `add = f(x, w)`, `y = g(add, None)`. -/
def sample : Graph ℕ ℕ := ⟨[(2, 5)], [0], [⟨1, [some 0, some 2], [1]⟩, ⟨2, [some 1, none], [3]⟩], [3]⟩

/-- Their names. -/
def sampleNames : ℕ → String
  | 0 => "x"
  | 1 => "add"
  | 2 => "w"
  | _ => "y"

theorem sample_has : ∀ v, Has sample v → v = 0 ∨ v = 1 ∨ v = 2 ∨ v = 3 := by
  intro v
  simp [Has, Defines, Uses, sample]
  omega

example : Once sample ∧ Distinct sample sampleNames ∧
    ∀ v w, Defines sample v → Has sample w → sampleNames w ≠ "ff" ++ "_" ++ sampleNames v ++ "_0" := by
  refine ⟨by unfold Once; decide, ⟨?_, ?_⟩, ?_⟩
  · intro v hv
    rcases sample_has v hv with rfl | rfl | rfl | rfl <;> decide
  · intro v w hv hw
    rcases sample_has v hv with rfl | rfl | rfl | rfl <;> rcases sample_has w hw with rfl | rfl | rfl | rfl <;> decide
  · intro v w hv hw
    rcases sample_has v (.inl hv) with rfl | rfl | rfl | rfl <;> rcases sample_has w hw with rfl | rfl | rfl | rfl <;> decide

example : [0, 1, 2, 3].map (alter "ff" sample sampleNames) = ["x", "ff_add_0", "ff_w_0", "ff_y_0"] := by decide +kernel

/-- The conditions of `renameIO_keeps_partial`, for input name `in` and output name `out`. -/
example : sample.inputs.length = ["in"].length ∧ sample.outputs.length = ["out"].length ∧ (sample.inputs ++ sample.outputs).Nodup ∧
    (["in"] ++ ["out"]).Nodup ∧ "" ∉ ["in"] ++ ["out"] ∧
    ∀ v, Has sample v → v ∉ sample.inputs ++ sample.outputs → sampleNames v ∉ ["in"] ++ ["out"] := by
  refine ⟨rfl, rfl, by decide, by decide, by decide, fun v hv => ?_⟩
  rcases sample_has v hv with rfl | rfl | rfl | rfl <;> decide

/-- The conditions of `altered_name_taken`. -/
example : Defines shifted 1 ∧ Uses shifted 1 ∧ Defines shifted 2 ∧ names 2 = "ff" ++ "_" ++ names 1 ++ "_0" := by
  refine ⟨.inr ⟨_, List.mem_cons_self .., by simp⟩, .inl ⟨⟨3, [some 1, some 2], [3]⟩, by simp [shifted], by simp⟩,
    .inr ⟨⟨2, [some 0], [2]⟩, by simp [shifted], by simp⟩, by decide⟩

end FF.OnnxNames
