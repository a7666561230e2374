import Verif.Orch.TraceBuild
import Verif.Orch.Module
import Verif.Orch.ExecCases

/-! # Tracing: properties (C84) -/

namespace FF.Trace

open FF.Orch

variable {V W : Type}

/-! ### Lemmas: the output -/

theorem all_nodes {l : List Arg} (h : ∀ a ∈ l, ∃ i, a = .node i) : ∃ is : List ℕ, l = is.map .node := by
  induction l with
  | nil => exact ⟨[], rfl⟩
  | cons a l ih =>
    obtain ⟨i, rfl⟩ := h a (by simp)
    obtain ⟨is, rfl⟩ := ih fun b hb => h b (by simp [hb])
    exact ⟨i :: is, rfl⟩

/-- The parts of a build. -/
theorem build_parts {t : Callables} {onOriginal : String → Bool} {rename : String → String} {nodes : List Fx} {out : Arg} {g : Graph}
    (h : build t onOriginal rename nodes out = .ok g) :
    ∃ s rs s' r, buildNodes t onOriginal rename "" nodes {} = .ok s ∧ flatRefs s.refs out.items = .ok rs ∧ (∀ r ∈ rs, isNodeRef r = true) ∧
      s.add "_prepare_output" t.unflatten false rs [] = .ok (s', r) ∧ g = { s'.graph with outputs := s'.graph.outputs ++ [r] } := by
  unfold build at h
  split at h
  · simp at h
  · rename_i s hs
    obtain ⟨s2, h2, rfl⟩ := map_ok h
    unfold rootOutput at h2
    split at h2
    · simp at h2
    · rename_i rs hrs
      split_ifs at h2 with hall
      split at h2
      · simp at h2
      · rename_i s' r ha
        simp only [Except.ok.injEq] at h2
        exact ⟨s, rs, s', r, hs, hrs, List.all_eq_true.1 hall, ha, by rw [← h2]⟩

/-- What is built. -/
theorem build_ok {t : Callables} {onOriginal : String → Bool} {rename : String → String} {nodes : List Fx} {out : Arg} {g : Graph}
    (hreg : Regular "" nodes) (h : build t onOriginal rename nodes out = .ok g) :
    ∃ k, GraphOk g k ∧ g.inputs = (placeholders nodes).map rename ∧ ∃ r, g.outputs = [r] ∧ Fine g r ∧ isNodeRef r = true ∧
      ((∀ a ∈ out.parts, ∃ i, a = .node i) → ∀ (sem : Sem V W) (w : W) (c : Ctx) (P : Lang V) (b : String → V) v, Behaves t sem w c P →
        Faithful t sem w c P onOriginal "" nodes → modelValue P onOriginal nodes out (fun x => b (rename x)) = some v →
        Live sem w c b g ∧ Val sem g w c b r v) := by
  obtain ⟨s, rs, s', r, h1, h2, _, h3, rfl⟩ := build_parts h
  obtain ⟨hb, hf⟩ := buildNodes_ok (V := V) (W := W) t onOriginal nodes rename "" {} s (empty_ok 0) hreg h1
  obtain ⟨st, hr, hn, hval⟩ := add_ok (V := V) (W := W) hb.ok (flatRefs_fine hb.ok h2) (by simp) h3
  have ho : s'.graph.outputs = [] := by rw [st.outputs, hb.outputs]
  have he := ext_outputs s'.graph [r]
  rw [ho, List.nil_append]
  refine ⟨s'.next, graphOk_outputs st.ok.graph (by simpa using hr), ?_, r, rfl, fine_ext he hr, hn, fun hitems sem w c P b v hbe hfa hv => ?_⟩
  · show s'.graph.inputs = _
    rw [st.inputs, hb.inputs]
    rfl
  · unfold modelValue at hv
    split at hv
    · simp at hv
    · rename_i env henv
      simp only [Option.map_eq_some_iff] at hv
      obtain ⟨vs, hvs, rfl⟩ := hv
      obtain ⟨ag, lv⟩ := hf sem w c P b (fun x => some (b (rename x))) (fun _ => none) env hbe hfa (by simp +contextual [eq_comm])
        (by intro i v hi; simp at hi) (by intro n hn; simp at hn) henv
      obtain ⟨is, his⟩ := all_nodes hitems
      rw [Arg.items_eq, his] at h2
      rw [his] at hvs
      obtain ⟨l1, v1⟩ := hval sem w c b vs [] _ (flatRefs_vals ag h2 hvs) .nil (hbe.unflatten vs) lv
      exact ⟨live_same he rfl rfl l1, val_ext he v1⟩

/-! ### Lemmas: running what is built -/

/-- The nodes in the order in which they are added. -/
theorem ordered_valid {g : Graph} {k : ℕ} (h : GraphOk g k) : ValidOrder g g.leafIds := by
  refine ⟨.refl _, ?_⟩
  intro pre n post he m hm
  have hord := ordered_leaves (seen' := []) (by simp) h.ordered
  rw [show g.leafIds = (g.nodes.filter fun n => !g.folds.contains n.id).map (·.id) from rfl] at he
  obtain ⟨l1, l2, hl, rfl, hl2⟩ := List.map_eq_append_iff.1 he
  obtain ⟨node, l3, rfl, rfl, rfl⟩ := List.map_eq_cons_iff.1 hl2
  have hmem : node ∈ g.nodes.filter fun n => !g.folds.contains n.id := by rw [hl]; simp
  obtain ⟨hn1, hn2⟩ := List.mem_filter.1 hmem
  obtain ⟨node', hn', hid, r, hr, hu⟩ := hm
  obtain rfl : node' = node := by
    have e1 := find_of_mem h.closed.ids hn'
    have e2 := find_of_mem h.closed.ids hn1
    rw [hid, e2] at e1
    exact (Option.some.inj e1).symm
  have hall : r ∈ node'.allArgs := by
    rcases hr with hr | ⟨k, hr⟩
    · exact List.mem_append_left _ hr
    · exact List.mem_append_right _ (List.mem_map.2 ⟨_, hr, rfl⟩)
  rw [h.simple node' hn1 r hall] at hu
  subst hu
  obtain ⟨h1, _⟩ := ordered_split hord hl (by simpa using hn2) hall
  simpa using h1

theorem fine_live {sem : Sem V W} {w : W} {c : Ctx} {b : String → V} {g : Graph} (hl : Live sem w c b g) {r : Ref} (hr : Fine g r) :
    ∃ v, Val sem g w c b r v := by
  obtain ⟨h1, h2, h3⟩ := hr
  cases r with
  | node id =>
    obtain ⟨n, hn, rfl⟩ := h2.1 id rfl
    exact hl n hn (h3 _ rfl)
  | input x => exact ⟨_, .input (h2.2 x rfl)⟩
  | const k => exact ⟨_, val_const⟩
  | attr q a =>
    exfalso
    have : ∀ q : Ref, (∀ q' a', q.unwrap ≠ .attr q' a') := by
      intro q
      induction q with
      | attr q a ih => exact ih
      | _ => simp [Ref.unwrap]
    exact this _ _ _ h1

theorem sub_simple {r r' : Ref} (hr : r.unwrap = r) (h : Ref.Sub r' r) : r' = r := by
  cases h with
  | refl => rfl
  | @step q _ a _ =>
    exfalso
    have : ∀ q : Ref, (∀ q' a', q.unwrap ≠ .attr q' a') := by
      intro q
      induction q with
      | attr q a ih => exact ih
      | _ => simp [Ref.unwrap]
    exact this _ _ _ hr

/-! ### Properties -/

/-- **C84 (partial).** The graph built from an exported model computes what the exported model computes: for all values of the inputs, the output of the
graph is the return structure of the model filled with the items of its output, however deep modules are nested, whenever calling a module computes what
its traced graph computes.

Missing: outputs that are constants (`constant_output_dropped`) and modules that return one value in a tuple or values in a list. -/
theorem traced_value_partial (t : Callables) (onOriginal : String → Bool) (rename : String → String) (nodes : List Fx) (out : Arg) (g : Graph)
    (hreg : Regular "" nodes) (hitems : ∀ a ∈ out.parts, ∃ i, a = .node i) (h : build t onOriginal rename nodes out = .ok g)
    (sem : Sem V W) (w : W) (c : Ctx) (P : Lang V) (hb : Behaves t sem w c P) (hf : Faithful t sem w c P onOriginal "" nodes)
    (b : String → V) (v : V) (hv : modelValue P onOriginal nodes out (fun x => b (rename x)) = some v) :
    g.inputs = (placeholders nodes).map rename ∧ ∃ r, g.outputs = [r] ∧ Val sem g w c b r v ∧
      ∀ n ∈ g.leafIds, ∃ u, Val sem g w c b (.node n) u := by
  obtain ⟨k, _, hin, r, ho, _, _, hval⟩ := build_ok (V := V) (W := W) hreg h
  obtain ⟨hl, hv'⟩ := hval hitems sem w c P b v hb hf hv
  refine ⟨hin, r, ho, hv', fun n hn => ?_⟩
  obtain ⟨m, hm, rfl, hmf⟩ := mem_leafIds.1 hn
  exact hl m hm hmf

/-- **C84 (partial).** A call of the traced graph returns what the exported model returns, and changes no module: its nodes have an order, the call runs
and the one value that it gives is the model's.

Missing: as for `traced_value_partial`; nodes that the output does not depend on. -/
theorem traced_call_partial (t : Callables) (onOriginal : String → Bool) (rename : String → String) (nodes : List Fx) (out : Arg) (g : Graph)
    (hreg : Regular "" nodes) (hitems : ∀ a ∈ out.parts, ∃ i, a = .node i) (h : build t onOriginal rename nodes out = .ok g)
    (hneed : ∀ n ∈ g.leafIds, Needed g 0 n)
    (sem : Sem V W) (w : W) (P : Lang V) (hb : Behaves t sem w 0 P) (hf : Faithful t sem w 0 P onOriginal "" nodes)
    (args : List (RawInput V)) (kwargs : List (String × RawInput V)) (hk : (kwargs.map (·.1)).Nodup)
    (hacc : Acceptable ((placeholders nodes).map rename) args kwargs) (b : String → V)
    (hinp : ∀ x u, Gives ((placeholders nodes).map rename) args kwargs x u → u.dataset = [b x])
    (v : V) (hv : modelValue P onOriginal nodes out (fun x => b (rename x)) = some v) :
    ∃ order, topologicalSort g = .ok order ∧ runGraph sem g order w args kwargs = (w, .ok (some [(0, [[v]])])) := by
  classical
  obtain ⟨k, hg, hin, r, ho, hfr, hnr, hval⟩ := build_ok (V := V) (W := W) hreg h
  obtain ⟨hl, hv'⟩ := hval hitems sem w 0 P b v hb hf hv
  obtain ⟨id, rfl⟩ : ∃ id, r = .node id := by
    cases r <;> simp_all [isNodeRef]
  have hid : id ∈ g.leafIds := by
    obtain ⟨n, hn, rfl⟩ := hfr.2.1.1 id rfl
    exact mem_leafIds.2 ⟨n, hn, rfl, hfr.2.2 _ rfl⟩
  have hout : ∀ r ∈ g.outputs, ∃ n ∈ g.leafIds, r.unwrap = .node n := by
    intro r hr
    rw [ho, List.mem_singleton] at hr
    exact ⟨id, hid, by rw [hr]; rfl⟩
  obtain ⟨order, ht⟩ := topological_sort_complete g hg.closed.ids _ (ordered_valid hg)
  have hvo := topological_sort_valid g hg.closed.ids order ht
  rw [← hin] at hacc hinp
  have hleaf : ∀ n ∈ g.leaves, n ∈ g.nodes ∧ n.id ∉ g.folds := by
    intro n hn
    obtain ⟨h1, h2⟩ := List.mem_filter.1 hn
    exact ⟨h1, by simpa using h2⟩
  have hfine : ∀ n ∈ g.leaves, ∀ r ∈ n.allArgs, Fine g r := by
    intro n hn r hr
    obtain ⟨h1, h2⟩ := hleaf n hn
    refine ⟨hg.simple n h1 r hr, hg.closed.args n h1 r hr, ?_⟩
    rintro m rfl
    obtain ⟨p, q, hpq⟩ := List.append_of_mem h1
    exact (ordered_split hg.ordered hpq h2 hr).2
  have hwf : WellFormed g := by
    refine ⟨hg.closed.ids, hg.closed.names, ?_, ?_, hout, fun n hn => ⟨0, hneed n hn⟩⟩
    · exact fun n hn r hr x hx => (hfine n hn r hr).2.1.2 x hx
    · intro n hn r hr j hj
      rw [(hfine n hn r hr).1] at hj
      exact hj
  have hdef : Defined sem g (fun x => [b x]) (fun _ => w) := by
    have hbase : ∀ r, Fine g r → ∀ c, BaseIn g c r → ∃ d, Den sem g (fun x => [b x]) (fun _ => w) c r d := by
      intro r hr c hc
      obtain rfl | hc0 := Classical.em (c = 0)
      · obtain ⟨u, hu⟩ := fine_live hl hr
        exact ⟨_, hu⟩
      · rcases hc with ⟨n, _, hn⟩ | ⟨x, hx, _⟩
        · exact absurd (plain_needed hg.plain hn) hc0
        · rw [hr.1] at hx
          subst hx
          exact ⟨_, .input (hr.2.1.2 x rfl)⟩
    refine ⟨?_, ?_, ?_⟩
    · intro c n hn hnd
      obtain rfl := plain_needed hg.plain hnd
      obtain ⟨m, hm, rfl, hmf⟩ := mem_leafIds.1 hn
      obtain ⟨u, hu⟩ := hl m hm hmf
      exact ⟨_, hu⟩
    · intro n hn r hr r' hsub c hc
      obtain rfl := sub_simple (hfine n hn r hr).1 hsub
      exact hbase _ (hfine n hn _ hr) c hc
    · intro r hr r' hsub c hc
      rw [ho, List.mem_singleton] at hr
      subst hr
      obtain rfl := sub_simple (r := .node id) rfl hsub
      exact hbase _ hfr c hc
  have hrt : RunsTo sem g (fun x => [b x]) (fun _ => w) w order w := plain_runsTo sem _ w hg.plain order fun i hi => by
    obtain ⟨n, hn, hid', _⟩ := mem_leafIds.1 (hvo.1.mem_iff.1 hi)
    rw [← hid', find_of_mem hg.closed.ids hn]
    rfl
  have hinp' : ∀ x u, Gives g.inputs args kwargs x u → [b x] = u.dataset := fun x u hu => (hinp x u hu).symm
  obtain ⟨res, hres⟩ := run_completes sem g hwf order hvo args kwargs hk hacc _ hinp' w w (fun _ => w) hrt hdef (by
    intro c ds hds d hd d' hd'
    have : ds.length ≤ 1 := by
      rw [← hds.length_eq, ho]
      exact List.length_filter_le ..
    match ds, this with
    | [], _ => simp at hd
    | [x], _ => simp only [List.mem_singleton] at hd hd'; rw [hd, hd'])
  obtain ⟨wAt, h1, _, h3⟩ := scheduled_run_denotes sem g hg.closed.ids hg.closed.names order hvo hout args kwargs hk _ hinp' w w res hres
  obtain ⟨_, hw⟩ := plain_runs hg.plain h1
  obtain ⟨o, rfl, ho'⟩ := h3 (by rw [ho]; simp)
  obtain ⟨rows, ds, rfl, hds, htr⟩ := plain_returns hg.plain (by rw [ho]; simp) hout ho'
  refine ⟨order, ht, ?_⟩
  rw [hres]
  rw [ho] at hds
  cases hds with
  | cons hd hnil =>
    cases hnil
    have hd' := den_world hvo hw (fun n hrn => by cases hrn; exact hvo.1.mem_iff.2 hid) hd
    obtain rfl := denotation_unique hd' hv'
    have hone : Transposed [[v]] [[v]] := by
      refine ⟨by simp, by simp, fun i j d row h1 h2 => ?_⟩
      rw [List.getElem?_singleton] at h1 h2
      split_ifs at h1 h2 with h3 h4
      subst h3 h4
      rw [← Option.some.inj h1, ← Option.some.inj h2]
    rw [transposed_unique (by simp) htr hone]

/-! ### Lemmas: names -/

theorem between_some (pre m : String) (hm : m ≠ "") : between pre (pre ++ m ++ "_") = some m := by
  have hl : m.toList ≠ [] := by
    intro h
    exact hm (by simpa using congrArg String.ofList h)
  have hd : (pre ++ m ++ "_").toList.drop pre.toList.length = m.toList ++ ['_'] := by
    simp [String.toList_append, List.append_assoc]
  have h1 : pre.toList.isPrefixOf (pre ++ m ++ "_").toList = true := by
    rw [List.isPrefixOf_iff_prefix]
    exact ⟨m.toList ++ "_".toList, by simp [String.toList_append]⟩
  have h2 : 1 < (m.toList ++ ['_']).length := by
    have := List.length_pos_of_ne_nil hl
    simp only [List.length_append, List.length_singleton]
    omega
  unfold between
  simp only [hd]
  rw [if_pos ⟨h1, by simp, h2⟩]
  simp

theorem between_none {pre name : String} (h : ¬ pre.toList <+: name.toList) : between pre name = none := by
  unfold between
  simp only
  rw [if_neg]
  rintro ⟨h1, _⟩
  exact h (List.isPrefixOf_iff_prefix.1 h1)

theorem traces_get (l : List (ℕ × Except GErr Graph)) (cache : List (ℕ × Graph)) (m : ℕ) :
    Dict.get (traces cache l) m = (Dict.get cache m).or ((l.filter fun p => p.1 = m).findSome? fun p => p.2.toOption) := by
  induction l generalizing cache with
  | nil => simp [traces]
  | cons p l ih =>
    obtain ⟨m', made⟩ := p
    simp only [traces]
    rw [ih]
    by_cases hm : m' = m
    · subst hm
      simp only [decide_true, List.filter_cons_of_pos, List.findSome?_cons]
      unfold trace
      cases hc : Dict.get cache m' with
      | some g => simp [hc]
      | none =>
        cases made with
        | error e => simp [hc, Except.toOption]
        | ok g => simp [Except.toOption]
    · rw [List.filter_cons_of_neg (by simpa using hm)]
      congr 1
      unfold trace
      cases hc : Dict.get cache m' with
      | some g => rfl
      | none =>
        cases made with
        | error e => rfl
        | ok g => exact Dict.get_set_ne _ _ hm

/-! ### Properties: names and repeated traces -/

/-- **C84.** The inputs of the traced graph carry the names of the model's parameters: `l_a_<i>_` stands for the `i`-th positional parameter, `l_kw_<name>_`
for the keyword `name`, and other names are kept. -/
theorem parameter_names (positional : List String) :
    (∀ k : String, k ≠ "" → unmangle positional ("l_kw_" ++ k ++ "_") = k) ∧
    (∀ (i : ℕ) (x : String), positional[i]? = some x → unmangle positional ("l_a_" ++ toString i ++ "_") = x) ∧
    (∀ i : ℕ, positional.length ≤ i → unmangle positional ("l_a_" ++ toString i ++ "_") = "arg_" ++ toString i) ∧
    ∀ name : String, ¬ "l_kw_".toList <+: name.toList → ¬ "l_a_".toList <+: name.toList → unmangle positional name = name := by
  have hidx : ∀ i : ℕ, unmangle positional ("l_a_" ++ toString i ++ "_") = (positional[i]?).getD s!"arg_{i}" := by
    intro i
    have hne : toString i ≠ "" := by
      intro h
      have := congrArg String.toList h
      rw [Nat.toString_eq_ofList_toDigits] at this
      simp at this
    unfold unmangle
    rw [between_none, between_some _ _ hne]
    · simp only
      have hd : (toString i).toList = Nat.toDigits 10 i := by rw [Nat.toString_eq_ofList_toDigits]; simp
      rw [hd, if_pos, Nat.ofDigitChars_ten_toDigits]
      rw [List.all_eq_true]
      intro ch hch
      exact Nat.isDigit_of_mem_toDigits (by omega) (by omega) hch
    · simp [String.toList_append, List.cons_prefix_cons]
  refine ⟨fun k hk => ?_, fun i x hx => ?_, fun i hi => ?_, fun name h1 h2 => ?_⟩
  · unfold unmangle
    rw [between_some _ _ hk]
  · rw [hidx, hx]
    rfl
  · rw [hidx, List.getElem?_eq_none hi]
    rfl
  · unfold unmangle
    rw [between_none h1, between_none h2]

/-- **C84.** A model traced with positional arguments and then keywords gives a graph whose inputs are these parameters, in this order: it is called as
the model is. -/
theorem traced_inputs (t : Callables) (onOriginal : String → Bool) (positional keywords : List String) (n : ℕ) (hn : n ≤ positional.length)
    (hk : ∀ k ∈ keywords, k ≠ "") (nodes : List Fx) (out : Arg) (g : Graph) (hreg : Regular "" nodes)
    (hp : placeholders nodes = ((List.range n).map fun i => "l_a_" ++ toString i ++ "_") ++ keywords.map fun k => "l_kw_" ++ k ++ "_")
    (h : build t onOriginal (unmangle positional) nodes out = .ok g) : g.inputs = positional.take n ++ keywords := by
  obtain ⟨k, _, hin, _⟩ := build_ok (V := ℕ) (W := ℕ) hreg h
  obtain ⟨n1, n2, _, _⟩ := parameter_names positional
  rw [hin, hp, List.map_append, List.map_map, List.map_map]
  congr 1
  · apply List.ext_getElem?
    intro i
    rw [List.getElem?_map, List.getElem?_take]
    by_cases hi : i < n
    · rw [List.getElem?_range hi, if_pos hi]
      have hi' : i < positional.length := by omega
      rw [List.getElem?_eq_getElem hi']
      simp only [Option.map_some, Function.comp, Option.some.injEq]
      exact n2 i _ (List.getElem?_eq_getElem hi')
    · rw [List.getElem?_eq_none (by simpa using hi), if_neg hi]
      rfl
  · rw [List.map_congr_left (g := id) (f := unmangle positional ∘ fun k => "l_kw_" ++ k ++ "_") (fun k hk' => n1 k (hk k hk')), List.map_id]

/-- **C84.** Tracing a module again gives the graph of its first trace that succeeded, after any traces of this and other modules; a module that has
not been traced gets the graph of its own export. -/
theorem traced_once (history : List (ℕ × Except GErr Graph)) (m : ℕ) (made : Except GErr Graph) :
    (∀ before g after, history = before ++ (m, .ok g) :: after → (∀ p ∈ before, p.1 = m → ∀ g', p.2 ≠ .ok g') →
      (trace (traces [] history) m made).2 = .ok g) ∧
    ((∀ p ∈ history, p.1 = m → ∀ g', p.2 ≠ .ok g') → (trace (traces [] history) m made).2 = made) := by
  have hnone : ∀ l : List (ℕ × Except GErr Graph), (∀ p ∈ l, p.1 = m → ∀ g', p.2 ≠ .ok g') →
      ((l.filter fun p => p.1 = m).findSome? fun p => p.2.toOption) = none := by
    intro l hl
    rw [List.findSome?_eq_none_iff]
    intro p hp
    obtain ⟨h1, h2⟩ := List.mem_filter.1 hp
    cases hp2 : p.2 with
    | error e => rfl
    | ok g => exact absurd hp2 (hl p h1 (by simpa using h2) g)
  refine ⟨fun before g after hh hb => ?_, fun hh => ?_⟩
  · have : Dict.get (traces [] history) m = some g := by
      rw [traces_get, hh]
      simp only [Dict.get, Option.none_or, List.filter_append, List.findSome?_append, hnone before hb]
      simp [Except.toOption]
    unfold trace
    rw [this]
  · have : Dict.get (traces [] history) m = none := by
      rw [traces_get, hnone history hh]
      rfl
    unfold trace
    rw [this]
    cases made <;> rfl

/-! ### Deviations -/

/-- Whether an item of an output is a node. -/
def isNode : Arg → Bool
  | .node _ => true
  | _ => false

theorem flatRefs_filter (refs : List (ℕ × Ref)) (l : List Arg) : flatRefs refs l = flatRefs refs (l.filter isNode) := by
  induction l with
  | nil => rfl
  | cons a l ih =>
    cases a with
    | node i =>
      rw [List.filter_cons_of_pos rfl]
      simp only [flatRefs, ih]
    | _ =>
      rw [List.filter_cons_of_neg (by simp [isNode])]
      simp only [flatRefs, ih]

/-- **C84, deviation.** Constants in the output of a model are left out: the graph of a model that returns `(x, None)` fills the model's return structure with
`x` alone, as if the model returned only what it computes. -/
theorem constant_output_dropped (t : Callables) (onOriginal : String → Bool) (rename : String → String) (nodes : List Fx) (out : Arg) (g : Graph)
    (hreg : Regular "" nodes) (h : build t onOriginal rename nodes out = .ok g)
    (sem : Sem V W) (w : W) (c : Ctx) (P : Lang V) (hb : Behaves t sem w c P) (hf : Faithful t sem w c P onOriginal "" nodes)
    (b : String → V) (v : V) (hv : modelValue P onOriginal nodes (.tuple (out.parts.filter isNode)) (fun x => b (rename x)) = some v) :
    ∃ r, g.outputs = [r] ∧ Val sem g w c b r v := by
  have hsame : build t onOriginal rename nodes (.tuple (out.parts.filter isNode)) = .ok g := by
    rw [← h]
    unfold build rootOutput
    cases buildNodes t onOriginal rename "" nodes {} with
    | error e => rfl
    | ok s =>
      simp only
      rw [flatRefs_filter s.refs (Arg.items out), Arg.items_eq, Arg.items_eq, show Arg.parts (.tuple (out.parts.filter isNode)) = out.parts.filter isNode from rfl]
  obtain ⟨_, r, h1, h2, _⟩ := traced_value_partial t onOriginal rename nodes _ g hreg (by
    intro a ha
    obtain ⟨_, ha⟩ := List.mem_filter.1 ha
    cases a <;> simp_all [isNode]) hsame sem w c P hb hf b v hv
  exact ⟨r, h1, h2⟩

/-- **C84, deviation.** A model that returns its input cannot be traced. -/
theorem returned_input_refused (t : Callables) (onOriginal : String → Bool) (rename : String → String) (x : String) :
    build t onOriginal rename [.placeholder 0 x] (.node 0) = .error .typeError := by
  simp [build, buildNodes, buildNode, rootOutput, Arg.items, flatRefs, Dict.get, Dict.set, Except.map, isNodeRef]

/-- **C84, deviation.** Whether the original module can be called is decided by the number of its arguments: where `forward(a, b, c=None)` is exported as a
call with `a` and `c`, because `b` is not used, the original is called with `c` for `b`. -/
theorem argument_misbound (t : Callables) (onOriginal : String → Bool) :
    ∃ g, build t onOriginal id [.placeholder 0 "a", .placeholder 1 "c", .callModule 2 "m" "m" (some 2)
        [.placeholder 0 "a", .placeholder 1 "c", .callFunction 2 "f" 0 [.node 0, .node 1] []] (.node 2) [.node 0, .node 1] []] (.node 2) = .ok g ∧
      (g.find? 0).map (fun n => (n.target, n.args, n.kwargs)) = some (t.original "m", [.input "a", .input "c"], []) := ⟨_, rfl, rfl⟩

/-- **C84, deviation.** A module that is traced again with other example inputs, or after it has changed, gets the graph of the first trace. -/
theorem stale_trace (m : ℕ) (first later : Graph) : (trace (traces [] [(m, .ok first)]) m (.ok later)).2 = .ok first :=
  (traced_once [(m, .ok first)] m (.ok later)).1 [] first [] rfl (by simp)

/-! ### Concrete cases -/

/-- Numbers for values: a list is 2 more than its sum. -/
def toyLang : Lang ℕ where
  const k := k
  tuple vs := vs.sum + 1
  list vs := vs.sum + 2
  slice x y z := x + y + z
  dict kvs := (kvs.map (·.2)).sum + 3
  func f vs kvs := some (f + vs.sum + (kvs.map (·.2)).sum)
  method _ vs kvs := some (2 * vs.sum + (kvs.map (·.2)).sum)
  attr _ := some 5
  unflatten vs := 100 * vs.sum

def toyCallables : Callables where
  tuple := 0
  list := 1
  slice := 2
  dict := 3
  unflatten := 4
  func f := 10 + f
  method _ := 5
  getter _ := 6
  original _ := 7
  traced _ := 8
  const a := (a.eval toyLang fun _ => none).getD 0

/-- Modules add 1. -/
def traceSem : Sem ℕ ℕ where
  call _ _ t vs kvs := match t with
    | 0 => some (vs.sum + 1)
    | 1 => some (vs.sum + 2)
    | 2 => some (kvs.map (·.2)).sum
    | 3 => some ((kvs.map (·.2)).sum + 3)
    | 4 => some (100 * vs.sum)
    | 5 => some (2 * vs.sum + (kvs.map (·.2)).sum)
    | 6 => some 5
    | 7 => some (1 + vs.sum + (kvs.map (·.2)).sum)
    | 8 => some (1 + vs.sum + (kvs.map (·.2)).sum)
    | 9 => none
    | f => some (f - 10 + vs.sum + (kvs.map (·.2)).sum)
  item _ _ := none
  getattr _ _ := none
  constVal k := k
  optimize _ _ _ _ := none
  move _ v := v
  moveModule w _ _ := w

theorem toy_behaves : Behaves toyCallables traceSem 0 0 toyLang where
  const a v h := by simp [toyCallables, traceSem, h]
  tuple _ := rfl
  list _ := rfl
  slice x y z := by simp [traceSem, toyCallables, toyLang, Nat.add_assoc]
  dict _ := rfl
  unflatten _ := rfl
  func f vs kvs := by
    show traceSem.call 0 0 (10 + f) vs kvs = _
    rw [Nat.add_comm]
    simp [traceSem, toyLang]
  method _ _ _ := rfl
  getter _ := rfl

def incBody : List Fx := [.placeholder 0 "i", .callFunction 1 "inc" 1 [.node 0] []]

def blockBody : List Fx := [.placeholder 0 "a", .placeholder 1 "b", .callModule 2 "lin" "lin" (some 1) incBody (.node 1) [.node 0] [],
  .callFunction 3 "add" 2 [.node 2, .node 1] []]

/-- A model with a block of two values that calls a module, a parameter, a list and a constant. -/
def toyModel : List Fx := [.placeholder 0 "l_a_0_", .placeholder 1 "l_kw_y_",
  .callModule 2 "block" "block" (some 2) blockBody (.tuple [.node 3, .node 2]) [.node 0] [("b", .node 1)],
  .getAttr 3 "w" "w" none, .callFunction 4 "cat" 3 [.list [.node 2, .node 3], .const 7] []]

theorem toy_calls {path : String} {required : Option ℕ} {body : List Fx} {out : Arg} {provided : ℕ} :
    Calls "" toyModel path required body out provided → (required = some 2 ∧ body = blockBody ∧ out = .tuple [.node 3, .node 2] ∧ provided = 2) ∨
    (required = some 1 ∧ body = incBody ∧ out = .node 1 ∧ provided = 1) := by
  have key : ∀ pre, ¬ Calls pre incBody path required body out provided := by
    intro pre h
    cases h with
    | here h => simp [incBody] at h
    | inside h => simp [incBody] at h
  have key2 : ∀ pre, Calls pre blockBody path required body out provided → required = some 1 ∧ body = incBody ∧ out = .node 1 ∧ provided = 1 := by
    intro pre h
    cases h with
    | here h =>
      simp only [blockBody, List.mem_cons, reduceCtorEq, Fx.callModule.injEq, List.not_mem_nil, or_false, false_or] at h
      obtain ⟨rfl, rfl, rfl, rfl, rfl, rfl, rfl, rfl⟩ := h
      exact ⟨rfl, rfl, rfl, rfl⟩
    | inside h h' =>
      simp only [blockBody, List.mem_cons, reduceCtorEq, Fx.callModule.injEq, List.not_mem_nil, or_false, false_or] at h
      obtain ⟨rfl, rfl, rfl, rfl, rfl, rfl, rfl, rfl⟩ := h
      exact absurd h' (key _)
  intro h
  cases h with
  | here h =>
    simp only [toyModel, List.mem_cons, reduceCtorEq, Fx.callModule.injEq, List.not_mem_nil, or_false, false_or] at h
    obtain ⟨rfl, rfl, rfl, rfl, rfl, rfl, rfl, rfl⟩ := h
    exact Or.inl ⟨rfl, rfl, rfl, rfl⟩
  | inside h h' =>
    simp only [toyModel, List.mem_cons, reduceCtorEq, Fx.callModule.injEq, List.not_mem_nil, or_false, false_or] at h
    obtain ⟨rfl, rfl, rfl, rfl, rfl, rfl, rfl, rfl⟩ := h
    exact Or.inr (key2 _ h')

theorem toy_regular : Regular "" toyModel := by
  intro path required body out provided h hl
  rcases toy_calls h with ⟨rfl, rfl, rfl, rfl⟩ | ⟨rfl, rfl, rfl, rfl⟩
  · refine ⟨Or.inr ⟨[3, 2], by simp, rfl⟩, ?_⟩
    intro x hx
    simp only [placeholders, blockBody, List.filterMap_cons, List.filterMap_nil, List.mem_cons, List.not_mem_nil, or_false] at hx
    rcases hx with rfl | rfl <;> decide
  · exact absurd (leafBody_iff.2 rfl) hl

theorem toy_faithful : Faithful toyCallables traceSem 0 0 toyLang (fun _ => true) "" toyModel := by
  intro path required body out provided h hl vs kvs v hlen hv
  rcases toy_calls h with ⟨rfl, rfl, rfl, rfl⟩ | ⟨rfl, rfl, rfl, rfl⟩
  · rw [leafBody_iff] at hl
    exact absurd hl (by decide)
  · have hval : 1 + vs.sum + (kvs.map (·.2)).sum = v := by
      simp only [bodyValue, incBody, evalNodes, evalNode, placeholders, List.filterMap_cons, List.filterMap_nil] at hv
      match vs, kvs, hlen with
      | [x], [], _ =>
        simp [bound, Dict.get, evalArgs, evalAll, Arg.eval, update, toyLang] at hv
        simpa using hv
      | [], [(k, x)], _ =>
        by_cases hk : k = "i"
        · subst hk
          simp [bound, Dict.get, evalArgs, evalAll, Arg.eval, update, toyLang] at hv
          simpa using hv
        · simp [bound, Dict.get, hk] at hv
      | [], [], h => simp at h
      | _ :: _ :: _, _, h => simp at h; omega
      | _ :: _, _ :: _, h => simp at h; omega
      | [], _ :: _ :: _, h => simp at h
    exact ⟨by rw [← hval]; rfl, fun _ _ => by rw [← hval]; rfl⟩

/-- The graph of the model. -/
@[irreducible] def toyGraph : Graph := ((build toyCallables (fun _ => true) (unmangle ["x"]) toyModel (.tuple [.node 4])).toOption).getD {}

theorem toy_build : build toyCallables (fun _ => true) (unmangle ["x"]) toyModel (.tuple [.node 4]) = .ok toyGraph := by
  have h : ∀ x : Except GErr Graph, x.toOption.isSome = true → x = .ok (x.toOption.getD {}) := by
    intro x hx
    cases x with
    | error e => simp [Except.toOption] at hx
    | ok g => rfl
  unfold toyGraph
  exact h _ (by decide +kernel)

example : toyGraph.inputs = ["x", "y"] ∧ toyGraph.outputs = [.node 7] ∧ toyGraph.folds = [2] := by decide +kernel

/-- With 10 and 20: the block gives 11 + 20 + 2 and 11, as a tuple 45; the list of it and the parameter 5 is 52; the function gives 52 + 7 + 3. -/
example : modelValue toyLang (fun _ => true) toyModel (.tuple [.node 4]) (fun x => if x = "l_a_0_" then 10 else 20) = some 6200 := by decide +kernel

example : (runGraph traceSem toyGraph [0, 4, 1, 3, 5, 6, 7] 0 [.single 10] [("y", .single 20)]).2.toOption = some (some [(0, [[6200]])]) := by decide +kernel

theorem toy_needed : ∀ n ∈ toyGraph.leafIds, Needed toyGraph 0 n := by
  intro n hn
  have ho : ∀ (x : Except GErr (List ℕ)) l, x.toOption = some l → x = .ok l := by
    intro x l hx
    cases x with
    | error e => simp [Except.toOption] at hx
    | ok g => rw [Option.some.inj hx]
  have ht := ho (topologicalSort toyGraph) [0, 4, 1, 3, 5, 6, 7] (by decide +kernel)
  have hp : toyGraph.Plain := by unfold Graph.Plain; decide +kernel
  have hw : WellFormed toyGraph := wellFormed_of_checks toyGraph [0, 4, 1, 3, 5, 6, 7] (by unfold Graph.UniqueIds; decide +kernel) (by decide +kernel)
    (by decide +kernel) (by decide +kernel) ht (by decide +kernel)
  obtain ⟨c, hc⟩ := hw.live n hn
  exact plain_needed hp hc ▸ hc

/-- The hypotheses of `traced_call_partial` are met. -/
example : ∃ order, topologicalSort toyGraph = .ok order ∧
    runGraph traceSem toyGraph order 0 [.single 10] [("y", .single 20)] = (0, .ok (some [(0, [[6200]])])) :=
  traced_call_partial toyCallables (fun _ => true) (unmangle ["x"]) toyModel (.tuple [.node 4]) toyGraph toy_regular (by simp [Arg.parts]) toy_build toy_needed
    traceSem 0 toyLang toy_behaves toy_faithful [.single 10] [("y", .single 20)] (by simp)
    (by
      have hn : (placeholders toyModel).map (unmangle ["x"]) = ["x", "y"] := by decide +kernel
      rw [hn]
      refine ⟨by simp, by simp, by simp, by simp⟩)
    (fun x => if x = "x" then 10 else 20)
    (by
      have hn : (placeholders toyModel).map (unmangle ["x"]) = ["x", "y"] := by decide +kernel
      rw [hn]
      rintro x u (⟨i, h1, h2⟩ | h)
      · rw [List.getElem?_singleton] at h2
        split_ifs at h2 with hi
        subst hi
        obtain rfl : "x" = x := by simpa using h1
        obtain rfl : RawInput.single 10 = u := by simpa using h2
        rfl
      · simp only [List.mem_singleton, Prod.mk.injEq] at h
        obtain ⟨rfl, rfl⟩ := h
        rfl)
    6200 (by decide +kernel)

/-- The hypotheses of `traced_inputs` are met. -/
example : placeholders toyModel = ((List.range 1).map fun i => "l_a_" ++ toString i ++ "_") ++ ["y"].map fun k => "l_kw_" ++ k ++ "_" := by decide +kernel

end FF.Trace
