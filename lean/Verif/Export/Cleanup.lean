/-
Removing quantizers from a captured graph: `stage_cleanup_impl_ff` and its helpers, export/stages/base_pipeline_stages.py:25-98
and 274-306, with `eliminate_dead_code`, `delete_all_unused_submodules` of torch.fx as they are documented and written there.

Simplifications:
* a node has one list of arguments, in the order in which torch.fx visits them; a path is the list of its parts;
* of functions and modules it is given what they compute and whether torch.fx takes them to have effects.
-/
import Verif.Util.Dict

namespace FF.Cleanup

/-! ## Model -/

/-- The path of a module or attribute. -/
abbrev Path := List String

/-- What a node of a graph does. -/
inductive Op (Fn : Type) where
  | placeholder
  | getAttr (path : Path)
  | callModule (path : Path)
  | call (f : Fn)
  | output
  deriving DecidableEq, Repr

/-- A node, its name as a number. -/
structure Node (Fn : Type) where
  id : Nat
  op : Op Fn
  args : List Nat
  deriving DecidableEq, Repr

section
variable {Fn V M : Type} [DecidableEq M]

/-- Which calls torch.fx takes to have effects. -/
structure Effects (Fn : Type) where
  fn : Fn → Bool
  module : Path → Bool

/-- `Node.is_impure` of torch.fx. -/
def impure (e : Effects Fn) : Op Fn → Bool
  | .placeholder => true
  | .output => true
  | .getAttr _ => false
  | .callModule p => e.module p
  | .call f => e.fn f

/-- `len(node.users) > 0`, by the nodes of a list. -/
def hasUser (g : List (Node Fn)) (id : Nat) : Bool := g.any (fun m => m.args.contains id)

/-- The first part of `PruneUnusedGetAttrsPass`: base_pipeline_stages.py:77-83. -/
def pruneGetAttrs (g : List (Node Fn)) : List (Node Fn) :=
  g.filter (fun n => match n.op with
    | .getAttr _ => hasUser g n.id
    | _ => true)

/-- `Graph.eliminate_dead_code` of torch.fx: from the end, nodes without effects and users are erased. -/
def deadCode (e : Effects Fn) : List (Node Fn) → List (Node Fn)
  | [] => []
  | n :: g => if impure e n.op || hasUser (deadCode e g) n.id then n :: deadCode e g else deadCode e g

/-- `PruneUnusedGetAttrsPass`: base_pipeline_stages.py:75-87. -/
def prune (e : Effects Fn) (g : List (Node Fn)) : List (Node Fn) := deadCode e (pruneGetAttrs g)

/-- The prefixes of a path, without the empty one: `_module_path_prefixes` with the full path,
base_pipeline_stages.py:33-38. -/
def prefixes : Path → List Path
  | [] => []
  | x :: p => [x] :: (prefixes p).map (fun q => x :: q)

/-- `_collect_graph_referenced_module_paths`: base_pipeline_stages.py:41-69.  `modules` are those of the graph module. -/
def referenced (modules : List (Path × M)) (g : List (Node Fn)) : List Path :=
  g.flatMap (fun n => match n.op with
    | .callModule p => prefixes p
    | .getAttr p => (prefixes p).filter (fun q => decide (q ∈ Dict.keys modules))
    | _ => [])

/-- `named_modules()` without the root: every module by its first name. -/
def firstNames (seen : List M) : List (Path × M) → List Path
  | [] => []
  | (p, m) :: ms => if m ∈ seen then firstNames seen ms else p :: firstNames (m :: seen) ms

/-- The modules `delete_all_unused_submodules` of torch.fx takes to be used. -/
def used (modules : List (Path × M)) (g : List (Node Fn)) : List Path :=
  g.flatMap (fun n => match n.op with
    | .callModule p => prefixes p ++ (Dict.keys modules).filter (fun q => p.isPrefixOf q)
    | .getAttr p => prefixes p
    | _ => [])

/-- `delete_all_unused_submodules` of torch.fx: a deleted module takes those below it with it. -/
def deleteUnused (modules : List (Path × M)) (g : List (Node Fn)) : List (Path × M) :=
  let gone := (firstNames [] modules).filter (fun p => decide (p ∉ used modules g))
  modules.filter (fun m => !gone.any (fun p => p.isPrefixOf m.1))

/-- `stage_cleanup_impl_ff`: base_pipeline_stages.py:274-306.  `quantizers` are the paths of quantizers of the source module;
an error gives those that are still referred to. -/
def cleanup (e : Effects Fn) (quantizers : List Path) (modules : List (Path × M)) (g : List (Node Fn)) :
    Except (List Path) (List (Node Fn) × List (Path × M)) :=
  let g' := prune e g
  let live := quantizers.filter (fun q => decide (q ∈ referenced modules g'))
  if live ≠ [] then .error live
  else .ok (deadCode e g', deleteUnused modules g')

/-! ## Specification -/

/-- What running a graph does: the nodes with effects, with the values they get, in order.  The output is one of them. -/
def runs (e : Effects Fn) (sem : Nat → Op Fn → List V → V) : List (Node Fn) → (Nat → V) → List (Op Fn × List V)
  | [], _ => []
  | n :: g, env =>
    (if impure e n.op then [(n.op, n.args.map env)] else []) ++
      runs e sem g (fun i => if i = n.id then sem n.id n.op (n.args.map env) else env i)

/-- A node is needed if it has effects, or its value is an argument of a needed node. -/
inductive Needed (e : Effects Fn) (g : List (Node Fn)) : Node Fn → Prop
  | effect {n : Node Fn} : n ∈ g → impure e n.op = true → Needed e g n
  | arg {n m : Node Fn} : n ∈ g → Needed e g m → n.id ∈ m.args → Needed e g n

/-- Graphs of torch.fx: names are unique, and the arguments of a node come before it. -/
def WellFormed : List (Node Fn) → Prop
  | [] => True
  | n :: g => n.id ∉ n.args ∧ (∀ m ∈ g, m.id ≠ n.id ∧ m.id ∉ n.args) ∧ WellFormed g

/-- A node refers to a module: it calls it or one below it, or takes an attribute of it or below it. -/
def RefersTo (modules : List (Path × M)) (n : Node Fn) (q : Path) : Prop :=
  q ≠ [] ∧ ((∃ p, n.op = .callModule p ∧ q <+: p) ∨ (∃ p, n.op = .getAttr p ∧ q <+: p ∧ ∃ m, (q, m) ∈ modules))

/-! ## Lemmas -/

omit [DecidableEq M] in
theorem mem_prefixes {q p : Path} : q ∈ prefixes p ↔ q ≠ [] ∧ q <+: p := by
  induction p generalizing q with
  | nil =>
    simp only [prefixes, List.not_mem_nil, List.prefix_nil, false_iff]
    exact fun h => h.1 h.2
  | cons x p ih =>
    simp only [prefixes, List.mem_cons, List.mem_map]
    constructor
    · rintro (h | ⟨r, hr, rfl⟩)
      · subst h
        exact ⟨by simp, by simp⟩
      · exact ⟨by simp, by simpa using (ih.1 hr).2⟩
    · rintro ⟨hne, hp⟩
      cases q with
      | nil => exact absurd rfl hne
      | cons y q =>
        rw [List.cons_prefix_cons] at hp
        obtain ⟨rfl, hq⟩ := hp
        by_cases hq0 : q = []
        · subst hq0; exact .inl rfl
        · exact .inr ⟨q, ih.2 ⟨hq0, hq⟩, rfl⟩

omit [DecidableEq M] in
theorem hasUser_iff {g : List (Node Fn)} {i : Nat} : hasUser g i = true ↔ ∃ m ∈ g, i ∈ m.args := by
  simp [hasUser]

omit [DecidableEq M] in
theorem deadCode_sublist (e : Effects Fn) (g : List (Node Fn)) : (deadCode e g).Sublist g := by
  induction g with
  | nil => exact .slnil
  | cons n g ih =>
    unfold deadCode
    split
    · exact ih.cons_cons n
    · exact ih.cons n

omit [DecidableEq M] in
theorem wf_sublist {g h : List (Node Fn)} (hs : h.Sublist g) : WellFormed g → WellFormed h := by
  induction hs with
  | slnil => intro h; exact h
  | cons a _ ih => intro h; exact ih h.2.2
  | cons_cons a hs ih => intro h; exact ⟨h.1, fun m hm => h.2.1 m (hs.subset hm), ih h.2.2⟩

omit [DecidableEq M] in
theorem Needed.mem {e : Effects Fn} {g : List (Node Fn)} {n : Node Fn} (h : Needed e g n) : n ∈ g := by
  cases h <;> assumption

omit [DecidableEq M] in
theorem needed_cons {e : Effects Fn} {a : Node Fn} {g : List (Node Fn)} (hw : WellFormed (a :: g)) {n : Node Fn}
    (h : Needed e (a :: g) n) : (n ∈ g → Needed e g n) := by
  induction h with
  | effect _ hi => intro hm; exact .effect hm hi
  | @arg n m _ hm hid ih =>
    intro hn
    rcases List.mem_cons.1 hm.mem with hma | hma
    · subst hma
      exact absurd hid (hw.2.1 n hn).2
    · exact .arg hn (ih hma) hid

omit [DecidableEq M] in
theorem needed_mono {e : Effects Fn} {g h : List (Node Fn)} (hs : ∀ n ∈ g, n ∈ h) {n : Node Fn} (hn : Needed e g n) :
    Needed e h n := by
  induction hn with
  | effect hm hi => exact .effect (hs _ hm) hi
  | arg hm _ hid ih => exact .arg (hs _ hm) ih hid

omit [DecidableEq M] in
theorem mem_deadCode {e : Effects Fn} {g : List (Node Fn)} (hw : WellFormed g) : ∀ (n : Node Fn),
    n ∈ deadCode e g ↔ Needed e g n := by
  induction g with
  | nil =>
    intro n
    constructor
    · intro h; cases h
    · intro h; exact absurd h.mem (by simp)
  | cons a g ih =>
    have ih := ih hw.2.2
    have hmono : ∀ {n}, Needed e g n → Needed e (a :: g) n := fun h => needed_mono (fun _ h => List.mem_cons_of_mem _ h) h
    have ha : (impure e a.op || hasUser (deadCode e g) a.id) = true ↔ Needed e (a :: g) a := by
      rw [Bool.or_eq_true, hasUser_iff]
      constructor
      · rintro (h | ⟨m, hm, hid⟩)
        · exact .effect List.mem_cons_self h
        · exact .arg List.mem_cons_self (hmono ((ih m).1 hm)) hid
      · intro h
        cases h with
        | effect _ h => exact .inl h
        | @arg _ m _ hm hid =>
          rcases List.mem_cons.1 hm.mem with hma | hma
          · rw [hma] at hid
            exact absurd hid hw.1
          · exact .inr ⟨m, (ih m).2 (needed_cons hw hm hma), hid⟩
    intro n
    unfold deadCode
    constructor
    · intro h
      split at h
      · rename_i hk
        rcases List.mem_cons.1 h with h | h
        · subst h; exact ha.1 hk
        · exact hmono ((ih n).1 h)
      · exact hmono ((ih n).1 h)
    · intro h
      rcases List.mem_cons.1 h.mem with hm | hm
      · subst hm
        rw [if_pos (ha.2 h)]
        exact List.mem_cons_self
      · have := (ih n).2 (needed_cons hw h hm)
        split
        · exact List.mem_cons_of_mem _ this
        · exact this

omit [DecidableEq M] in
theorem needed_pruneGetAttrs {e : Effects Fn} {g : List (Node Fn)} {n : Node Fn} :
    Needed e (pruneGetAttrs g) n ↔ Needed e g n := by
  constructor
  · exact needed_mono (fun _ h => (List.mem_filter.1 h).1)
  · intro h
    induction h with
    | @effect n hm hi =>
      refine .effect (List.mem_filter.2 ⟨hm, ?_⟩) hi
      cases ho : n.op with
      | getAttr p => rw [ho] at hi; cases hi
      | _ => rfl
    | @arg n m hn hm hid ih =>
      refine .arg (List.mem_filter.2 ⟨hn, ?_⟩) ih hid
      cases ho : n.op with
      | getAttr p => exact hasUser_iff.2 ⟨m, hm.mem, hid⟩
      | _ => rfl

omit [DecidableEq M] in
theorem mem_prune {e : Effects Fn} {g : List (Node Fn)} (hw : WellFormed g) (n : Node Fn) :
    n ∈ prune e g ↔ Needed e g n := by
  have hw' : WellFormed (pruneGetAttrs g) := wf_sublist List.filter_sublist hw
  unfold prune
  rw [mem_deadCode hw', needed_pruneGetAttrs]

omit [DecidableEq M] in
theorem prune_sublist (e : Effects Fn) (g : List (Node Fn)) : (prune e g).Sublist g :=
  (deadCode_sublist e _).trans List.filter_sublist

omit [DecidableEq M] in
theorem deadCode_idem (e : Effects Fn) (g : List (Node Fn)) : deadCode e (deadCode e g) = deadCode e g := by
  induction g with
  | nil => rfl
  | cons n g ih =>
    rw [show deadCode e (n :: g) =
      if impure e n.op || hasUser (deadCode e g) n.id then n :: deadCode e g else deadCode e g from rfl]
    split
    · rename_i h
      rw [show deadCode e (n :: deadCode e g) =
        if impure e n.op || hasUser (deadCode e (deadCode e g)) n.id then n :: deadCode e (deadCode e g)
          else deadCode e (deadCode e g) from rfl, ih, if_pos h]
    · exact ih

omit [DecidableEq M] in
theorem runs_congr (e : Effects Fn) (sem : Nat → Op Fn → List V → V) : ∀ (g : List (Node Fn)) (env env' : Nat → V),
    (∀ n ∈ g, ∀ i ∈ n.args, env i = env' i) → runs e sem g env = runs e sem g env' := by
  intro g
  induction g with
  | nil => intros; rfl
  | cons n g ih =>
    intro env env' h
    have hargs : n.args.map env = n.args.map env' := List.map_congr_left (h n List.mem_cons_self)
    unfold runs
    rw [hargs]
    congr 1
    refine ih _ _ ?_
    intro m hm i hi
    by_cases hin : i = n.id
    · rw [if_pos hin, if_pos hin]
    · rw [if_neg hin, if_neg hin]
      exact h m (List.mem_cons_of_mem _ hm) i hi

omit [DecidableEq M] in
theorem runs_deadCode (e : Effects Fn) (sem : Nat → Op Fn → List V → V) : ∀ (g : List (Node Fn)) (env : Nat → V),
    runs e sem (deadCode e g) env = runs e sem g env := by
  intro g
  induction g with
  | nil => intros; rfl
  | cons n g ih =>
    intro env
    rw [show deadCode e (n :: g) =
      if impure e n.op || hasUser (deadCode e g) n.id then n :: deadCode e g else deadCode e g from rfl]
    split
    · unfold runs
      rw [ih]
    · rename_i h
      rw [Bool.or_eq_true, not_or] at h
      rw [show runs e sem (n :: g) env = _ from runs.eq_2 .., if_neg h.1, List.nil_append, ← ih]
      refine runs_congr e sem _ _ _ ?_
      intro m hm i hi
      rw [if_neg]
      intro hin
      exact h.2 (hasUser_iff.2 ⟨m, hm, hin ▸ hi⟩)

omit [DecidableEq M] in
theorem runs_filter (e : Effects Fn) (sem : Nat → Op Fn → List V → V) (keep : Node Fn → Bool) :
    ∀ (g : List (Node Fn)) (env : Nat → V),
      (∀ n ∈ g, keep n = false → impure e n.op = false ∧ ∀ m ∈ g, n.id ∉ m.args) →
      runs e sem (g.filter keep) env = runs e sem g env := by
  intro g
  induction g with
  | nil => intros; rfl
  | cons n g ih =>
    intro env h
    have h' : ∀ n ∈ g, keep n = false → impure e n.op = false ∧ ∀ m ∈ g, n.id ∉ m.args := fun m hm hk =>
      ⟨(h m (List.mem_cons_of_mem _ hm) hk).1, fun k hk' => (h m (List.mem_cons_of_mem _ hm) hk).2 k (List.mem_cons_of_mem _ hk')⟩
    rw [List.filter_cons]
    cases hk : keep n with
    | true =>
      rw [if_pos rfl]
      unfold runs
      rw [ih _ h']
    | false =>
      obtain ⟨hi, hu⟩ := h n List.mem_cons_self hk
      rw [if_neg (by simp), show runs e sem (n :: g) env = _ from runs.eq_2 .., hi, if_neg (by simp), List.nil_append,
        ih _ h']
      refine runs_congr e sem _ _ _ ?_
      intro m hm i hi
      rw [if_neg]
      intro hin
      exact hu m (List.mem_cons_of_mem _ hm) (hin ▸ hi)

omit [DecidableEq M] in
theorem runs_prune (e : Effects Fn) (sem : Nat → Op Fn → List V → V) (g : List (Node Fn)) (env : Nat → V) :
    runs e sem (prune e g) env = runs e sem g env := by
  unfold prune
  rw [runs_deadCode]
  unfold pruneGetAttrs
  refine runs_filter e sem _ g env ?_
  intro n _ hk
  cases ho : n.op with
  | getAttr p =>
    rw [ho] at hk
    refine ⟨rfl, fun m hm hid => ?_⟩
    rw [hasUser_iff.2 ⟨m, hm, hid⟩] at hk
    cases hk
  | _ => rw [ho] at hk; cases hk

omit [DecidableEq M] in
theorem mem_referenced {modules : List (Path × M)} {g : List (Node Fn)} {q : Path} :
    q ∈ referenced modules g ↔ ∃ n ∈ g, RefersTo modules n q := by
  unfold referenced RefersTo
  rw [List.mem_flatMap]
  refine exists_congr fun n => and_congr_right fun _ => ?_
  cases ho : n.op with
  | callModule p => simp [mem_prefixes]
  | getAttr p =>
    have hk : q ∈ Dict.keys modules ↔ ∃ x, (q, x) ∈ modules := by simp [Dict.keys]
    simp only [List.mem_filter, mem_prefixes, decide_eq_true_eq, hk, and_assoc, reduceCtorEq, false_and, exists_false,
      false_or, Op.getAttr.injEq, exists_eq_left']
  | _ => simp

theorem mem_firstNames {ms : List (Path × M)} : ∀ (seen : List M), (ms.map Prod.snd).Nodup →
    (∀ e ∈ ms, e.2 ∉ seen) → ∀ q m, (q, m) ∈ ms → q ∈ firstNames seen ms := by
  induction ms with
  | nil => intro _ _ _ q m h; cases h
  | cons e ms ih =>
    intro seen hn hs q m h
    obtain ⟨p, m'⟩ := e
    rw [List.map_cons, List.nodup_cons] at hn
    unfold firstNames
    rw [if_neg (hs _ List.mem_cons_self)]
    rcases List.mem_cons.1 h with h | h
    · cases h; exact List.mem_cons_self
    · refine List.mem_cons_of_mem _ (ih _ hn.2 ?_ q m h)
      intro e he hm
      rcases List.mem_cons.1 hm with hm | hm
      · exact hn.1 (List.mem_map.2 ⟨e, he, hm⟩)
      · exact hs e (List.mem_cons_of_mem _ he) hm

theorem firstNames_mem {ms : List (Path × M)} : ∀ (seen : List M) (q : Path), q ∈ firstNames seen ms → ∃ m, (q, m) ∈ ms := by
  induction ms with
  | nil => intro seen q h; cases h
  | cons e ms ih =>
    intro seen q h
    obtain ⟨p, m⟩ := e
    unfold firstNames at h
    split at h
    · obtain ⟨m', hm'⟩ := ih _ _ h
      exact ⟨m', List.mem_cons_of_mem _ hm'⟩
    · rcases List.mem_cons.1 h with h | h
      · exact ⟨m, h ▸ List.mem_cons_self⟩
      · obtain ⟨m', hm'⟩ := ih _ _ h
        exact ⟨m', List.mem_cons_of_mem _ hm'⟩

omit [DecidableEq M] in
theorem mem_used {modules : List (Path × M)} {g : List (Node Fn)} {q : Path} : q ∈ used modules g ↔ ∃ n ∈ g,
    (∃ p, n.op = .callModule p ∧ ((q ≠ [] ∧ q <+: p) ∨ (p <+: q ∧ ∃ m, (q, m) ∈ modules))) ∨
      (∃ p, n.op = .getAttr p ∧ q ≠ [] ∧ q <+: p) := by
  unfold used
  rw [List.mem_flatMap]
  refine exists_congr fun n => and_congr_right fun _ => ?_
  cases ho : n.op with
  | callModule p => simp [mem_prefixes, Dict.keys, and_comm]
  | getAttr p => simp [mem_prefixes]
  | _ => simp

/-! ## Properties -/

/-- **C112.**  Cleaning up fails exactly if a node that is needed refers to a quantizer. -/
theorem cleanup_fails_iff {e : Effects Fn} {quantizers : List Path} {modules : List (Path × M)} {g : List (Node Fn)}
    (hw : WellFormed g) :
    (∃ live, cleanup e quantizers modules g = .error live) ↔ ∃ q ∈ quantizers, ∃ n, Needed e g n ∧ RefersTo modules n q := by
  have hlive : ∀ q, q ∈ quantizers.filter (fun q => decide (q ∈ referenced modules (prune e g))) ↔
      q ∈ quantizers ∧ ∃ n, Needed e g n ∧ RefersTo modules n q := by
    intro q
    rw [List.mem_filter, decide_eq_true_eq, mem_referenced]
    simp only [mem_prune hw]
  unfold cleanup
  simp only
  constructor
  · rintro ⟨live, h⟩
    split at h
    · rename_i hne
      obtain ⟨q, hq⟩ := List.exists_mem_of_ne_nil _ hne
      exact ⟨q, (hlive q).1 hq⟩
    · cases h
  · rintro ⟨q, hq, hn⟩
    refine ⟨_, if_pos ?_⟩
    exact List.ne_nil_of_mem ((hlive q).2 ⟨hq, hn⟩)

/-- **C112.**  The cleaned graph keeps exactly the nodes that are needed, in order. -/
theorem cleanup_keeps_needed {e : Effects Fn} {quantizers : List Path} {modules modules' : List (Path × M)}
    {g g' : List (Node Fn)} (hw : WellFormed g) (h : cleanup e quantizers modules g = .ok (g', modules')) :
    g'.Sublist g ∧ ∀ n, n ∈ g' ↔ Needed e g n := by
  unfold cleanup at h
  simp only at h
  split at h
  · cases h
  · cases h
    unfold prune
    rw [deadCode_idem]
    exact ⟨prune_sublist e g, mem_prune hw⟩

/-- **C112.**  The cleaned graph has the same inputs, used or not, and the same output as before. -/
theorem cleanup_keeps_inputs {e : Effects Fn} {quantizers : List Path} {modules modules' : List (Path × M)}
    {g g' : List (Node Fn)} (hw : WellFormed g) (h : cleanup e quantizers modules g = .ok (g', modules')) (n : Node Fn)
    (ho : n.op = .placeholder ∨ n.op = .output) : n ∈ g' ↔ n ∈ g := by
  rw [(cleanup_keeps_needed hw h).2 n]
  exact ⟨Needed.mem, fun hm => .effect hm (by rcases ho with ho | ho <;> rw [ho] <;> rfl)⟩

/-- **C112.**  The cleaned graph computes the same: its effects and output get the same values, for all inputs, whatever
functions and modules compute. -/
theorem cleanup_computes_same {e : Effects Fn} {quantizers : List Path} {modules modules' : List (Path × M)}
    {g g' : List (Node Fn)} (h : cleanup e quantizers modules g = .ok (g', modules')) (sem : Nat → Op Fn → List V → V)
    (env : Nat → V) : runs e sem g' env = runs e sem g env := by
  unfold cleanup at h
  simp only at h
  split at h
  · cases h
  · cases h
    rw [runs_deadCode, runs_prune]

/-- **C112.**  Every module that the cleaned graph calls is kept, with all that is below it, and so is every module whose
attributes it takes. -/
theorem cleanup_keeps_modules {e : Effects Fn} {quantizers : List Path} {modules modules' : List (Path × M)}
    {g g' : List (Node Fn)} (hw : WellFormed g) (h : cleanup e quantizers modules g = .ok (g', modules'))
    (hroot : ∀ m, (([] : Path), m) ∉ modules) {n : Node Fn} (hn : n ∈ g') {q : Path} {m : M} (hm : (q, m) ∈ modules)
    (hq : (∃ p, n.op = .callModule p ∧ p ≠ [] ∧ (q <+: p ∨ p <+: q)) ∨ (∃ p, n.op = .getAttr p ∧ q <+: p)) :
    (q, m) ∈ modules' := by
  have hnn := (cleanup_keeps_needed hw h).2 n
  unfold cleanup at h
  simp only at h
  split at h
  · cases h
  · cases h
    have hnp : n ∈ prune e g := (mem_prune hw n).2 (hnn.1 hn)
    unfold deleteUnused
    simp only
    rw [List.mem_filter]
    refine ⟨hm, ?_⟩
    rw [Bool.not_eq_true', List.any_eq_false]
    intro r hr hpre
    rw [List.mem_filter, decide_eq_true_eq] at hr
    rw [List.isPrefixOf_iff_prefix] at hpre
    obtain ⟨m', hm'⟩ := firstNames_mem _ _ hr.1
    have hr0 : r ≠ [] := fun h0 => hroot m' (h0 ▸ hm')
    apply hr.2
    rw [mem_used]
    refine ⟨n, hnp, ?_⟩
    rcases hq with ⟨p, ho, _, hqp | hpq⟩ | ⟨p, ho, hqp⟩
    · exact .inl ⟨p, ho, .inl ⟨hr0, hpre.trans hqp⟩⟩
    · rcases List.prefix_or_prefix_of_prefix hpre hpq with hh | hh
      · exact .inl ⟨p, ho, .inl ⟨hr0, hh⟩⟩
      · exact .inl ⟨p, ho, .inr ⟨hh, m', hm'⟩⟩
    · exact .inr ⟨p, ho, hr0, hpre.trans hqp⟩

/-- **C112 (partial).**  No quantizer of the source module is left, if no module is there by two names and none that the
graph calls has a quantizer below it.

Missing: these two, see the deviations. -/
theorem no_quantizers_left_partial {e : Effects Fn} {quantizers : List Path} {modules modules' : List (Path × M)}
    {g g' : List (Node Fn)} (hw : WellFormed g) (h : cleanup e quantizers modules g = .ok (g', modules'))
    (hroot : ∀ m, (([] : Path), m) ∉ modules) (hd : (modules.map Prod.snd).Nodup)
    (hb : ∀ n ∈ g', ∀ p, n.op = .callModule p → ∀ q ∈ quantizers, ¬ p <+: q) :
    ∀ q ∈ quantizers, ∀ m, (q, m) ∉ modules' := by
  intro q hq m hm
  have hok : ¬ ∃ live, cleanup e quantizers modules g = .error live := by
    rintro ⟨live, hl⟩
    rw [h] at hl
    cases hl
  rw [cleanup_fails_iff hw] at hok
  have hkeep := (cleanup_keeps_needed hw h).2
  unfold cleanup at h
  simp only at h
  split at h
  · cases h
  · cases h
    unfold deleteUnused at hm
    simp only at hm
    rw [List.mem_filter, Bool.not_eq_true', List.any_eq_false] at hm
    have hq0 : q ≠ [] := fun h0 => hroot m (h0 ▸ hm.1)
    refine hm.2 q ?_ (List.isPrefixOf_iff_prefix.2 (List.prefix_refl q))
    rw [List.mem_filter, decide_eq_true_eq]
    refine ⟨mem_firstNames [] hd (fun _ _ h => by cases h) q m hm.1, ?_⟩
    rw [mem_used]
    rintro ⟨n, hn, hu⟩
    rw [mem_prune hw] at hn
    rcases hu with ⟨p, ho, hu | hu⟩ | ⟨p, ho, hu⟩
    · exact hok ⟨q, hq, n, hn, hq0, .inl ⟨p, ho, hu.2⟩⟩
    · exact hb n ((hkeep n).2 hn) p ho q hq hu.1
    · exact hok ⟨q, hq, n, hn, hq0, .inr ⟨p, ho, hu.2, m, hm.1⟩⟩

/-! ## Deviations -/

/-- **C112, deviation.**  A quantizer below a module that the graph calls is neither reported nor removed: what the graph
computes still depends on it. -/
theorem quantizer_below_called_module_kept {e : Effects Fn} {quantizers : List Path} {modules modules' : List (Path × M)}
    {g g' : List (Node Fn)} (hw : WellFormed g) (h : cleanup e quantizers modules g = .ok (g', modules'))
    (hroot : ∀ m, (([] : Path), m) ∉ modules) {n : Node Fn} (hn : n ∈ g') {p q : Path} {m : M} (ho : n.op = .callModule p)
    (hp : p ≠ []) (hpq : p <+: q) (hm : (q, m) ∈ modules) : (q, m) ∈ modules' :=
  cleanup_keeps_modules hw h hroot hn hm (.inl ⟨p, ho, hp, .inr hpq⟩)

end

/-- **C112, deviation.**  A quantizer that two modules share stays under its second name if the second module is used,
although nothing refers to it. -/
theorem shared_quantizer_kept :
    ∃ (e : Effects String) (quantizers : List Path) (modules modules' : List (Path × Nat)) (g g' : List (Node String)),
      WellFormed g ∧ cleanup e quantizers modules g = .ok (g', modules') ∧
      (∀ q ∈ quantizers, ∀ n ∈ g, ¬ RefersTo modules n q) ∧ (["b", "q"] ∈ quantizers ∧ (["b", "q"], 1) ∈ modules') := by
  refine ⟨⟨fun _ => false, fun _ => false⟩, [["a", "q"], ["b", "q"]],
    [(["a"], 0), (["a", "q"], 1), (["b"], 2), (["b", "q"], 1)], [(["b"], 2), (["b", "q"], 1)],
    [⟨0, .getAttr ["b", "weight"], []⟩, ⟨1, .output, [0]⟩], [⟨0, .getAttr ["b", "weight"], []⟩, ⟨1, .output, [0]⟩],
    by simp [WellFormed], rfl, ?_, by decide⟩
  intro q hq n hn h
  have hr : q ∈ referenced [(["a"], 0), (["a", "q"], 1), (["b"], 2), (["b", "q"], 1)]
      ([⟨0, .getAttr ["b", "weight"], []⟩, ⟨1, .output, [0]⟩] : List (Node String)) := mem_referenced.2 ⟨n, hn, h⟩
  clear h
  revert q
  decide

/-! ## Concrete cases -/

/-- A graph after turning quantizer calls into annotations: the scale (1) of a quantizer that nothing uses, a value that only
a dead node uses, a call with effects. -/
def demo : List (Node String) :=
  [⟨0, .placeholder, []⟩, ⟨1, .getAttr ["q", "scale"], []⟩, ⟨2, .getAttr ["lin", "weight"], []⟩,
   ⟨3, .call "linear", [0, 2]⟩, ⟨4, .getAttr ["q", "offset"], []⟩, ⟨5, .call "neg", [4]⟩, ⟨6, .call "assert", [0]⟩,
   ⟨7, .callModule ["act"], [3]⟩, ⟨8, .output, [7]⟩]

/-- Only assertions have effects. -/
def demoEffects : Effects String := ⟨fun f => f == "assert", fun _ => false⟩

example : WellFormed demo := by simp [WellFormed, demo]

example : cleanup demoEffects [["q"]] [(["lin"], 0), (["q"], 1), (["act"], 2), (["act", "f"], 3)] demo
    = .ok ([⟨0, .placeholder, []⟩, ⟨2, .getAttr ["lin", "weight"], []⟩, ⟨3, .call "linear", [0, 2]⟩,
        ⟨6, .call "assert", [0]⟩, ⟨7, .callModule ["act"], [3]⟩, ⟨8, .output, [7]⟩],
      [(["lin"], 0), (["act"], 2), (["act", "f"], 3)]) := by rfl

/-- An input that nothing uses stays. -/
example : cleanup demoEffects [] ([] : List (Path × Nat)) ([⟨0, .placeholder, []⟩, ⟨1, .output, []⟩] : List (Node String))
    = .ok ([⟨0, .placeholder, []⟩, ⟨1, .output, []⟩], []) := by rfl

example : cleanup demoEffects [["q"]] [(["q"], 1)]
    ([⟨0, .placeholder, []⟩, ⟨1, .getAttr ["q", "scale"], []⟩, ⟨2, .call "div", [0, 1]⟩, ⟨3, .output, [2]⟩])
    = .error [["q"]] := by rfl

end FF.Cleanup
