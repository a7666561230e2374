/-!
# Warnings in generated code

Models `NotImplementedMixin` of `_autoquant/cst/quantizer_analysis/unimplemented.py`: a transformer that meets something it cannot convert leaves a comment
`# WARNING: …` above the closest enclosing statement that is still there afterwards.

Simplifications: what the transformer does to a node is given with the node: which warnings it issues before and after the node's parts are visited, and whether
the node is kept, replaced by its parts, or removed. `_visit_stack` and `_not_implemented_warnings` are one stack of warnings: a node is in the dictionary from
when it is put on the stack on. That the node that is left is the one on top of the stack is a matter of nesting, and so not checked.
-/

namespace FF.Warnings

/-! ## Model -/

/-- What `super().on_leave` returns for a node: unimplemented.py:45. -/
inductive Outcome where
  /-- a node of the same type -/
  | kept
  /-- several nodes, `FlattenSentinel`, or one of another type; here those are its parts -/
  | spliced
  /-- `RemoveFromParent()` -/
  | removed
  deriving DecidableEq

/-- A line above a statement. -/
inductive Line where
  | old (s : String)
  | warning (s : String)
  deriving DecidableEq

/-- A node: its name, whether it has `leading_lines`, what the transformer makes of it, the lines above it, the warnings that its `visit_` and `leave_` methods
issue, and its parts. -/
inductive Node where
  | mk (id : Nat) (holder : Bool) (outcome : Outcome) (lines : List String) (pre post : List String) (kids : List Node)

/-- A node of the result. -/
inductive Out where
  | mk (id : Nat) (lines : List Line) (kids : List Out)

/-- The warnings of the nodes on `_visit_stack`, innermost first. -/
abbrev Stack := List (List String)

/-- unimplemented.py:75-93 `warn_not_implemented`, for several messages; `none` is `RuntimeError`. -/
def warn (st : Stack) : List String → Option Stack
  | [] => some st
  | w :: ws =>
    match st with
    | [] => none
    | top :: rest => warn ((top ++ [w]) :: rest) ws

/-- unimplemented.py:27-31 `on_visit`. -/
def enter (holder : Bool) (st : Stack) : Stack := if holder then [] :: st else st

/-- What a node becomes, where `same` is the node with its new parts. -/
def become (outcome : Outcome) (same : Out) (kids : List Out) : List Out :=
  match outcome with
  | .kept => [same]
  | .spliced => kids
  | .removed => []

/-- unimplemented.py:47-73 `on_leave` after `super().on_leave`. -/
def leave (id : Nat) (holder : Bool) (outcome : Outcome) (lines : List String) (kids : List Out) (st : Stack) : Stack × List Out :=
  let other := become outcome (.mk id (lines.map .old) kids) kids
  match holder, st with
  | true, top :: rest =>
    if outcome = .kept then (rest, [.mk id (lines.map .old ++ top.reverse.map .warning) kids])
    else
      match rest with
      | [] => ([], other)
      | p :: r => ((p ++ top) :: r, other)
  | _, st => (st, other)

mutual
/-- The traversal of a tree: `on_visit`, then the parts, then `on_leave`. -/
def visit : Node → Stack → Option (Stack × List Out)
  | .mk id holder outcome lines pre post kids, st =>
    (warn (enter holder st) pre).bind fun st1 =>
      (visitAll kids st1).bind fun (st2, outs) =>
        (warn st2 post).map fun st3 => leave id holder outcome lines outs st3
/-- The parts of a node, in order. -/
def visitAll : List Node → Stack → Option (Stack × List Out)
  | [], st => some (st, [])
  | n :: ns, st =>
    (visit n st).bind fun (st1, o) => (visitAll ns st1).map fun (st2, os) => (st2, o ++ os)
end

/-! ## Specification -/

mutual
/-- Where the warnings issued in a tree belong: above the closest node around them that can have lines above it and is kept, `some id`, or above one around the
tree, `none`. In the order in which they are issued. -/
def belongs : Node → List (Option Nat × String)
  | .mk id holder outcome _ pre post kids =>
    (pre.map (none, ·) ++ belongsAll kids ++ post.map (none, ·)).map fun (p : Option Nat × String) =>
      (if holder = true ∧ outcome = Outcome.kept then p.1.or (some id) else p.1, p.2)
/-- `belongs` for several nodes. -/
def belongsAll : List Node → List (Option Nat × String)
  | [] => []
  | n :: ns => belongs n ++ belongsAll ns
end

/-- The warnings in `l` that belong around the tree. -/
def outer (l : List (Option Nat × String)) : List String := l.filterMap fun p => if p.1 = none then some p.2 else none

mutual
/-- The warnings in a result, with the nodes above which they are. -/
def found : Out → List (Nat × String)
  | .mk id lines kids => (lines.filterMap fun l => match l with | .warning w => some (id, w) | .old _ => none) ++ foundAll kids
/-- `found` for several nodes. -/
def foundAll : List Out → List (Nat × String)
  | [] => []
  | o :: os => found o ++ foundAll os
end

mutual
/-- No node is removed. -/
def NoneRemoved : Node → Prop
  | .mk _ _ outcome _ _ _ kids => outcome ≠ .removed ∧ NoneRemovedAll kids
/-- `NoneRemoved` for several nodes. -/
def NoneRemovedAll : List Node → Prop
  | [] => True
  | n :: ns => NoneRemoved n ∧ NoneRemovedAll ns
end

mutual
/-- Every warning is issued in a node that can have lines above it. -/
def Covered : Node → Prop
  | .mk _ holder _ _ pre post kids => holder = true ∨ (pre = [] ∧ post = [] ∧ CoveredAll kids)
/-- `Covered` for several nodes. -/
def CoveredAll : List Node → Prop
  | [] => True
  | n :: ns => Covered n ∧ CoveredAll ns
end

mutual
/-- The lines that were above the nodes of a tree, for the nodes that are kept. -/
def oldLines : Node → List (Nat × String)
  | .mk id _ outcome lines _ _ kids => (if outcome = .kept then lines.map (id, ·) else []) ++ oldLinesAll kids
/-- `oldLines` for several nodes. -/
def oldLinesAll : List Node → List (Nat × String)
  | [] => []
  | n :: ns => oldLines n ++ oldLinesAll ns
end

mutual
/-- The lines in a result that are no warnings. -/
def foundOld : Out → List (Nat × String)
  | .mk id lines kids => (lines.filterMap fun l => match l with | .warning _ => none | .old s => some (id, s)) ++ foundOldAll kids
/-- `foundOld` for several nodes. -/
def foundOldAll : List Out → List (Nat × String)
  | [] => []
  | o :: os => foundOld o ++ foundOldAll os
end

/-! ## Lemmas -/

theorem warn_cons (top : List String) (rest : Stack) (ws : List String) : warn (top :: rest) ws = some ((top ++ ws) :: rest) := by
  induction ws generalizing top with
  | nil => rw [warn, List.append_nil]
  | cons w ws ih =>
    rw [warn, ih, List.append_assoc]
    rfl

theorem warn_nil (ws : List String) : warn [] ws = if ws = [] then some [] else none := by
  cases ws <;> simp [warn]

theorem foundAll_append (a b : List Out) : foundAll (a ++ b) = foundAll a ++ foundAll b := by
  induction a with
  | nil => rfl
  | cons x a ih => rw [List.cons_append, foundAll, foundAll, ih, List.append_assoc]

theorem foundOldAll_append (a b : List Out) : foundOldAll (a ++ b) = foundOldAll a ++ foundOldAll b := by
  induction a with
  | nil => rfl
  | cons x a ih => rw [List.cons_append, foundOldAll, foundOldAll, ih, List.append_assoc]

theorem outer_append (a b : List (Option Nat × String)) : outer (a ++ b) = outer a ++ outer b := List.filterMap_append

theorem outer_none (ws : List String) : outer (ws.map (none, ·)) = ws := by
  unfold outer
  rw [List.filterMap_map]
  induction ws with
  | nil => rfl
  | cons w ws ih => simpa [List.filterMap_cons] using ih

/-- The warnings issued in a node, those of its parts included, as the node sees them. -/
def raw (pre post : List String) (kids : List Node) : List (Option Nat × String) := pre.map (none, ·) ++ belongsAll kids ++ post.map (none, ·)

theorem outer_raw (pre post : List String) (kids : List Node) : outer (raw pre post kids) = pre ++ outer (belongsAll kids) ++ post := by
  rw [raw, outer_append, outer_append, outer_none, outer_none]

theorem belongs_kept (id : Nat) (lines pre post : List String) (kids : List Node) :
    belongs (.mk id true .kept lines pre post kids) = (raw pre post kids).map fun p => (p.1.or (some id), p.2) := by
  rw [belongs, raw]
  simp

theorem belongs_other {holder : Bool} {outcome : Outcome} (h : ¬(holder = true ∧ outcome = .kept)) (id : Nat) (lines pre post : List String)
    (kids : List Node) : belongs (.mk id holder outcome lines pre post kids) = raw pre post kids := by
  rw [belongs, raw]
  simp only [if_neg h]
  exact List.map_id' _

theorem outer_kept (id : Nat) (l : List (Option Nat × String)) : outer (l.map fun p => (p.1.or (some id), p.2)) = [] := by
  unfold outer
  rw [List.filterMap_map, List.filterMap_eq_nil_iff]
  rintro ⟨d, w⟩ -
  cases d <;> simp [Option.or]

mutual
theorem visit_inside : ∀ (n : Node) (t : List String) (r : Stack), ∃ outs, visit n (t :: r) = some ((t ++ outer (belongs n)) :: r, outs)
  | .mk id holder outcome lines pre post kids, t, r => by
    rw [visit]
    cases holder with
    | false =>
      obtain ⟨outs, ho⟩ := visitAll_inside kids (t ++ pre) r
      rw [enter]
      simp only [Bool.false_eq_true, if_false]
      rw [warn_cons, Option.bind_some, ho, Option.bind_some]
      simp only [warn_cons, Option.map_some]
      rw [belongs_other (by simp), outer_raw, ← List.append_assoc, ← List.append_assoc]
      exact ⟨_, rfl⟩
    | true =>
      obtain ⟨outs, ho⟩ := visitAll_inside kids ([] ++ pre) (t :: r)
      rw [enter]
      simp only [if_true]
      rw [warn_cons, Option.bind_some, ho, Option.bind_some]
      simp only [warn_cons, Option.map_some]
      by_cases hk : outcome = .kept
      · subst hk
        rw [belongs_kept, outer_kept, List.append_nil]
        exact ⟨_, rfl⟩
      · rw [belongs_other (by simp [hk]), outer_raw]
        simp only [leave, if_neg hk, List.nil_append]
        exact ⟨_, rfl⟩
theorem visitAll_inside : ∀ (ns : List Node) (t : List String) (r : Stack), ∃ outs, visitAll ns (t :: r) = some ((t ++ outer (belongsAll ns)) :: r, outs)
  | [], t, r => ⟨[], by rw [visitAll, belongsAll]; simp [outer]⟩
  | n :: ns, t, r => by
    obtain ⟨o1, h1⟩ := visit_inside n t r
    obtain ⟨o2, h2⟩ := visitAll_inside ns (t ++ outer (belongs n)) r
    refine ⟨o1 ++ o2, ?_⟩
    rw [visitAll, h1, Option.bind_some]
    simp only []
    rw [h2, Option.map_some, belongsAll, outer_append, List.append_assoc]
end

/-- The number of times a warning belongs above a node. -/
theorem count_raw (pre post : List String) (kids : List Node) (i : Nat) (w : String) :
    (raw pre post kids).count (some i, w) = (belongsAll kids).count (some i, w) := by
  rw [raw, List.count_append, List.count_append]
  have : ∀ l : List String, (l.map fun x => ((none : Option Nat), x)).count (some i, w) = 0 := by
    intro l
    rw [List.count_eq_zero, List.mem_map]
    rintro ⟨x, -, h⟩
    cases h
  rw [this, this]
  omega

theorem count_kept (id : Nat) (l : List (Option Nat × String)) (i : Nat) (w : String) :
    (l.map fun p => (p.1.or (some id), p.2)).count (some i, w) = l.count (some i, w) + if i = id then (outer l).count w else 0 := by
  induction l with
  | nil => simp [outer]
  | cons a l ih =>
    obtain ⟨d, x⟩ := a
    rw [List.map_cons, List.count_cons, List.count_cons, ih]
    cases d with
    | some j => simp [outer]; omega
    | none =>
      by_cases hi : i = id
      · subst hi
        by_cases hx : x = w
        · subst hx
          simp [outer]
          omega
        · have : (outer ((none, x) :: l)).count w = (outer l).count w := by
            have : outer ((none, x) :: l) = x :: outer l := by simp [outer]
            rw [this, List.count_cons]
            simp [hx]
          simp [this, hx]
      · have : (id = i) = False := by simp; omega
        simp [hi, this]

theorem count_lines (id : Nat) (lines : List String) (ws : List String) (i : Nat) (w : String) :
    ((lines.map Line.old ++ ws.reverse.map Line.warning).filterMap fun l => match l with | .warning w => some (id, w) | .old _ => none).count (i, w)
      = if i = id then ws.count w else 0 := by
  rw [List.filterMap_append, List.filterMap_map, List.filterMap_map]
  have h1 : lines.filterMap ((fun l => match l with | Line.warning w => some (id, w) | .old _ => none) ∘ Line.old) = [] := by
    rw [List.filterMap_eq_nil_iff]
    intro a _
    rfl
  have h2 : ws.reverse.filterMap ((fun l => match l with | Line.warning w => some (id, w) | .old _ => none) ∘ Line.warning) = ws.reverse.map (id, ·) := by
    rw [← List.filterMap_eq_map]
    rfl
  rw [h1, h2, List.nil_append]
  by_cases hi : i = id
  · subst hi
    rw [if_pos rfl, ← List.count_reverse (l := ws)]
    induction ws.reverse with
    | nil => rfl
    | cons a l ih => rw [List.map_cons, List.count_cons, List.count_cons, ih]; simp
  · rw [if_neg hi, List.count_eq_zero, List.mem_map]
    rintro ⟨x, -, h⟩
    injection h with h _
    exact hi h.symm

theorem old_only (id : Nat) (lines : List String) :
    ((lines.map Line.old).filterMap fun l => match l with | .warning w => some (id, w) | .old _ => none) = [] := by
  rw [List.filterMap_map, List.filterMap_eq_nil_iff]
  intro a _
  rfl

theorem old_found (id : Nat) (lines ws : List String) :
    ((lines.map Line.old ++ ws.map Line.warning).filterMap fun l => match l with | .warning _ => none | .old s => some (id, s)) = lines.map (id, ·) := by
  rw [List.filterMap_append, List.filterMap_map, List.filterMap_map]
  have h1 : ws.filterMap ((fun l => match l with | Line.warning _ => none | .old s => some (id, s)) ∘ Line.warning) = [] := by
    rw [List.filterMap_eq_nil_iff]
    intro a _
    rfl
  rw [h1, List.append_nil, ← List.filterMap_eq_map]
  rfl

/-- The other part of what `leave` returns. -/
theorem leave_outs (id : Nat) (holder : Bool) (outcome : Outcome) (lines : List String) (kids : List Out) (top : List String) (rest : Stack) :
    (leave id holder outcome lines kids (top :: rest)).2 =
      become outcome (.mk id (lines.map .old ++ (if holder then top else []).reverse.map .warning) kids) kids := by
  cases holder <;> cases outcome <;> simp [leave, become] <;> cases rest <;> rfl

theorem leave_outs_nil (id : Nat) (outcome : Outcome) (lines : List String) (kids : List Out) :
    leave id false outcome lines kids [] = ([], become outcome (.mk id (lines.map .old) kids) kids) := by
  cases outcome <;> rfl

/-- What a visit under some stack looks like, if it does not fail. -/
theorem visit_shape {id : Nat} {holder : Bool} {outcome : Outcome} {lines pre post : List String} {kids : List Node} {st st' : Stack} {outs : List Out}
    (h : visit (.mk id holder outcome lines pre post kids) st = some (st', outs)) :
    ∃ s1 s2 os, visitAll kids s1 = some (s2, os) ∧ outs =
      become outcome (.mk id (lines.map .old ++ (if holder then outer (raw pre post kids) else []).reverse.map .warning) os) os := by
  rw [visit] at h
  cases holder with
  | true =>
    rw [enter] at h
    simp only [if_true] at h
    rw [warn_cons, Option.bind_some] at h
    obtain ⟨os, ho⟩ := visitAll_inside kids ([] ++ pre) st
    rw [ho, Option.bind_some] at h
    simp only [warn_cons, Option.map_some] at h
    injection h with h
    refine ⟨_, _, os, ho, ?_⟩
    have := leave_outs id true outcome lines os ([] ++ pre ++ outer (belongsAll kids) ++ post) st
    rw [h] at this
    simp only [] at this
    rw [this, outer_raw]
    simp
  | false =>
    rw [enter] at h
    simp only [Bool.false_eq_true, if_false] at h
    cases st with
    | cons t r =>
      rw [warn_cons, Option.bind_some] at h
      obtain ⟨os, ho⟩ := visitAll_inside kids (t ++ pre) r
      rw [ho, Option.bind_some] at h
      simp only [warn_cons, Option.map_some] at h
      injection h with h
      refine ⟨_, _, os, ho, ?_⟩
      have := leave_outs id false outcome lines os (t ++ pre ++ outer (belongsAll kids) ++ post) r
      rw [h] at this
      simp only [] at this
      rw [this]
      simp
    | nil =>
      rw [warn_nil] at h
      by_cases hp : pre = []
      · rw [if_pos hp, Option.bind_some] at h
        cases ha : visitAll kids [] with
        | none => rw [ha] at h; cases h
        | some p =>
          obtain ⟨s2, os⟩ := p
          rw [ha, Option.bind_some] at h
          simp only [] at h
          refine ⟨[], s2, os, ha, ?_⟩
          cases hw : warn s2 post with
          | none => rw [hw] at h; cases h
          | some s3 =>
            rw [hw, Option.map_some] at h
            injection h with h
            cases s3 with
            | nil =>
              rw [leave_outs_nil] at h
              injection h with _ h
              rw [← h]
              simp
            | cons t r =>
              have := leave_outs id false outcome lines os t r
              rw [h] at this
              simp only [] at this
              rw [this]
              simp
      · rw [if_neg hp] at h
        cases h

mutual
theorem visit_found : ∀ (n : Node) (st st' : Stack) (outs : List Out), NoneRemoved n → visit n st = some (st', outs) → ∀ i w,
    (foundAll outs).count (i, w) = (belongs n).count (some i, w)
  | .mk id holder outcome lines pre post kids, st, st', outs, hn, h, i, w => by
    obtain ⟨s1, s2, os, ha, rfl⟩ := visit_shape h
    rw [NoneRemoved] at hn
    have ih := visitAll_found kids s1 s2 os hn.2 ha i w
    cases outcome with
    | removed => exact absurd rfl hn.1
    | spliced =>
      rw [belongs_other (by simp), count_raw, ← ih, become]
    | kept =>
      simp only [become, foundAll, found, List.append_nil]
      rw [List.count_append, ih]
      cases holder with
      | true =>
        rw [belongs_kept, count_kept, count_raw]
        simp only [if_true]
        rw [count_lines]
        omega
      | false =>
        rw [belongs_other (by simp), count_raw]
        simp only [Bool.false_eq_true, if_false, List.reverse_nil, List.map_nil, List.append_nil]
        rw [old_only, List.count_nil, Nat.zero_add]
theorem visitAll_found : ∀ (ns : List Node) (st st' : Stack) (outs : List Out), NoneRemovedAll ns → visitAll ns st = some (st', outs) → ∀ i w,
    (foundAll outs).count (i, w) = (belongsAll ns).count (some i, w)
  | [], st, st', outs, _, h, i, w => by
    rw [visitAll] at h
    injection h with h
    injection h with _ h
    subst h
    rfl
  | n :: ns, st, st', outs, hn, h, i, w => by
    rw [visitAll] at h
    rw [NoneRemovedAll] at hn
    cases h1 : visit n st with
    | none => rw [h1] at h; cases h
    | some p =>
      obtain ⟨s1, o1⟩ := p
      rw [h1, Option.bind_some] at h
      simp only [] at h
      cases h2 : visitAll ns s1 with
      | none => rw [h2] at h; cases h
      | some p2 =>
        obtain ⟨s2, o2⟩ := p2
        rw [h2, Option.map_some] at h
        injection h with h
        injection h with _ h
        subst h
        rw [foundAll_append, List.count_append, belongsAll, List.count_append, visit_found n _ _ _ hn.1 h1 i w, visitAll_found ns _ _ _ hn.2 h2 i w]
end

mutual
theorem visit_old : ∀ (n : Node) (st st' : Stack) (outs : List Out), NoneRemoved n → visit n st = some (st', outs) → foundOldAll outs = oldLines n
  | .mk id holder outcome lines pre post kids, st, st', outs, hn, h => by
    obtain ⟨s1, s2, os, ha, rfl⟩ := visit_shape h
    rw [NoneRemoved] at hn
    have ih := visitAll_old kids s1 s2 os hn.2 ha
    cases outcome with
    | removed => exact absurd rfl hn.1
    | spliced => simp [become, oldLines, ih]
    | kept =>
      simp only [become, foundOldAll, foundOld, List.append_nil]
      rw [old_found, oldLines, ih]
      simp
theorem visitAll_old : ∀ (ns : List Node) (st st' : Stack) (outs : List Out), NoneRemovedAll ns → visitAll ns st = some (st', outs) →
    foundOldAll outs = oldLinesAll ns
  | [], st, st', outs, _, h => by
    rw [visitAll] at h
    injection h with h
    injection h with _ h
    subst h
    rfl
  | n :: ns, st, st', outs, hn, h => by
    rw [visitAll] at h
    rw [NoneRemovedAll] at hn
    cases h1 : visit n st with
    | none => rw [h1] at h; cases h
    | some p =>
      obtain ⟨s1, o1⟩ := p
      rw [h1, Option.bind_some] at h
      simp only [] at h
      cases h2 : visitAll ns s1 with
      | none => rw [h2] at h; cases h
      | some p2 =>
        obtain ⟨s2, o2⟩ := p2
        rw [h2, Option.map_some] at h
        injection h with h
        injection h with _ h
        subst h
        rw [foundOldAll_append, oldLinesAll, visit_old n _ _ _ hn.1 h1, visitAll_old ns _ _ _ hn.2 h2]
end

mutual
theorem visit_empty : ∀ n : Node, (Covered n → ∃ outs, visit n [] = some ([], outs)) ∧ (¬ Covered n → visit n [] = none)
  | .mk id holder outcome lines pre post kids => by
    rw [visit, Covered]
    cases holder with
    | true =>
      refine ⟨fun _ => ?_, fun h => absurd (.inl rfl) h⟩
      rw [enter]
      simp only [if_true]
      rw [warn_cons, Option.bind_some]
      obtain ⟨os, ho⟩ := visitAll_inside kids ([] ++ pre) []
      rw [ho, Option.bind_some]
      simp only [warn_cons, Option.map_some]
      cases outcome <;> exact ⟨_, rfl⟩
    | false =>
      obtain ⟨hk, hk'⟩ := visitAll_empty kids
      rw [enter]
      simp only [Bool.false_eq_true, if_false, false_or]
      rw [warn_nil]
      refine ⟨fun ⟨h1, h2, h3⟩ => ?_, fun h => ?_⟩
      · obtain ⟨os, ho⟩ := hk h3
        rw [if_pos h1, Option.bind_some, ho, Option.bind_some]
        simp only []
        rw [h2, warn, Option.map_some, leave_outs_nil]
        exact ⟨_, rfl⟩
      · by_cases h1 : pre = []
        · rw [if_pos h1, Option.bind_some]
          by_cases h3 : CoveredAll kids
          · obtain ⟨os, ho⟩ := hk h3
            rw [ho, Option.bind_some]
            simp only []
            rw [warn_nil, if_neg (fun h2 => h ⟨h1, h2, h3⟩)]
            rfl
          · rw [hk' h3]
            rfl
        · rw [if_neg h1]
          rfl
theorem visitAll_empty : ∀ ns : List Node, (CoveredAll ns → ∃ outs, visitAll ns [] = some ([], outs)) ∧ (¬ CoveredAll ns → visitAll ns [] = none)
  | [] => ⟨fun _ => ⟨[], by rw [visitAll]⟩, fun h => absurd (by rw [CoveredAll]; trivial) h⟩
  | n :: ns => by
    obtain ⟨h1, h1'⟩ := visit_empty n
    obtain ⟨h2, h2'⟩ := visitAll_empty ns
    rw [visitAll, CoveredAll]
    refine ⟨fun ⟨ha, hb⟩ => ?_, fun h => ?_⟩
    · obtain ⟨o1, ho1⟩ := h1 ha
      obtain ⟨o2, ho2⟩ := h2 hb
      rw [ho1, Option.bind_some]
      simp only []
      rw [ho2]
      exact ⟨_, rfl⟩
    · by_cases ha : Covered n
      · obtain ⟨o1, ho1⟩ := h1 ha
        rw [ho1, Option.bind_some]
        simp only []
        rw [h2' (fun hb => h ⟨ha, hb⟩)]
        rfl
      · rw [h1' ha]
        rfl
end

/-! ## Properties -/

/-- **C131 (partial).** Every warning that is issued is in the result, as often as it is issued and above the closest node around it that is kept and can have
lines above it; there are no others. Missing: warnings in nodes that are removed, see `removed_with_node`, and those of a statement at the top that is not kept,
see `top_statement_loses_warnings`. -/
theorem warnings_kept_partial (n : Node) (hr : NoneRemoved n) (outs : List Out) (h : visit n [] = some ([], outs)) (i : Nat) (w : String) :
    (foundAll outs).count (i, w) = (belongs n).count (some i, w) :=
  visit_found n [] [] outs hr h i w

/-- **C131.** A statement that is kept has its lines above it, and then the warnings that belong there, the latest first. -/
theorem lines_then_warnings (id : Nat) (lines pre post : List String) (kids : List Node) (st : Stack) :
    ∃ os, visit (.mk id true .kept lines pre post kids) st =
      some (st, [.mk id (lines.map .old ++ (pre ++ outer (belongsAll kids) ++ post).reverse.map .warning) os]) := by
  obtain ⟨os, ho⟩ := visitAll_inside kids ([] ++ pre) st
  refine ⟨os, ?_⟩
  rw [visit, enter]
  simp only [if_true]
  rw [warn_cons, Option.bind_some, ho, Option.bind_some]
  simp only [warn_cons, Option.map_some]
  simp [leave]

/-- **C131.** Lines that were above a statement are still there. -/
theorem old_lines_kept (n : Node) (hr : NoneRemoved n) (st st' : Stack) (outs : List Out) (h : visit n st = some (st', outs)) :
    foundOldAll outs = oldLines n :=
  visit_old n st st' outs hr h

/-- **C131.** Issuing a warning fails iff there is no node around that can have lines above it; whatever happens to the nodes, traversing code in which this
does not happen succeeds, and nothing is left over for the next traversal. -/
theorem fails_iff_uncovered (n : Node) : (visit n [] = none ↔ ¬ Covered n) ∧ ∀ st outs, visit n [] = some (st, outs) → st = [] := by
  obtain ⟨h1, h2⟩ := visit_empty n
  refine ⟨⟨fun h hc => ?_, h2⟩, fun st outs h => ?_⟩
  · obtain ⟨o, ho⟩ := h1 hc
    rw [ho] at h
    cases h
  · by_cases hc : Covered n
    · obtain ⟨o, ho⟩ := h1 hc
      rw [ho] at h
      injection h with h
      injection h with h _
      exact h.symm
    · rw [h2 hc] at h
      cases h

/-- **C131.** In a statement no warning fails, and what is above the statements around it changes only by the warnings that belong there. -/
theorem inside_statement (n : Node) (t : List String) (r : Stack) : ∃ outs, visit n (t :: r) = some ((t ++ outer (belongs n)) :: r, outs) :=
  visit_inside n t r

/-! ## Deviations -/

/-- **C131, deviation.** Warnings of a statement that is not kept, for example because it is split at semicolons, are lost if no statement is around it: whatever
the warnings are, the result has none. -/
theorem top_statement_loses_warnings (root id : Nat) (lines ws : List String) :
    ∃ outs, visit (.mk root false .kept [] [] [] [.mk id true .spliced lines [] ws [.mk (id + 1) false .kept [] [] [] []]]) [] = some ([], outs) ∧
      foundAll outs = [] := by
  refine ⟨[.mk root [] [.mk (id + 1) [] []]], ?_, by simp [foundAll, found]⟩
  simp [visit, visitAll, enter, warn, warn_cons, leave, become]

/-- **C131, deviation.** Warnings that were put above a statement are lost if a statement around it is removed. -/
theorem removed_with_node (root outer inner : Nat) (ws : List String) :
    ∃ outs, visit (.mk root true .kept [] [] [] [.mk outer true .removed [] [] [] [.mk inner true .kept [] [] ws []]]) [] = some ([], outs) ∧
      foundAll outs = [] := by
  refine ⟨[.mk root [] []], ?_, by simp [foundAll, found]⟩
  simp [visit, visitAll, enter, warn, warn_cons, leave, become]

/-! ## Concrete cases -/

/-- A function with a `with` statement that has a comment and issues two warnings, and a split line that issues one. -/
def sample : Node :=
  .mk 0 true .kept ["# f"] [] [] [.mk 1 true .kept ["# with"] ["a"] ["b"] [.mk 2 false .kept [] [] [] []], .mk 3 true .spliced [] [] ["c"] []]

example : visit sample [] = some ([], [.mk 0 [.old "# f", .warning "c"]
    [.mk 1 [.old "# with", .warning "b", .warning "a"] [.mk 2 [] []]]]) := by rfl
example : belongs sample = [(some 1, "a"), (some 1, "b"), (some 0, "c")] := by rfl
example : NoneRemoved sample ∧ Covered sample := by simp [sample, NoneRemoved, NoneRemovedAll, Covered]
example : visit (.mk 0 false .kept [] ["a"] [] []) [] = none := by rfl

end FF.Warnings
