/-!
# Where isolated operations are inserted

Models `_Insertions` and `_resolve_insertions` (`src/fastforward/_autoquant/cst/passes.py:408-506, 592-626`): while the statements of a block are rewritten, each being
replaced by a new node, assignments are recorded that are to be inserted before a statement; at the end of the block they are inserted.

Simplifications: nodes are numbered, and compared by number, as libcst compares by identity; the code of a statement and of an insertion is an opaque text; the map
from positions to insertions is the search for insertions with that position.
-/

namespace FF.Insertions

/-! ## Model -/

variable {T : Type}

/-- A statement of a block: its node, whether it has lines of comments and empty lines in front (`_HasLeadingLines`), these, and its code. -/
structure Stmt (T : Type) where
  id : Nat
  hasLeading : Bool
  leading : List T
  code : T
  deriving DecidableEq, Repr

/-- `_NodeInsertion` (passes.py:408-412), of one target: the code, and the node before which it is inserted. -/
structure Insertion (T : Type) where
  code : T
  position : Nat
  deriving DecidableEq, Repr

/-- `update_position` (passes.py:492-505). -/
def update (old new : Nat) (ins : List (Insertion T)) : List (Insertion T) :=
  ins.map fun i => if i.position = old then { i with position := new } else i

/-- `body.index(position)`, split there: what is before, the statement, what is after. -/
def splitAt (p : Nat) : List (Stmt T) → Option (List (Stmt T) × Stmt T × List (Stmt T))
  | [] => none
  | s :: l => if s.id = p then some ([], s, l) else match splitAt p l with
    | some (a, x, b) => some (s :: a, x, b)
    | none => none

/-- The loop of `_resolve_insertions` (passes.py:605-624), with the number of the next new node; `none`: `body.index` raises. -/
def resolve : List (Insertion T) → List (Stmt T) → Nat → Option (List (Stmt T))
  | [], body, _ => some body
  | i :: ins, body, next =>
    match splitAt i.position body with
    | none => none
    | some (a, s, b) =>
      if s.hasLeading then resolve (update i.position next ins) (a ++ ⟨next + 1, true, s.leading, i.code⟩ :: { s with id := next, leading := [] } :: b) (next + 2)
      else resolve ins (a ++ ⟨next, true, [], i.code⟩ :: s :: b) (next + 1)
  termination_by ins => ins.length
  decreasing_by all_goals simp [update]

/-- What happens in a block: an insertion is recorded before a statement (`add_insertion`, passes.py:445-470), or a statement is left and replaced by a new node
(`on_leave`, passes.py:587-588). -/
inductive Event (T : Type) where
  | insert (code : T) (position : Nat)
  | leave (old new : Nat)

def record (ins : List (Insertion T)) : Event T → List (Insertion T)
  | .insert c p => ins ++ [⟨c, p⟩]
  | .leave old new => update old new ins

/-- A block: the events of its statements, and the insertion at its end into the new statements. -/
def block (evs : List (Event T)) (body : List (Stmt T)) (next : Nat) : Option (List (Stmt T)) := resolve (evs.foldl record []) body next

/-! ## Specification -/

/-- The lines of a block as written. -/
def lines (body : List (Stmt T)) : List T := body.flatMap fun s => s.leading ++ [s.code]

/-- A statement while the block is rewritten: the node before, the operations that are moved out of it, in order, and the statement after. -/
structure Rewritten (T : Type) where
  old : Nat
  moved : List T
  new : Stmt T

/-- The events of a statement: the operations are moved out of it while it is visited, then it is replaced. -/
def Rewritten.events (r : Rewritten T) : List (Event T) := r.moved.map (Event.insert · r.old) ++ [.leave r.old r.new.id]

/-- The lines as they should be: the comments, the operations that were moved out, and the statement. -/
def Rewritten.lines (r : Rewritten T) : List T := r.new.leading ++ r.moved ++ [r.new.code]

/-! ## Lemmas -/

/-- The insertions before a node. -/
def at_ (ins : List (Insertion T)) (p : Nat) : List T := (ins.filter fun i => i.position = p).map (·.code)

/-- The lines with insertions before nodes. -/
def expected (ins : List (Insertion T)) (body : List (Stmt T)) : List T := body.flatMap fun s => s.leading ++ at_ ins s.id ++ [s.code]

theorem splitAt_some {p : Nat} : ∀ {body : List (Stmt T)} {a s b}, splitAt p body = some (a, s, b) → body = a ++ s :: b ∧ s.id = p
  | [], _, _, _, h => by cases h
  | x :: l, a, s, b, h => by
    unfold splitAt at h
    split at h
    · cases h
      exact ⟨rfl, by assumption⟩
    · split at h
      · rename_i hq
        cases h
        obtain ⟨e, hs⟩ := splitAt_some hq
        exact ⟨by rw [e]; rfl, hs⟩
      · cases h

theorem splitAt_mem {p : Nat} : ∀ {body : List (Stmt T)}, p ∈ body.map (·.id) → ∃ r, splitAt p body = some r
  | [], h => by cases h
  | x :: l, h => by
    unfold splitAt
    split
    · exact ⟨_, rfl⟩
    · rename_i hne
      have : p ∈ l.map (·.id) := by
        rcases List.mem_cons.1 h with e | e
        · exact absurd e.symm hne
        · exact e
      obtain ⟨⟨a, s, b⟩, e⟩ := splitAt_mem this
      exact ⟨(x :: a, s, b), by rw [e]⟩

theorem at_update_other {ins : List (Insertion T)} {old new p : Nat} (h1 : p ≠ old) (h2 : p ≠ new) : at_ (update old new ins) p = at_ ins p := by
  unfold at_ update
  induction ins with
  | nil => rfl
  | cons i ins ih =>
    by_cases hi : i.position = old
    · have hp : ¬ old = p := fun e => h1 e.symm
      have hn : ¬ new = p := fun e => h2 e.symm
      simpa [List.filter_cons, hi, hp, hn] using ih
    · by_cases hip : i.position = p
      · subst hip
        simp only [List.map_cons, if_neg hi, List.filter_cons, decide_true, if_true]
        rw [ih]
      · simpa [List.filter_cons, hi, hip] using ih

theorem at_update_new {ins : List (Insertion T)} {old new : Nat} (h : ∀ i ∈ ins, i.position ≠ new) : at_ (update old new ins) new = at_ ins old := by
  unfold at_ update
  induction ins with
  | nil => rfl
  | cons i ins ih =>
    have ih := ih fun j hj => h j (List.mem_cons_of_mem _ hj)
    by_cases hi : i.position = old
    · simp only [List.map_cons, hi, if_true, List.filter_cons, decide_true, List.map_cons]
      rw [ih]
    · have := h i List.mem_cons_self
      simpa [List.filter_cons, hi, this] using ih

theorem at_none {ins : List (Insertion T)} {p : Nat} (h : ∀ i ∈ ins, i.position ≠ p) : at_ ins p = [] := by
  unfold at_
  rw [List.filter_eq_nil_iff.2 fun i hi => by simpa using h i hi]
  rfl

theorem expected_congr {ins ins' : List (Insertion T)} {body : List (Stmt T)} (h : ∀ s ∈ body, at_ ins s.id = at_ ins' s.id) : expected ins body = expected ins' body := by
  induction body with
  | nil => rfl
  | cons s l ih =>
    simp only [expected, List.flatMap_cons, h s List.mem_cons_self]
    exact congrArg _ (ih fun x hx => h x (List.mem_cons_of_mem _ hx))

theorem expected_append (ins : List (Insertion T)) (a b : List (Stmt T)) : expected ins (a ++ b) = expected ins a ++ expected ins b := by simp [expected]

theorem expected_cons (ins : List (Insertion T)) (s : Stmt T) (b : List (Stmt T)) : expected ins (s :: b) = s.leading ++ at_ ins s.id ++ [s.code] ++ expected ins b := by
  simp [expected]

theorem expected_nil (body : List (Stmt T)) : expected [] body = lines body := by simp [expected, lines, at_]

theorem resolve_lines : ∀ (n : Nat) (ins : List (Insertion T)) (body : List (Stmt T)) (next : Nat), ins.length = n → (body.map (·.id)).Nodup → (∀ s ∈ body, s.id < next) →
    (∀ s ∈ body, s.hasLeading = false → s.leading = []) → (∀ i ∈ ins, i.position ∈ body.map (·.id)) →
    ∃ out, resolve ins body next = some out ∧ lines out = expected ins body := by
  intro n
  induction n with
  | zero =>
    intro ins body next hl _ _ _ _
    have : ins = [] := List.eq_nil_of_length_eq_zero hl
    subst this
    exact ⟨body, by rw [resolve], (expected_nil body).symm⟩
  | succ n ih =>
    intro ins body next hl hnd hlt hlead hpos
    cases ins with
    | nil => cases hl
    | cons i ins =>
      obtain ⟨⟨a, s, b⟩, hs⟩ := splitAt_mem (hpos i List.mem_cons_self)
      obtain ⟨hbody, hid⟩ := splitAt_some hs
      rw [resolve, hs]
      simp only
      have hlen : ins.length = n := by simpa using hl
      subst hbody
      simp only [List.map_append, List.map_cons] at hnd
      have hnda := List.nodup_append.1 hnd
      have hndb := List.nodup_cons.1 hnda.2.1
      have hne_a : ∀ x ∈ a, x.id ≠ s.id := fun x hx => hnda.2.2 x.id (List.mem_map.2 ⟨x, hx, rfl⟩) s.id List.mem_cons_self
      have hne_b : ∀ x ∈ b, x.id ≠ s.id := fun x hx e => hndb.1 (e ▸ List.mem_map.2 ⟨x, hx, rfl⟩)
      have hlt_a : ∀ x ∈ a, x.id < next := fun x hx => hlt x (List.mem_append_left _ hx)
      have hlt_b : ∀ x ∈ b, x.id < next := fun x hx => hlt x (List.mem_append_right _ (List.mem_cons_of_mem _ hx))
      have hlt_s : s.id < next := hlt s (List.mem_append_right _ List.mem_cons_self)
      have hposlt : ∀ j ∈ ins, j.position < next := by
        intro j hj
        obtain ⟨x, hx, e⟩ := List.mem_map.1 (hpos j (List.mem_cons_of_mem _ hj))
        rw [← e]
        exact hlt x hx
      have hat : ∀ p, p ≠ s.id → at_ (i :: ins) p = at_ ins p := by
        intro p hp
        unfold at_
        rw [List.filter_cons_of_neg (by simpa using fun e => hp (e.symm.trans hid.symm))]
      have hats : at_ (i :: ins) s.id = i.code :: at_ ins s.id := by
        unfold at_
        rw [List.filter_cons_of_pos (by simpa using hid.symm)]
        rfl
      have hinspos : ∀ j ∈ ins, j.position ∈ a.map (·.id) ∨ j.position = s.id ∨ j.position ∈ b.map (·.id) := by
        intro j hj
        have := hpos j (List.mem_cons_of_mem _ hj)
        simpa using this
      rw [expected_append, expected_cons, hats, expected_congr (ins := i :: ins) (ins' := ins) (body := a) fun x hx => hat x.id (hne_a x hx),
        expected_congr (ins := i :: ins) (ins' := ins) (body := b) fun x hx => hat x.id (hne_b x hx)]
      split
      · obtain ⟨out, h1, h2⟩ := ih (update i.position next ins) (a ++ ⟨next + 1, true, s.leading, i.code⟩ :: { s with id := next, leading := [] } :: b) (next + 2)
          (by simpa [update] using hlen)
          (by
            simp only [List.map_append, List.map_cons]
            refine List.nodup_append.2 ⟨hnda.1, List.nodup_cons.2 ⟨?_, List.nodup_cons.2 ⟨?_, hndb.2⟩⟩, ?_⟩
            · intro h
              rcases List.mem_cons.1 h with h | h
              · omega
              · obtain ⟨x, hx, e⟩ := List.mem_map.1 h
                have := hlt_b x hx
                omega
            · intro h
              obtain ⟨x, hx, e⟩ := List.mem_map.1 h
              have := hlt_b x hx
              omega
            · intro p hp q hq e
              subst e
              obtain ⟨x, hx, e⟩ := List.mem_map.1 hp
              have := hlt_a x hx
              rcases List.mem_cons.1 hq with h | h
              · omega
              · rcases List.mem_cons.1 h with h | h
                · omega
                · exact hnda.2.2 p hp p (List.mem_cons_of_mem _ h) rfl)
          (by
            intro x hx
            simp only [List.mem_append, List.mem_cons] at hx
            rcases hx with hx | rfl | rfl | hx
            · have := hlt_a x hx; omega
            · simp
            · simp
            · have := hlt_b x hx; omega)
          (by
            intro x hx hh
            simp only [List.mem_append, List.mem_cons] at hx
            rcases hx with hx | rfl | rfl | hx
            · exact hlead x (List.mem_append_left _ hx) hh
            · cases hh
            · rfl
            · exact hlead x (List.mem_append_right _ (List.mem_cons_of_mem _ hx)) hh)
          (by
            intro j hj
            obtain ⟨k, hk, e⟩ := List.mem_map.1 hj
            subst e
            split
            · simp
            · rename_i hne
              rcases hinspos k hk with h | h | h
              · simp only [List.map_append]; exact List.mem_append_left _ h
              · exact absurd (h.trans hid) hne
              · simp only [List.map_append, List.map_cons]
                exact List.mem_append_right _ (List.mem_cons_of_mem _ (List.mem_cons_of_mem _ h)))
        refine ⟨out, h1, ?_⟩
        rw [h2, expected_append, expected_cons, expected_cons]
        simp only
        rw [← hid, at_update_new fun j hj => Nat.ne_of_lt (hposlt j hj),
          expected_congr (body := a) (ins := update s.id next ins) (ins' := ins) fun x hx => at_update_other (hne_a x hx) (Nat.ne_of_lt (hlt_a x hx)),
          expected_congr (body := b) (ins := update s.id next ins) (ins' := ins) fun x hx => at_update_other (hne_b x hx) (Nat.ne_of_lt (hlt_b x hx)),
          at_update_other (by omega) (by omega), at_none fun j hj => Nat.ne_of_lt (Nat.lt_succ_of_lt (hposlt j hj))]
        simp
      · rename_i hh
        have hh : s.hasLeading = false := by simpa using hh
        have hsl : s.leading = [] := hlead s (List.mem_append_right _ List.mem_cons_self) hh
        obtain ⟨out, h1, h2⟩ := ih ins (a ++ ⟨next, true, [], i.code⟩ :: s :: b) (next + 1) hlen
          (by
            simp only [List.map_append, List.map_cons]
            refine List.nodup_append.2 ⟨hnda.1, List.nodup_cons.2 ⟨?_, hnda.2.1⟩, ?_⟩
            · intro h
              rcases List.mem_cons.1 h with h | h
              · omega
              · obtain ⟨x, hx, e⟩ := List.mem_map.1 h
                have := hlt_b x hx
                omega
            · intro p hp q hq e
              subst e
              rcases List.mem_cons.1 hq with h | h
              · obtain ⟨x, hx, e⟩ := List.mem_map.1 hp
                have := hlt_a x hx
                omega
              · exact hnda.2.2 p hp p h rfl)
          (by
            intro x hx
            simp only [List.mem_append, List.mem_cons] at hx
            rcases hx with hx | rfl | rfl | hx
            · have := hlt_a x hx; omega
            · simp
            · omega
            · have := hlt_b x hx; omega)
          (by
            intro x hx hx'
            simp only [List.mem_append, List.mem_cons] at hx
            rcases hx with hx | rfl | rfl | hx
            · exact hlead x (List.mem_append_left _ hx) hx'
            · rfl
            · exact hsl
            · exact hlead x (List.mem_append_right _ (List.mem_cons_of_mem _ hx)) hx')
          (by
            intro j hj
            rcases hinspos j hj with h | h | h
            · simp only [List.map_append]; exact List.mem_append_left _ h
            · simp [h]
            · simp only [List.map_append, List.map_cons]
              exact List.mem_append_right _ (List.mem_cons_of_mem _ (List.mem_cons_of_mem _ h)))
        refine ⟨out, h1, ?_⟩
        rw [h2, expected_append, expected_cons, expected_cons, hsl]
        simp only
        rw [at_none (ins := ins) fun j hj => Nat.ne_of_lt (hposlt j hj)]
        simp

theorem record_events : ∀ (rs : List (Rewritten T)) (ins : List (Insertion T)), (rs.map (·.old)).Nodup → (∀ r ∈ rs, ∀ i ∈ ins, i.position ≠ r.old) →
    (∀ r ∈ rs, ∀ q ∈ rs, r.new.id ≠ q.old) →
    (rs.flatMap Rewritten.events).foldl record ins = ins ++ rs.flatMap fun r => r.moved.map fun c => ⟨c, r.new.id⟩
  | [], ins, _, _, _ => by simp
  | r :: rs, ins, hnd, hi, hnew => by
    have hins : ∀ (l : List T) (ins : List (Insertion T)), (l.map (Event.insert · r.old)).foldl record ins = ins ++ l.map fun c => ⟨c, r.old⟩ := by
      intro l
      induction l with
      | nil => intro ins; simp
      | cons c l ih => intro ins; simp [record, ih]
    have hup : update r.old r.new.id (ins ++ r.moved.map fun c => ⟨c, r.old⟩) = ins ++ r.moved.map fun c => ⟨c, r.new.id⟩ := by
      unfold update
      rw [List.map_append, List.map_map]
      congr 1
      · refine (List.map_congr_left fun i hi' => ?_).trans (List.map_id _)
        rw [if_neg (hi r List.mem_cons_self i hi')]
        rfl
      · simp
    rw [List.flatMap_cons, List.foldl_append, Rewritten.events, List.foldl_append, hins]
    simp only [List.foldl_cons, List.foldl_nil, record, hup]
    rw [record_events rs _ (List.nodup_cons.1 hnd).2 ?_ fun x hx y hy => hnew x (List.mem_cons_of_mem _ hx) y (List.mem_cons_of_mem _ hy)]
    · simp
    · intro x hx i hi'
      rcases List.mem_append.1 hi' with h | h
      · exact hi x (List.mem_cons_of_mem _ hx) i h
      · obtain ⟨c, -, rfl⟩ := List.mem_map.1 h
        exact hnew r List.mem_cons_self x (List.mem_cons_of_mem _ hx)

theorem at_moved : ∀ (rs : List (Rewritten T)), (rs.map (·.new.id)).Nodup → ∀ r ∈ rs,
    at_ (rs.flatMap fun r => r.moved.map fun c => (⟨c, r.new.id⟩ : Insertion T)) r.new.id = r.moved
  | [], _, _, h => by cases h
  | x :: rs, hnd, r, hr => by
    have hd := List.nodup_cons.1 hnd
    have happ : ∀ (l l' : List (Insertion T)) (p : Nat), at_ (l ++ l') p = at_ l p ++ at_ l' p := by
      intro l l' p
      simp [at_]
    have hself : ∀ (l : List T) (p : Nat), at_ (l.map fun c => (⟨c, p⟩ : Insertion T)) p = l := by
      intro l p
      induction l with
      | nil => rfl
      | cons c l ih => simpa [at_] using ih
    rw [List.flatMap_cons, happ]
    rcases List.mem_cons.1 hr with rfl | hr
    · rw [hself, at_none, List.append_nil]
      intro i hi e
      obtain ⟨y, hy, hi⟩ := List.mem_flatMap.1 hi
      obtain ⟨c, -, rfl⟩ := List.mem_map.1 hi
      exact hd.1 (List.mem_map.2 ⟨y, hy, e⟩)
    · rw [at_moved rs hd.2 r hr, at_none, List.nil_append]
      intro i hi e
      obtain ⟨c, -, rfl⟩ := List.mem_map.1 hi
      exact hd.1 (List.mem_map.2 ⟨r, hr, e.symm⟩)

/-! ## Properties -/

/-- **C145.** Operations that are moved out of the statements of a block stand directly before the statement they are taken from, in the order in which they were
moved out, and after its comments; all other lines stay as they are, in order, and nothing is lost. The new nodes are different from each other and from the old
ones. -/
theorem placed (rs : List (Rewritten T)) (next : Nat) (hold : (rs.map (·.old)).Nodup) (hids : (rs.map (·.new.id)).Nodup) (hne : ∀ r ∈ rs, ∀ q ∈ rs, r.new.id ≠ q.old)
    (hnext : ∀ r ∈ rs, r.new.id < next) (hlead : ∀ r ∈ rs, r.new.hasLeading = false → r.new.leading = []) :
    ∃ out, block (rs.flatMap Rewritten.events) (rs.map (·.new)) next = some out ∧ lines out = rs.flatMap Rewritten.lines := by
  unfold block
  rw [record_events rs [] hold (by simp) hne, List.nil_append]
  obtain ⟨out, h1, h2⟩ := resolve_lines _ (rs.flatMap fun r => r.moved.map fun c => (⟨c, r.new.id⟩ : Insertion T)) (rs.map (·.new)) next rfl
    (by rw [List.map_map]; exact hids)
    (by intro s hs; obtain ⟨r, hr, rfl⟩ := List.mem_map.1 hs; exact hnext r hr)
    (by intro s hs; obtain ⟨r, hr, rfl⟩ := List.mem_map.1 hs; exact hlead r hr)
    (by
      intro i hi
      obtain ⟨r, hr, hi⟩ := List.mem_flatMap.1 hi
      obtain ⟨c, -, rfl⟩ := List.mem_map.1 hi
      exact List.mem_map.2 ⟨r.new, List.mem_map.2 ⟨r, hr, rfl⟩, rfl⟩)
  refine ⟨out, h1, h2.trans ?_⟩
  have hl : ∀ l : List (Rewritten T), (∀ r ∈ l, r ∈ rs) →
      expected (rs.flatMap fun r => r.moved.map fun c => (⟨c, r.new.id⟩ : Insertion T)) (l.map (·.new)) = l.flatMap Rewritten.lines := by
    intro l
    induction l with
    | nil => intro _; rfl
    | cons r l ih =>
      intro h
      rw [List.map_cons, expected_cons, at_moved rs hids r (h r List.mem_cons_self), ih fun x hx => h x (List.mem_cons_of_mem _ hx), List.flatMap_cons]
      rfl
  exact hl rs fun _ h => h

/-- **C145.** A block from which nothing is moved is not changed. -/
theorem unchanged (rs : List (Rewritten T)) (next : Nat) (h : ∀ r ∈ rs, r.moved = []) : block (rs.flatMap Rewritten.events) (rs.map (·.new)) next = some (rs.map (·.new)) := by
  have : ∀ l : List (Rewritten T), (∀ r ∈ l, r.moved = []) → (l.flatMap Rewritten.events).foldl record ([] : List (Insertion T)) = [] := by
    intro l
    induction l with
    | nil => intro _; rfl
    | cons r l ih =>
      intro h
      rw [List.flatMap_cons, List.foldl_append, Rewritten.events, h r List.mem_cons_self]
      simp only [List.map_nil, List.nil_append, List.foldl_cons, List.foldl_nil, record, update]
      exact ih fun x hx => h x (List.mem_cons_of_mem _ hx)
  unfold block
  rw [this rs h, resolve]

/-! ## Concrete cases -/

/-- `# both`, `result = sigmoid(x * y) + sigmoid(y)` and `return result`. -/
def demo : List (Rewritten String) :=
  [⟨0, ["_tmp_1 = x * y", "_tmp_2 = sigmoid(_tmp_1)", "_tmp_3 = sigmoid(y)"], ⟨2, true, ["# both"], "result = _tmp_2 + _tmp_3"⟩⟩, ⟨1, [], ⟨3, true, ["# end"], "return result"⟩⟩]

example : (block (demo.flatMap Rewritten.events) (demo.map (·.new)) 4).map lines =
    some ["# both", "_tmp_1 = x * y", "_tmp_2 = sigmoid(_tmp_1)", "_tmp_3 = sigmoid(y)", "result = _tmp_2 + _tmp_3", "# end", "return result"] := by
  obtain ⟨out, h1, h2⟩ := placed demo 4 (by decide) (by decide) (by decide) (by decide) (by decide)
  rw [h1, Option.map_some, h2]
  rfl

end FF.Insertions
